import Verif.Lemmas.Safe
import Verif.Props.Recursion
import Verif.Props.Lottery
import Verif.Props.GalleyVec

/-!
# Enough data means success
-/

namespace BS
open BlobLike

/-- For every large budget `q` returns the same value, satisfying `P`. -/
def RunsTo {σ α : Type} (q : Nat → M σ α) (s : σ) (P : α → σ → Prop) : Prop :=
  ∃ N v s', (∀ n ≥ N, q n s = (.ok v, s')) ∧ P v s'

namespace RunsTo
variable {σ α γ : Type} {s : σ}

theorem const {m : M σ α} {P : α → σ → Prop} {v : α} {s' : σ} (h : m s = (.ok v, s')) (hP : P v s') :
    RunsTo (fun _ => m) s P := ⟨0, v, s', fun _ _ => h, hP⟩

theorem pure {a : α} {P : α → σ → Prop} (h : P a s) : RunsTo (fun _ => (Pure.pure a : M σ α)) s P :=
  const rfl h

theorem bind {q : Nat → M σ α} {f : Nat → α → M σ γ} {P : α → σ → Prop} {Q : γ → σ → Prop}
    (h : RunsTo q s P) (hf : ∀ v s', P v s' → RunsTo (fun n => f n v) s' Q) :
    RunsTo (fun n => q n >>= f n) s Q := by
  obtain ⟨N, v, s', hN, hP⟩ := h
  obtain ⟨N', v', s'', hN', hQ⟩ := hf v s' hP
  refine ⟨max N N', v', s'', fun n hn => ?_, hQ⟩
  dsimp only
  rw [M.bind_ok (hN n (le_trans (le_max_left _ _) hn))]
  exact hN' n (le_trans (le_max_right _ _) hn)

theorem mono {q : Nat → M σ α} {P Q : α → σ → Prop} (h : RunsTo q s P) (hPQ : ∀ v s, P v s → Q v s) :
    RunsTo q s Q := by
  obtain ⟨N, v, s', hN, hP⟩ := h
  exact ⟨N, v, s', hN, hPQ _ _ hP⟩

theorem shift {q : Nat → M σ α} {P : α → σ → Prop} (h : RunsTo (fun n => q (n + 1)) s P) : RunsTo q s P := by
  obtain ⟨N, v, s', hN, hP⟩ := h
  refine ⟨N + 1, v, s', fun n hn => ?_, hP⟩
  obtain ⟨m, rfl⟩ : ∃ m, n = m + 1 := ⟨n - 1, by omega⟩
  exact hN m (by omega)

end RunsTo

theorem runs_size {G : Graph} {fl : Flags} {sel : Sel} {i : Id} {v : Int} (a : ABlob)
    (h : SizeRuns G fl sel i v fl) :
    RunsTo (fun n => (liftF (sizeQ G n sel i) : XM ABlob Int)) (fl, a) (fun r s' => r = v ∧ s' = (fl, a)) := by
  obtain ⟨N, h⟩ := h
  refine ⟨N, v, (fl, a), fun n hn => ?_, rfl, rfl⟩
  show ((sizeQ G n sel i fl).1, ((sizeQ G n sel i fl).2, a)) = _
  rw [h n hn]

/-! ## Vectors -/

theorem totalLen_flatten (parts : List Bytes) : parts.flatten.length = totalLen parts := by
  induction parts with
  | nil => rfl
  | cons p ps ih => rw [List.flatten_cons, List.length_append, ih, totalLen_cons]

theorem one_le_totalLen {parts : List Bytes} {m : Nat} (h : ∀ p ∈ parts, m ≤ p.length) (hne : parts ≠ []) :
    m ≤ totalLen parts := by
  cases parts with
  | nil => exact absurd rfl hne
  | cons p ps => rw [totalLen_cons]; have := h p (List.mem_cons_self ..); omega

theorem count_le_totalLen {l : List ABlob} (h : ∀ p ∈ l, 1 ≤ List.length p) : l.length ≤ totalLen l := by
  induction l with
  | nil => exact Nat.zero_le _
  | cons p ps ih =>
    have := ih fun q hq => h q (List.mem_cons_of_mem _ hq)
    have := h p (List.mem_cons_self ..)
    rw [totalLen_cons, List.length_cons]; omega

/-- With as many bytes as the galley's `minSize()`. -/
theorem vec_enough {mn mx : Int} {a : ABlob} (h0 : 0 ≤ mn) (hm : mn ≤ INT_MAX - 4 ∨ mn = mx)
    (hlen : (a.length : Int) ≤ INT_MAX / 2)
    (hmx : mx ≤ INT_MAX)
    (hk : (mx = -1 ∧ a.length ≤ 3000000 ∧ ((a.length : Int) - 2) / (mn + 2) ≤ 32768) ∨ (mn ≤ mx ∧ 1 ≤ mx))
    (hmin : mn + enumOverhead mn mx ≤ a.length) :
    ∃ n parts left, vecSplit n mn mx a = (.ok parts, left) ∧ parts ≠ [] ∧
      (∀ p ∈ parts, mn ≤ (List.length p : Int) ∧ List.length p ≤ a.length) ∧
      mn + enumOverhead mn mx + List.length left ≤ a.length ∧ parts.length ≤ a.length := by
  obtain ⟨m, rfl⟩ : ∃ m : Nat, mn = m := ⟨mn.toNat, by omega⟩
  unfold enumOverhead at hmin ⊢
  by_cases he : (m : Int) = mx
  · subst he
    rw [if_pos rfl] at hmin ⊢
    obtain ⟨parts, left, e, c1, c2, c3⟩ := fixedLoop_abs (k := m) (by omega) (by omega) (a.length / m + 1) a (by omega)
    have hsum : totalLen parts + left.length = a.length := by
      rw [← c1]; rw [List.length_append, totalLen_flatten]
    have hne : parts ≠ [] := by
      rintro rfl
      rw [totalLen_nil] at hsum
      omega
    have h1 := one_le_totalLen (fun p hp => (c2 p hp).ge) hne
    have hcount := count_le_totalLen fun p hp => (c2 p hp).ge.trans' (by omega : 1 ≤ m)
    refine ⟨a.length / m + 1, parts, left, ?_, hne, fun p hp => ?_, by omega, by omega⟩
    · rw [vecSplit_enough (by omega) (by omega) (by omega), if_pos rfl]; exact e
    · have := c2 p hp
      have := mem_le_totalLen hp
      omega
  · rw [if_neg he] at hmin ⊢
    rcases hk with ⟨rfl, hS, hc⟩ | ⟨h1, h2⟩
    · rw [if_pos rfl] at hmin ⊢
      have hc' : (a.length - 2) / (m + 2) ≤ 32768 := by
        have : ((a.length : Int) - 2) / ((m : Int) + 2) = (((a.length - 2) / (m + 2) : Nat) : Int) := by
          push_cast
          rw [Nat.cast_sub (by omega)]
          rfl
        omega
      obtain ⟨parts, left, e, c1, _, c2, c3, c4, c5⟩ := vecUnbounded_abs (m := m) a hS (by omega) hc'
      have hl := congrArg List.length c2
      rw [List.length_append, totalLen_flatten, List.length_drop] at hl
      have hne : parts ≠ [] := by rintro rfl; simp at c1
      have h1 := one_le_totalLen c5 hne
      refine ⟨0, parts, left, ?_, hne, fun p hp => ?_, by omega, by omega⟩
      · rw [vecSplit_enough (by omega) (by omega) (by omega), if_neg (by omega), if_pos rfl]; exact e
      · have := c5 p hp
        have := mem_le_totalLen hp
        omega
    · obtain ⟨k, rfl⟩ : ∃ k : Nat, mx = k := ⟨mx.toNat, by omega⟩
      rw [if_neg (by omega)] at hmin ⊢
      obtain ⟨ops, left, e, c1, c2, c3, c4, c5⟩ := variatedLoop_abs (mn := m) (mx := k) (by omega) (by omega)
        (by omega) (a.length + 1) a (by omega)
      have hl := congrArg List.length c1
      rw [List.length_append] at hl
      have hsum : ∀ ops : List (Bytes × Bytes), (∀ x ∈ ops, x.1.length = 2 ∧ m ≤ x.2.length ∧ x.2.length ≤ k) →
          (ops.flatMap fun x => x.1 ++ x.2).length = 2 * ops.length + totalLen (ops.map Prod.snd) := by
        intro ops
        induction ops with
        | nil => intro _; rfl
        | cons x xs ih =>
          intro h
          have := ih fun y hy => h y (List.mem_cons_of_mem _ hy)
          rw [List.flatMap_cons, List.length_append, List.length_append, this, List.map_cons, totalLen_cons,
            List.length_cons, (h x (List.mem_cons_self ..)).1]
          omega
      have hs := hsum ops c3
      have hne : ops ≠ [] := by
        rintro rfl
        simp at hl
        omega
      have hne' : ops.map Prod.snd ≠ [] := by simpa using hne
      have hpos : 1 ≤ ops.length := List.length_pos_iff.2 hne
      have hge : ∀ p ∈ ops.map Prod.snd, m ≤ p.length := by
        intro p hp
        obtain ⟨x, hx, rfl⟩ := List.mem_map.1 hp
        exact (c3 x hx).2.1
      have h3 := one_le_totalLen hge hne'
      refine ⟨a.length + 1, ops.map Prod.snd, left, ?_, hne', fun p hp => ?_, by omega,
        by rw [List.length_map]; omega⟩
      · rw [vecSplit_enough (by omega) (by omega) (by omega), if_neg (by omega), if_neg (by omega)]
        have e1 : (M.lift (ckInt ((k : Int) - m)) : M ABlob Int) a = (.ok ((k : Int) - m), a) := by
          rw [ckInt_ok (by omega) (by omega)]; rfl
        rw [M.bind_ok e1]
        exact e
      · have := hge p hp
        have := mem_le_totalLen hp
        omega

/-! ## Leaves -/

/-- What a successful extraction of stamp `i` leaves of `a`. -/
structure Good (G : Graph) (fl : Flags) (i : Id) (a : ABlob) (s' : Flags × ABlob) : Prop where
  flags : s'.1 = fl
  le : List.length s'.2 ≤ List.length a
  takes : Honest G fl → mnv G fl i + List.length s'.2 ≤ List.length a ∧
    (mxv G fl i ≠ -1 → (List.length a : Int) ≤ mxv G fl i + List.length s'.2)

/-- It takes no more than the minimum. -/
def Spares (G : Graph) (fl : Flags) (i : Id) (a : ABlob) (s' : Flags × ABlob) : Prop :=
  (List.length a : Int) ≤ mnv G fl i + List.length s'.2

theorem leaf_min {G : Graph} {fl : Flags} {i : Id} {sel : Sel} {v : Int} (h : sizeQ G 1 sel i fl = (.ok v, fl)) :
    SizeRuns G fl sel i v fl := SizeRuns.intro h

theorem leaf_runs {G : Graph} {fl : Flags} {i : Id} {F : Prop} {q : Nat → XM ABlob Bytes} {a : ABlob} (s : Bytes)
    (a' : ABlob) (h : ∀ n, q n (fl, a) = (.ok s, (fl, a'))) (hle : List.length a' ≤ List.length a)
    (ht : Honest G fl → mnv G fl i + List.length a' ≤ List.length a ∧
      (mxv G fl i ≠ -1 → (List.length a : Int) ≤ mxv G fl i + List.length a'))
    (hs : F → (List.length a : Int) ≤ mnv G fl i + List.length a') :
    RunsTo q (fl, a) (fun _ s' => Good G fl i a s' ∧ (F → Spares G fl i a s')) :=
  ⟨0, s, (fl, a'), fun n _ => h n, ⟨rfl, hle, ht⟩, hs⟩

theorem leaf_enough {G : Graph} {fl : Flags} {L : Nat} (h : Plentiful G fl L) {i : Id} {nd : Node}
    (hG : G i = some nd) (hk : nd.plainKids = []) (hc : nd.choices = [])
    (hp : ∀ l, nd ≠ .picker l) (hl : ∀ r l w m x, nd ≠ .lottery r l w m x) (hv : ∀ cs j u, nd ≠ .seq cs j u)
    {a : ABlob} (hlen : a.length ≤ L) (hm : mnv G fl i ≤ a.length) :
    RunsTo (fun n => extract G n i) (fl, a) (fun _ s' => Good G fl i a s' ∧ (nd.Frugal → Spares G fl i a s')) := by
  have hL := h.small
  have hL2 : L < 1073741823 := hL
  apply RunsTo.shift
  cases nd with
  | arith t =>
    have e1 : mnv G fl i = t.size := mnv_eq (leaf_min (by unfold sizeQ; rw [hG]; rfl))
    have e2 : mxv G fl i = t.size := mxv_eq (leaf_min (by unfold sizeQ; rw [hG]; rfl))
    rw [e1] at hm
    obtain ⟨s, hs⟩ := toString_ok t (bs := a.take t.size) (by rw [List.length_take]; omega)
    have e := extractArithStr_abs t a
    rw [if_neg (by omega), hs] at e
    refine leaf_runs (s) (a.drop t.size) (fun n => ?_) ?_ (fun _ => ?_) (fun _ => ?_)
    · unfold extract
      rw [hG]
      show ((extractArithStr t a).1, (fl, (extractArithStr t a).2)) = _
      rw [e]
    · rw [List.length_drop]; omega
    · rw [e1, e2]
      rw [List.length_drop]; omega
    · rw [e1]
      rw [List.length_drop]; omega
  | dict ws =>
    have e1 : mnv G fl i = (chooseStampSize ws.length).1 := mnv_eq (leaf_min (by unfold sizeQ; rw [hG]; rfl))
    have e2 : mxv G fl i = (chooseStampSize ws.length).1 := mxv_eq (leaf_min (by unfold sizeQ; rw [hG]; rfl))
    rw [e1] at hm
    obtain ⟨g1, g2⟩ := h.dict i ws hG
    obtain ⟨k, hk, -, e⟩ := (extractDict_abs ws (List.length_pos_iff.2 g1) g2 a).2 (by omega)
    refine leaf_runs (ws[k]) (a.drop (chooseStampSize ws.length).1) (fun n => ?_) ?_ (fun _ => ?_) (fun _ => ?_)
    · unfold extract
      rw [hG]
      show ((extractDict ws a).1, (fl, (extractDict ws a).2)) = _
      rw [e]
    · rw [List.length_drop]; omega
    · rw [e1, e2]
      rw [List.length_drop]; omega
    · rw [e1]
      rw [List.length_drop]; omega
  | jsonStr =>
    have e1 : mnv G fl i = 8 := mnv_eq (leaf_min (by unfold sizeQ; rw [hG]; rfl))
    rw [e1] at hm
    have hw : (chooseStampSize lcAlphaSmall.length).1 = 1 := by decide +kernel
    obtain ⟨k, hk, -, e⟩ := (extractDict_abs lcAlphaSmall (by decide +kernel) (by decide +kernel) a).2
      (by rw [hw]; omega)
    rw [hw] at e
    refine leaf_runs ([34] ++ lcAlphaSmall[k] ++ [34]) (a.drop 1) (fun n => ?_) ?_ (fun hh => absurd hG (hh.noJsonStr i)) (fun _ => ?_)
    · unfold extract
      rw [hG]
      have e' : (extractJsonStr : M ABlob Bytes) a = (.ok ([34] ++ lcAlphaSmall[k] ++ [34]), a.drop 1) :=
        M.bind_ok e
      show (((extractJsonStr : M ABlob Bytes) a).1, (fl, ((extractJsonStr : M ABlob Bytes) a).2)) = _
      rw [e']
    · rw [List.length_drop]; omega
    · rw [e1]
      rw [List.length_drop]; omega
  | latin1 =>
    have e1 : mnv G fl i = 1 := mnv_eq (leaf_min (by unfold sizeQ; rw [hG]; rfl))
    have e2 : mxv G fl i = -1 := mxv_eq (leaf_min (by unfold sizeQ; rw [hG]; rfl))
    rw [e1] at hm
    have e := extractText_abs latin1Char a (by omega)
    rw [if_neg (by omega)] at e
    refine leaf_runs (a.map latin1Char) ([]) (fun n => ?_) ?_ (fun _ => ?_) (fun hf => hf.elim)
    · unfold extract
      rw [hG]
      show (((extractText latin1Char : M ABlob Bytes) a).1, (fl, ((extractText latin1Char : M ABlob Bytes) a).2)) = _
      rw [e]
    · exact Nat.zero_le _
    · rw [e1, e2]
      show _ + ((0 : Nat) : Int) ≤ _ ∧ _
      exact ⟨by omega, fun c => absurd rfl c⟩
  | ascii =>
    have e1 : mnv G fl i = 1 := mnv_eq (leaf_min (by unfold sizeQ; rw [hG]; rfl))
    have e2 : mxv G fl i = -1 := mxv_eq (leaf_min (by unfold sizeQ; rw [hG]; rfl))
    rw [e1] at hm
    have e := extractText_abs asciiChar a (by omega)
    rw [if_neg (by omega)] at e
    refine leaf_runs (a.map asciiChar) ([]) (fun n => ?_) ?_ (fun _ => ?_) (fun hf => hf.elim)
    · unfold extract
      rw [hG]
      show (((extractText asciiChar : M ABlob Bytes) a).1, (fl, ((extractText asciiChar : M ABlob Bytes) a).2)) = _
      rw [e]
    · exact Nat.zero_le _
    · rw [e1, e2]
      show _ + ((0 : Nat) : Int) ≤ _ ∧ _
      exact ⟨by omega, fun c => absurd rfl c⟩
  | user u =>
    have e1 : mnv G fl i = u.mn := mnv_eq (leaf_min (by unfold sizeQ; rw [hG]; rfl))
    have e2 : mxv G fl i = u.mx := mxv_eq (leaf_min (by unfold sizeQ; rw [hG]; rfl))
    have h0 := (h.grammar.mn_bounds (i := i) (by rw [hG]; simp) fl).1
    rw [e1] at hm h0
    obtain ⟨s, hs⟩ := h.user i u hG a hm
    unfold extract
    rw [hG]
    dsimp only
    refine .bind (P := fun v s' => v = a ∧ s' = (fl, a)) ⟨0, a, (fl, a), fun _ _ => rfl, rfl, rfl⟩ ?_
    rintro v _ ⟨rfl, rfl⟩
    refine .bind (P := fun z s' => z = v.length ∧ s' = (fl, v)) ⟨0, v.length, (fl, v), fun _ _ => rfl, rfl, rfl⟩ ?_
    rintro z _ ⟨rfl, rfl⟩
    refine .bind (P := fun _ s' => s' = (fl, v.drop (min (u.behave v).2 v.length)))
      ⟨0, v.take (min (u.behave v).2 v.length), (fl, v.drop (min (u.behave v).2 v.length)), fun _ _ => ?_, rfl⟩ ?_
    · have hc : (chop (min (u.behave v).2 v.length) : M ABlob ABlob) v
          = (.ok (v.take (min (u.behave v).2 v.length)), v.drop (min (u.behave v).2 v.length)) := by
        rw [chop_abs, if_neg (by omega)]
      show (((chop (min (u.behave v).2 v.length) : M ABlob ABlob) v).1,
          (fl, ((chop (min (u.behave v).2 v.length) : M ABlob ABlob) v).2)) = _
      rw [hc]
    rintro _ _ rfl
    refine ⟨0, s, (fl, v.drop (min (u.behave v).2 v.length)), fun n _ => ?_, ⟨rfl, ?_, fun hh => ?_⟩, fun hf => ?_⟩
    · show ((u.behave v).1, _) = _
      rw [hs]
    · show List.length (List.drop _ v) ≤ _
      rw [List.length_drop]; omega
    · obtain ⟨q1, q2⟩ := hh.user i u hG v hm
      rw [e1, e2]
      show _ + ((List.length (List.drop _ v) : Nat) : Int) ≤ _ ∧ (_ → _ ≤ _ + ((List.length (List.drop _ v) : Nat) : Int))
      rw [List.length_drop]
      refine ⟨by omega, fun hx => ?_⟩
      have := q2 hx
      omega
    · have : ((u.behave v).2 : Int) ≤ u.mn := hf v
      unfold Spares
      rw [e1]
      show _ ≤ _ + ((List.length (List.drop _ v) : Nat) : Int)
      rw [List.length_drop]; omega
  | vec c j => cases hk
  | set cs j u => exact absurd hG (h.grammar.noSet _ _ _ _)
  | seq cs j u => exact absurd rfl (hv _ _ _)
  | unary op c => cases hk
  | lottery r l w m x => exact absurd rfl (hl _ _ _ _ _)
  | picker l => exact absurd rfl (hp _)

/-! ## Handing on -/

theorem runs_delegate {G : Graph} {fl : Flags} {i j : Id} {bs rest : Bytes} (hd : Delegates G fl i bs j rest)
    (h1 : bs.length < 9223372036854775808) (h2 : rest.length < 9223372036854775808)
    {P : Bytes → Flags × ABlob → Prop}
    (h : RunsTo (fun n => extract G n j) (fl, (rest : ABlob)) P) (hP : ∀ v s', P v s' → s'.1 = fl) :
    RunsTo (fun n => extract G n i) (fl, (bs : ABlob)) P := by
  obtain ⟨N, s, ⟨f', left⟩, hN, hp⟩ := h
  have hf : f' = fl := hP _ _ hp
  subst hf
  have hr : ∀ l : Bytes, l.length < 9223372036854775808 → Reachable (Blob.mk' (.at l 0) l.length) :=
    fun l hl => .new (by omega) hl
  have hh : ∀ l : Bytes, l.length < 9223372036854775808 → Holds (Blob.mk' (.at l 0) l.length) l := by
    intro l hl
    rw [holds_iff (hr l hl).valid, (Blob.mk'_valid (off := 0) (n := l.length) (by omega) hl).2]
    simp
  obtain ⟨d1, -⟩ := hd _ _ (hr bs h1) (hh bs h1) (hr rest h2) (hh rest h2)
  have k := (d1 s left).2 (Returns.intro (hr rest h2).valid (hh rest h2) ⟨N, hN⟩)
  obtain ⟨n, hn⟩ := Returns.inv (hr bs h1) (hh bs h1) k
  exact ⟨n, s, (f', left), hn, hp⟩

theorem lottery_sizes {G : Graph} (hg : PickerGrammar G) {fl : Flags} {i : Id} {r : Bool} {l : List Id} {w : Nat}
    {smin smax : Int} (hG : G i = some (.lottery r l w smin smax)) :
    mnv G fl i = smin + w ∧ (mxv G fl i ≠ -1 → smax ≠ -1 ∧ mxv G fl i = smax + w) := by
  have hn : G i ≠ none := by rw [hG]; simp
  obtain ⟨N1, h1⟩ := hg.hasMin hn fl
  obtain ⟨N2, h2⟩ := hg.hasMax hn fl
  have e1 := h1 (N1 + 1) (by omega)
  have e2 := h2 (N2 + 1) (by omega)
  unfold sizeQ at e1 e2
  rw [hG] at e1 e2
  have e1 : (ckInt (smin + w), fl) = _ := e1
  constructor
  · have := (Prod.mk.inj e1).1
    unfold ckInt at this
    split at this
    · exact (Out.ok.inj this).symm
    · cases this
  · intro hne
    by_cases hs : smax = -1
    · subst hs
      have e2 : ((Out.ok (-1) : Out Int), fl) = _ := e2
      exact absurd (Out.ok.inj (Prod.mk.inj e2).1).symm hne
    · refine ⟨hs, ?_⟩
      dsimp only at e2
      rw [if_neg hs] at e2
      have e2 : (ckInt (smax + w), fl) = _ := e2
      have := (Prod.mk.inj e2).1
      unfold ckInt at this
      split at this
      · exact (Out.ok.inj this).symm
      · cases this

/-! ## All stamps -/

/-- What is proved of every extraction. -/
def Fine (G : Graph) (fl : Flags) (i : Id) (a : ABlob) (s' : Flags × ABlob) : Prop :=
  Good G fl i a s' ∧ ∀ nd, G i = some nd → nd.Frugal → Spares G fl i a s'

theorem runs_each {G : Graph} {fl : Flags} {a : ABlob} (l : List (Id × ABlob))
    (h : ∀ p ∈ l, RunsTo (fun n => extract G n p.1) (fl, p.2) (fun _ s' => s'.1 = fl)) :
    ∀ k : Int, 0 ≤ k → k + l.length ≤ INT_MAX →
      RunsTo (fun n => extractEach (extract G n) k l) (fl, a) (fun _ s' => s' = (fl, a)) := by
  induction l with
  | nil => exact fun _ _ _ => .pure rfl
  | cons p l ih =>
    intro k h0 hk
    rw [List.length_cons] at hk
    obtain ⟨i, c⟩ := p
    refine .bind (P := fun _ s' => s' = (fl, a)) ?_ ?_
    · obtain ⟨N, v, s', hN, hP⟩ := h (i, c) (List.mem_cons_self ..)
      refine ⟨N, v, (s'.1, a), fun n hn => ?_, by rw [hP]⟩
      have e : extract G n i (fl, c) = (.ok v, s') := hN n hn
      show ((extract G n i (fl, c)).1, ((extract G n i (fl, c)).2.1, a)) = _
      rw [e]
    · rintro v _ rfl
      refine .bind (P := fun v s' => v = k + 1 ∧ s' = (fl, a))
        ⟨0, k + 1, (fl, a), fun _ _ => by rw [ckInt_ok (by omega) (by omega)]; rfl, rfl, rfl⟩ ?_
      rintro k' _ ⟨rfl, rfl⟩
      refine .bind (ih (fun p hp => h p (List.mem_cons_of_mem _ hp)) (k + 1) (by omega) (by omega)) ?_
      rintro vs _ rfl
      exact .pure rfl

theorem runs_seq {G : Graph} {fl : Flags} (hg : PickerGrammar G) {K : Nat} (l : List Id)
    (hn : ∀ j ∈ l, G j ≠ none)
    (h : ∀ j ∈ l, ∀ a : ABlob, a.length ≤ K → mnv G fl j ≤ a.length →
      RunsTo (fun n => extract G n j) (fl, a) (fun _ s' => Fine G fl j a s'))
    (hf : ∀ j ∈ l.dropLast, ∀ nd, G j = some nd → nd.Frugal)
    (a : ABlob) (ha : a.length ≤ K) (hm : (l.map (mnv G fl)).sum ≤ (a.length : Int)) :
    RunsTo (fun n => extractSeq (extract G n) l) (fl, a) (fun _ s' => s'.1 = fl ∧ List.length s'.2 ≤ a.length ∧
      (Honest G fl → (l.map (mnv G fl)).sum + List.length s'.2 ≤ (a.length : Int))) := by
  induction l generalizing a with
  | nil => exact .pure ⟨rfl, le_refl _, fun _ => by simp⟩
  | cons j l ih =>
    rw [List.map_cons, List.sum_cons] at hm ⊢
    have hnn : 0 ≤ (l.map (mnv G fl)).sum := by
      apply List.sum_nonneg
      intro x hx
      obtain ⟨q, hq, rfl⟩ := List.mem_map.1 hx
      exact (hg.mn_bounds (hn q (List.mem_cons_of_mem _ hq)) fl).1
    refine .bind (h j (List.mem_cons_self ..) a ha (by omega)) ?_
    rintro v ⟨f', a'⟩ ⟨⟨hf1, ha', ht⟩, hsp⟩
    dsimp only at hf1 ha' ht
    have hf1 : fl = f' := hf1.symm; subst hf1
    have hm' : (l.map (mnv G fl)).sum ≤ (a'.length : Int) := by
      cases l with
      | nil => simp
      | cons k l =>
        obtain ⟨nd, hnd⟩ := Option.ne_none_iff_exists'.1 (hn j (List.mem_cons_self ..))
        have := hsp nd hnd (hf j (by simp) nd hnd)
        unfold Spares at this
        dsimp only at this
        omega
    refine .bind (ih (fun q hq => hn q (List.mem_cons_of_mem _ hq)) (fun q hq => h q (List.mem_cons_of_mem _ hq))
      ?_ a' (le_trans ha' ha) hm') ?_
    · intro q hq
      refine hf q ?_
      cases l with
      | nil => simp at hq
      | cons k l => rw [List.dropLast_cons_of_ne_nil (by simp)]; exact List.mem_cons_of_mem _ hq
    · rintro vs ⟨f', a''⟩ ⟨hf2, ha'', ht2⟩
      dsimp only at ha'' ht2
      refine .pure ⟨hf2, le_trans ha'' ha', fun hh => ?_⟩
      have := (ht hh).1
      have := ht2 hh
      dsimp only
      omega

theorem plenty {G : Graph} {fl : Flags} {L : Nat} (h : Plentiful G fl L) (hi : Idle fl) :
    ∀ K ≤ L, ∀ i, G i ≠ none → ∀ a : ABlob, a.length ≤ K → mnv G fl i ≤ a.length →
      RunsTo (fun n => extract G n i) (fl, a) (fun _ s' => Fine G fl i a s') := by
  have hg := h.grammar
  have hL : L < 1073741823 := h.small
  intro K
  induction K using Nat.strong_induction_on with
  | _ K ihK =>
  intro hK i
  induction i using hg.guarded.wf.induction with
  | _ i ihI =>
  intro hn a ha hm
  obtain ⟨nd, hG⟩ := Option.ne_none_iff_exists'.1 hn
  by_cases hleaf : nd.plainKids = [] ∧ nd.choices = [] ∧ (∀ l, nd ≠ .picker l) ∧ (∀ r l w m x, nd ≠ .lottery r l w m x) ∧
      (∀ cs j u, nd ≠ .seq cs j u)
  · obtain ⟨k1, k2, k3, k4, k5⟩ := hleaf
    refine (leaf_enough h hG k1 k2 k3 k4 k5 (le_trans ha hK) hm).mono fun _ s' ⟨p1, p2⟩ => ⟨p1, fun nd' e => ?_⟩
    rw [hG] at e; cases e; exact p2
  have hb := hg.mn_bounds hn fl
  have hnf : ¬ nd.Frugal → ∀ {s' : Flags × ABlob}, Good G fl i a s' → Fine G fl i a s' := by
    intro hnf s' hgood
    refine ⟨hgood, fun nd' e hf => ?_⟩
    rw [hG] at e; cases e; exact absurd hf hnf
  cases nd with
  | vec c join =>
    have hc : G c ≠ none := hg.closed i _ hG c (Or.inl (by simp [Node.plainKids]))
    have hcb := hg.mn_bounds hc fl
    have hxb := hg.mx_bounds hc fl
    rw [hg.vec_min hG fl] at hm
    have hov := enumOverhead_nonneg (mnv G fl c) (mxv G fl c)
    obtain ⟨n0, parts, left, e, c1, c2, c3, c4⟩ := vec_enough (a := a) hcb.1 (by omega) (by omega) hxb.2 (by
      rcases h.vec i c join hG _ _ (hg.hasMin hc fl) (hg.hasMax hc fl) with ⟨q1, q2, q3⟩ | q
      · refine Or.inl ⟨q1, by omega, le_trans (Int.ediv_le_ediv (by omega) (by omega)) q3⟩
      · exact Or.inr q) hm
    apply RunsTo.shift
    unfold extract
    rw [hG]
    dsimp only
    refine .bind (runs_size a (hg.hasMin hc fl)) ?_
    rintro mn _ ⟨rfl, rfl⟩
    refine .bind (runs_size a (hg.hasMax hc fl)) ?_
    rintro mx _ ⟨rfl, rfl⟩
    refine .bind (P := fun l s' => l = parts ∧ s' = (fl, left)) ⟨n0, parts, (fl, left), fun n hn => ?_, rfl, rfl⟩ ?_
    · have : vecSplit n (mnv G fl c) (mxv G fl c) a = (.ok parts, left) := by
        rcases fle_vecSplit hn (mnv G fl c) (mxv G fl c) a with e' | e'
        · rw [e] at e'; cases e'
        · rw [← e', e]
      show ((vecSplit n (mnv G fl c) (mxv G fl c) a).1, (fl, (vecSplit n (mnv G fl c) (mxv G fl c) a).2)) = _
      rw [this]
    rintro l _ ⟨rfl, rfl⟩
    refine .bind (runs_each _ ?_ 0 (le_refl _) (by rw [List.length_map]; omega)) ?_
    · intro p hp
      obtain ⟨q, hq, rfl⟩ := List.mem_map.1 hp
      have := c2 q hq
      exact (ihI c ⟨_, hG, List.mem_singleton.2 rfl⟩ hc q (by omega) this.1).mono fun _ _ h => h.1.flags
    · rintro xs _ rfl
      refine .pure (hnf (fun h => h) ⟨rfl, by dsimp only; omega, fun _ => ⟨?_, fun hx => ?_⟩⟩)
      · rw [hg.vec_min hG fl]; exact c3
      · exact absurd (hg.not_leaf_max hG (by simp [Node.plainKids]) fl) hx
  | set cs j u => exact absurd hG (hg.noSet _ _ _ _)
  | seq cs join unb =>
    have hsum : mnv G fl i = (cs.map (mnv G fl)).sum := by
      rw [hg.seq_min hG fl, ← Fin.sum_univ_fun_getElem]
      rfl
    apply RunsTo.shift
    unfold extract
    rw [hG]
    dsimp only
    refine .bind (runs_seq hg cs (fun j hj => hg.closed i _ hG j (Or.inl hj))
      (fun j hj a ha hm => ihI j ⟨_, hG, hj⟩ (hg.closed i _ hG j (Or.inl hj)) a ha hm)
      (h.seq i cs join unb hG) a ha (by rw [← hsum]; exact hm)) ?_
    rintro xs ⟨f', a'⟩ ⟨q1, q2, q3⟩
    refine .pure (hnf (fun h => h) ⟨q1, q2, fun hh => ⟨?_, fun hx => ?_⟩⟩)
    · rw [hsum]; exact q3 hh
    · obtain rfl := hg.seqUnb i cs join unb hG
      exact absurd (mxv_eq (max_seq hG)) hx
  | unary op c =>
    have hc : G c ≠ none := hg.closed i _ hG c (Or.inl (by simp [Node.plainKids]))
    have e := hg.unary_min hG fl
    apply RunsTo.shift
    unfold extract
    rw [hG]
    dsimp only
    refine .bind (ihI c ⟨_, hG, List.mem_singleton.2 rfl⟩ hc a ha (by rw [← e]; exact hm)) ?_
    rintro xs ⟨f', a'⟩ ⟨⟨q1, q2, q3⟩, _⟩
    refine .pure (hnf (fun h => h) ⟨q1, q2, fun hh => ⟨?_, fun hx => ?_⟩⟩)
    · rw [e]; exact (q3 hh).1
    · exact absurd (hg.not_leaf_max hG (by simp [Node.plainKids]) fl) hx
  | lottery r l w smin smax =>
    obtain ⟨hw, hlen, ⟨j0, hj0, m0, hm0, hle0⟩, hsum⟩ := h.lottery i r l w smin smax hG
    have hc : ∀ j ∈ l, G j ≠ none := fun j hj => hg.closed i _ hG j (Or.inr hj)
    obtain ⟨s1, s2⟩ := lottery_sizes hg (fl := fl) hG
    have hs : LotSizes G fl l (mnv G fl) (mxv G fl) := by
      refine ⟨fun j hj => ⟨hg.hasMin (hc j hj) fl, hg.mn_bounds (hc j hj) fl⟩, fun j hj => ⟨hg.hasMax (hc j hj) fl, ?_⟩⟩
      have := hg.mx_bounds (hc j hj) fl
      have := hsum j hj _ _ (hg.hasMin (hc j hj) fl) (hg.hasMax (hc j hj) fl)
      omega
    obtain ⟨j, hj, d1, d2⟩ := C29_lottery_picks_fitting hG hw hs ⟨j0, hj0, by rw [mnv_eq hm0]; exact hle0⟩ hlen
      (bs := a) (by rw [s1] at hm; exact hm) (fun _ => by omega)
    have h0 := (hg.mn_bounds (hc j hj) fl).1
    have h00 := (hg.mn_bounds (hc j0 hj0) fl).1
    rw [mnv_eq hm0] at h00
    have hld : (a.drop w).length = a.length - w := List.length_drop
    have hwl : w ≤ a.length := by omega
    refine runs_delegate (P := fun _ s' => Fine G fl i a s') d2 (by omega) (by omega) ?_ fun _ _ h => h.1.flags
    refine (ihK (K - w) (by omega) (by omega) j (hc j hj) (a.drop w) (by omega) (by rw [hld]; exact d1)).mono ?_
    rintro v ⟨f', a'⟩ ⟨⟨q1, q2, q3⟩, _⟩
    dsimp only at q1 q2 q3
    have hld' : List.length (List.drop w a) = List.length a - w := hld
    rw [hld'] at q2 q3
    refine hnf (fun h => h) ⟨q1, by dsimp only; omega, fun hh => ?_⟩
    obtain ⟨t1, t2⟩ := hh.lottery i r l w smin smax hG j hj _ _ (hg.hasMin (hc j hj) fl) (hg.hasMax (hc j hj) fl)
    obtain ⟨t3, t4⟩ := q3 hh
    dsimp only
    refine ⟨by omega, fun hx => ?_⟩
    obtain ⟨t5, t6⟩ := s2 hx
    obtain ⟨t7, t8⟩ := t2 t5
    have := t4 t7
    omega
  | picker pool =>
    have hc : ∀ j ∈ pool, G j ≠ none := fun j hj => hg.closed i _ hG j (Or.inr hj)
    obtain ⟨j, hj, m, mx, p1, p2, p3, -, p4⟩ := (C31_picker_partial hg hG (h.picker i pool hG) hi (hg.hasMin hn fl)
      (by omega) a).1 hm
    have hm0 := (hg.mn_bounds (hc j hj) fl).1
    have e1 := mnv_eq p1
    have hld : (a.drop 2).length = a.length - 2 := List.length_drop
    refine runs_delegate (P := fun _ s' => Fine G fl i a s') p4 (by omega) (by omega) ?_ fun _ _ h => h.1.flags
    refine (ihK (K - 2) (by omega) (by omega) j (hc j hj) (a.drop 2) (by omega) (by rw [hld]; omega)).mono ?_
    rintro v ⟨f', a'⟩ ⟨⟨q1, q2, q3⟩, _⟩
    dsimp only at q1 q2 q3
    have hld' : List.length (List.drop 2 a) = List.length a - 2 := hld
    rw [hld'] at q2 q3
    refine hnf (fun h => h) ⟨q1, by dsimp only; omega, fun hh => ?_⟩
    obtain ⟨t3, t4⟩ := q3 hh
    dsimp only
    have hle : FlLe fl fl := fun _ => ⟨rfl, id⟩
    have hdj := (hg.exact_general (fl0 := fl) fl j hle
      (fun p hp1 hp2 _ => by rw [hp2] at hp1; cases hp1) (hc j hj)).1 (by omega)
    have hle' := (hg.exact_general (fl0 := fl) fl i hle
      (fun p hp1 hp2 _ => by rw [hp2] at hp1; cases hp1) hn).2 _ (by omega)
      (Derives.avoid hi (.pick hG hj hdj))
    refine ⟨by omega, fun hx => ?_⟩
    have hr0 : (fl i).isRec = false := by
      by_contra hcon
      exact hx (mxv_eq (max_picker_in hG (by simp at hcon; simp [hcon])))
    rcases hg.picker_max hG (hi i) hr0 with ⟨_, e⟩ | ⟨u1, u2, r, u3, u4, u5, u6⟩
    · exact absurd e hx
    · rcases hg.dichotomy fl j _ (FlLe.to_setIn fl i) (hc j hj) with d | ⟨_, d⟩
      · exact absurd d (u1 j hj)
      · have b := hg.mx_bounds hn fl
        have ur : r ≤ INT_MAX := by
          rcases u4 with h | ⟨j, hj, h⟩
          · omega
          · rw [h]; exact (hg.mx_bounds (hc j hj) _).2
        have hw : wrap32 (r + 2) = r + 2 := by
          rw [u6] at b
          unfold wrap32 at b ⊢; omega
        have := t4 (by rw [d]; exact u1 j hj)
        have := u3 j hj
        omega
  | _ => exact absurd ⟨rfl, rfl, by simp, by simp, by simp⟩ hleaf

end BS
