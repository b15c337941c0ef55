import Verif.Spec.Truthful
import Verif.Lemmas.Ample
import Verif.Lemmas.Shuffle
import Verif.Props.VecRuns

/-!
# What a stamp takes when the sizes are right
-/

namespace BS
open BlobLike

/-- What an unbounded list takes at least. -/
theorem vec_takes_unbounded {m : Nat} (hm : m ≤ 2 ^ 24) {a left : ABlob} {parts : List ABlob} {n : Nat}
    (hl : List.length a < 2 ^ 31) (hmin : m + 4 ≤ List.length a) (hcm : (List.length a - 2) / (m + 2) ≤ 65534)
    (h : vecSplit n m (-1) a = (.ok parts, left)) : m + 4 + List.length left ≤ List.length a := by
  obtain ⟨b, hr, hh⟩ := exists_blob (bs := a) (by omega)
  obtain ⟨h1, h2, h3, h4⟩ := C19_every_run_partial hm hr hh hl (VecReturns.intro hr.valid hh h)
  have ho : littleEndian (a.take 2) < 65536 := by
    rw [← leNat_eq]
    have ho := leNat_lt (a.take 2)
    have hle : (a.take 2).length ≤ 2 := by rw [List.length_take]; omega
    have : (256 : Nat) ^ (a.take 2).length ≤ 256 ^ 2 := Nat.pow_le_pow_right (by norm_num) hle
    omega
  have hge : 1 ≤ (List.length a - 2) / (m + 2) := (Nat.one_le_div_iff (by omega)).2 (by omega)
  generalize (List.length a - 2) / (m + 2) = cm at *
  generalize littleEndian (a.take 2) = o at *
  have hq : cm * o / 65535 ≤ cm := by
    rw [Nat.div_le_iff_le_mul_add_pred (by norm_num)]
    have : cm * o ≤ cm * 65535 := Nat.mul_le_mul_left _ (by omega)
    omega
  rw [Nat.mod_eq_of_lt (by omega)] at h1
  have hp : 1 ≤ parts.length := by omega
  obtain ⟨p, ps, rfl⟩ : ∃ p ps, parts = p :: ps := by
    cases parts with
    | nil => simp at hp
    | cons p ps => exact ⟨p, ps, rfl⟩
  have hlen := congrArg List.length h3
  rw [List.length_append, List.length_append, List.length_take, List.flatten_cons, List.length_append] at hlen
  have := h2 p (List.mem_cons_self ..)
  rw [List.length_cons] at hlen h4
  omega

theorem vecSplit_once {n k : Nat} {mn mx : Int} {a l l' : ABlob} {ps ps' : List ABlob}
    (h : vecSplit n mn mx a = (.ok ps, l)) (h' : vecSplit k mn mx a = (.ok ps', l')) : l = l' := by
  have e1 := (fle_vecSplit (β := ABlob) (le_max_left n k) mn mx a).resolve_left (by rw [h]; simp)
  have e2 := (fle_vecSplit (β := ABlob) (le_max_right n k) mn mx a).resolve_left (by rw [h']; simp)
  rw [h] at e1
  rw [h', ← e1] at e2
  injection e2 with _ e2
  exact e2.symm

/-- What a list of bounded stamps takes at least. -/
theorem vec_takes_bounded {m x : Nat} (h0 : m ≤ x) (h1 : 1 ≤ x) (h2 : m + 4 ≤ INT_MAX) (h3 : x ≤ INT_MAX) {a left : ABlob}
    {parts : List ABlob} {n : Nat} (hmin : vecNeeds m x ≤ List.length a)
    (h : vecSplit n m x a = (.ok parts, left)) : vecNeeds m x + List.length left ≤ List.length a := by
  unfold vecNeeds at hmin ⊢
  by_cases hmx : m = x
  · subst hmx
    rw [if_pos rfl] at hmin ⊢
    obtain ⟨ps, l, e, c1, c2, c3⟩ := fixedLoop_abs h1 (by omega) (List.length a / m + 1) a (by omega)
    have e' : vecSplit (List.length a / m + 1) m m a = (.ok ps, l) := by
      rw [vecSplit_enough (by omega) (by omega) (by omega), if_pos rfl]; exact e
    have := vecSplit_once h e'
    subst this
    have hlen := congrArg List.length c1
    rw [List.length_append] at hlen
    cases ps with
    | nil => rw [List.flatten_nil, List.length_nil] at hlen; omega
    | cons p ps =>
      have := c2 p (List.mem_cons_self ..)
      rw [List.flatten_cons, List.length_append] at hlen
      omega
  · rw [if_neg (by omega), if_neg (by omega)] at hmin ⊢
    obtain ⟨ops, l, e, c1, c2, c3, -⟩ := variatedLoop_abs h0 (by omega) h3 (List.length a + 1) a (by omega)
    have e' : vecSplit (List.length a + 1) m x a = (.ok (ops.map Prod.snd), l) := by
      rw [vecSplit_enough (by omega) (by omega) (by omega), if_neg (by omega), if_neg (by omega)]
      rw [M.bind_ok (a := ((x : Int) - m)) (s' := a) (by
        show (ckInt ((x : Int) - m), a) = _
        rw [ckInt_ok (by omega) (by omega)])]
      exact e
    have := vecSplit_once h e'
    subst this
    have hlen := congrArg List.length c1
    rw [List.length_append] at hlen
    cases ops with
    | nil => rw [List.flatMap_nil, List.length_nil] at hlen; omega
    | cons p ps =>
      have := c3 p (List.mem_cons_self ..)
      rw [List.flatMap_cons, List.length_append, List.length_append] at hlen
      omega

section
variable {G : Graph} {fl : Flags} {L : Nat} {mn mx : Id → Int}

/-- What members that are used in turn take. -/
theorem turn_takes (l : List Id) (hn : ∀ j ∈ l, 0 ≤ mn j) {n : Nat}
    (h : ∀ j ∈ l, ∀ (a : ABlob) (s : Bytes) (left : ABlob), List.length a ≤ L → mn j ≤ List.length a →
      extract G n j (fl, a) = (.ok s, (fl, left)) →
      mn j + List.length left ≤ List.length a ∧ (mx j ≠ -1 → (List.length a : Int) ≤ mx j + List.length left))
    (hf : ∀ j ∈ l.dropLast, mx j = mn j) {a left : ABlob} {xs : List Bytes} (ha : List.length a ≤ L)
    (hm : (l.map mn).sum ≤ (List.length a : Int)) (hr : SeqRuns (extract G n) fl l a xs left) :
    (l.map mn).sum + List.length left ≤ List.length a ∧
      ((∀ j ∈ l, mx j ≠ -1) → (List.length a : Int) ≤ (l.map mx).sum + List.length left) := by
  induction l generalizing a xs with
  | nil => cases hr; exact ⟨by simp, by simp⟩
  | cons j l ih =>
    cases hr with
    | @cons _ _ _ mid _ x xs h1 h2 =>
    rw [List.map_cons, List.sum_cons] at hm ⊢
    rw [List.map_cons, List.sum_cons]
    have hnn : 0 ≤ (l.map mn).sum := List.sum_nonneg fun x hx => by
      obtain ⟨q, hq, rfl⟩ := List.mem_map.1 hx
      exact hn q (List.mem_cons_of_mem _ hq)
    obtain ⟨t1, t2⟩ := h j (List.mem_cons_self ..) a x mid ha (by omega) h1
    have h0 := hn j (List.mem_cons_self ..)
    have hm' : (l.map mn).sum ≤ (List.length mid : Int) := by
      cases l with
      | nil => simp
      | cons k l =>
        have e := hf j (by simp)
        have := t2 (by omega)
        omega
    obtain ⟨t3, t4⟩ := ih (fun q hq => hn q (List.mem_cons_of_mem _ hq)) (fun q hq => h q (List.mem_cons_of_mem _ hq))
      (by
        intro q hq
        refine hf q ?_
        cases l with
        | nil => simp at hq
        | cons k l => rw [List.dropLast_cons_of_ne_nil (by simp)]; exact List.mem_cons_of_mem _ hq) (by omega) hm' h2
    refine ⟨by omega, fun hx => ?_⟩
    have := t2 (hx j (List.mem_cons_self ..))
    have := t4 fun q hq => hx q (List.mem_cons_of_mem _ hq)
    omega

theorem truthful_takes (h : TruthfulSizes G fl L mn mx) (n : Nat) : ∀ (i : Id) (a : ABlob) (s : Bytes) (fl1 : Flags) (left : ABlob),
    List.length a ≤ L → mn i ≤ List.length a → extract G n i (fl, a) = (.ok s, (fl1, left)) →
      mn i + List.length left ≤ List.length a ∧ (mx i ≠ -1 → (List.length a : Int) ≤ mx i + List.length left) := by
  have hL := h.small
  induction n with
  | zero => intro i a s fl1 left _ _ hr; cases hr
  | succ n ih =>
  intro i a s fl1 left ha hm hr
  have hfl : fl1 = fl := keeps_ok (keeps_extract G (n + 1) i) hr
  subst hfl
  have hn : G i ≠ none := by
    intro e
    unfold extract at hr
    rw [e] at hr
    cases hr
  obtain ⟨nd, hG⟩ := Option.ne_none_iff_exists'.1 hn
  obtain ⟨hmin, hmax, hb1, hb2, hb3, hb4⟩ := h.sizes i hn
  cases nd with
  | arith t =>
    have e1 : mn i = t.size := (SizeRuns.unique hmin (leaf_min (by unfold sizeQ; rw [hG]; rfl))).1
    have e2 : mx i = t.size := (SizeRuns.unique hmax (leaf_min (by unfold sizeQ; rw [hG]; rfl))).1
    obtain ⟨s', e⟩ := (arith_exact (fl := fl1) hG).1 (a.take t.size) (by rw [List.length_take]; omega)
    have := (ARun.once (o' := .ok _) (by simp) (by simp) ⟨_, hr⟩ (by
      have := e (a.drop t.size)
      rwa [List.take_append_drop] at this)).2
    rw [this, List.length_drop]
    exact ⟨by omega, fun _ => by omega⟩
  | dict ws =>
    have e1 : mn i = (chooseStampSize ws.length).1 := (SizeRuns.unique hmin (leaf_min (by unfold sizeQ; rw [hG]; rfl))).1
    have e2 : mx i = (chooseStampSize ws.length).1 := (SizeRuns.unique hmax (leaf_min (by unfold sizeQ; rw [hG]; rfl))).1
    obtain ⟨g1, g2⟩ := h.dict i ws hG
    obtain ⟨k, hk, -, e⟩ := (extractDict_abs ws (List.length_pos_iff.2 g1) g2 a).2 (by omega)
    have := (ARun.once (o' := .ok _) (by simp) (by simp) ⟨_, hr⟩ (.mk (n := 1) (by
      unfold extract
      rw [hG]
      show ((extractDict ws a).1, (fl1, (extractDict ws a).2)) = _
      rw [e]))).2
    rw [this, List.length_drop]
    exact ⟨by omega, fun _ => by omega⟩
  | jsonStr => exact absurd hG (h.noJsonStr i)
  | latin1 =>
    have e1 : mn i = 1 := (SizeRuns.unique hmin (leaf_min (by unfold sizeQ; rw [hG]; rfl))).1
    have e2 : mx i = -1 := (SizeRuns.unique hmax (leaf_min (by unfold sizeQ; rw [hG]; rfl))).1
    have e := extractText_abs latin1Char a (by omega)
    rw [if_neg (by omega)] at e
    have := (ARun.once (o' := .ok _) (by simp) (by simp) ⟨_, hr⟩ (.mk (n := 1) (by
      unfold extract
      rw [hG]
      show (((extractText latin1Char : M ABlob Bytes) a).1, (fl1, ((extractText latin1Char : M ABlob Bytes) a).2)) = _
      rw [e]))).2
    rw [this, List.length_nil]
    exact ⟨by omega, fun hx => absurd e2 hx⟩
  | ascii =>
    have e1 : mn i = 1 := (SizeRuns.unique hmin (leaf_min (by unfold sizeQ; rw [hG]; rfl))).1
    have e2 : mx i = -1 := (SizeRuns.unique hmax (leaf_min (by unfold sizeQ; rw [hG]; rfl))).1
    have e := extractText_abs asciiChar a (by omega)
    rw [if_neg (by omega)] at e
    have := (ARun.once (o' := .ok _) (by simp) (by simp) ⟨_, hr⟩ (.mk (n := 1) (by
      unfold extract
      rw [hG]
      show (((extractText asciiChar : M ABlob Bytes) a).1, (fl1, ((extractText asciiChar : M ABlob Bytes) a).2)) = _
      rw [e]))).2
    rw [this, List.length_nil]
    exact ⟨by omega, fun hx => absurd e2 hx⟩
  | user u =>
    have e1 : mn i = u.mn := (SizeRuns.unique hmin (leaf_min (by unfold sizeQ; rw [hG]; rfl))).1
    have e2 : mx i = u.mx := (SizeRuns.unique hmax (leaf_min (by unfold sizeQ; rw [hG]; rfl))).1
    obtain ⟨u1, u2⟩ := h.user i u hG a (by omega)
    rw [user_run hG] at hr
    injection hr with _ hr
    injection hr with _ hr
    rw [← hr, List.length_drop, e1, e2]
    refine ⟨by omega, fun hx => ?_⟩
    have := u2 hx
    omega
  | vec c join =>
    have hc : G c ≠ none := h.closed i _ hG c (Or.inl (by simp [Node.plainKids]))
    obtain ⟨b1, b2, b3, b4, b5, b6⟩ := h.sizes c hc
    obtain ⟨v1, v2⟩ := h.vec i c join hG
    obtain ⟨z1, z2⟩ := C63_list hG b1 b2 (by omega) v1
    have e := (SizeRuns.unique hmin z1).1
    have e' := (SizeRuns.unique hmax z2).1
    obtain ⟨m', x', parts, xs, k1, k2, ⟨k, hk⟩, -⟩ := (list_ok_iff hG).1 ⟨_, hr⟩
    obtain rfl := (SizeRuns.unique k1 b1).1
    obtain rfl := (SizeRuns.unique k2 b2).1
    refine ⟨?_, fun hx => absurd e' hx⟩
    rw [e] at hm ⊢
    obtain ⟨m, hm0⟩ := Int.eq_ofNat_of_zero_le b3
    rcases v2 with ⟨q1, q2, q3⟩ | ⟨q1, q2⟩
    · have hv : vecNeeds (mn c) (mx c) = m + 4 := by
        unfold vecNeeds; rw [if_neg (by omega), if_pos q1, hm0]
      rw [hv] at hm ⊢
      rw [hm0, q1] at hk
      have hcm : (List.length a - 2) / (m + 2) ≤ 65534 := by
        have : ((List.length a : Int) - 2) / (mn c + 2) ≤ 65534 :=
          le_trans (Int.ediv_le_ediv (by omega) (by omega)) q3
        rw [hm0] at this
        have e3 : ((((List.length a - 2) / (m + 2) : Nat)) : Int) = ((List.length a : Int) - 2) / ((m : Int) + 2) := by
          rw [Int.natCast_ediv, Nat.cast_sub (by omega)]; rfl
        omega
      have := vec_takes_unbounded (by omega) (by omega) (by omega) hcm hk
      omega
    · obtain ⟨x, hx0⟩ := Int.eq_ofNat_of_zero_le (show 0 ≤ mx c by omega)
      rw [hm0, hx0] at hk hm ⊢
      exact vec_takes_bounded (by omega) (by omega) (by omega) (by omega) hm hk
  | set cs join unb =>
    obtain ⟨s1, s2, s3⟩ := h.set i cs join unb hG
    have hc : ∀ c ∈ cs, G c ≠ none := fun c hc => h.closed i _ hG c (Or.inl hc)
    have hs : HaveSizes G fl1 cs (cs.map fun c => (mn c, mx c)) := by
      unfold HaveSizes
      rw [List.forall₂_map_right_iff]
      exact List.forall₂_same.2 fun c hcm => ⟨(h.sizes c (hc c hcm)).1, (h.sizes c (hc c hcm)).2.1⟩
    obtain ⟨z1, z2⟩ := C63_set hG hs s1 (by rw [List.map_map, List.length_map]; exact s2)
    have e := (SizeRuns.unique hmin z1).1
    have e' := (SizeRuns.unique hmax z2).1
    obtain ⟨ss, parts, xs, k1, k2, -⟩ := (set_ok_iff hG).1 ⟨_, hr⟩
    obtain rfl := haveSizes_unique k1 hs
    obtain ⟨b, hb, hh⟩ := exists_blob (bs := a) (by omega)
    have hnm : (cs.map fun c => (mn c, mx c)).length * (List.length a + 1) ≤ 2 ^ 49 := by
      rw [List.length_map]
      exact le_trans (Nat.mul_le_mul_left _ (by omega)) s3
    obtain ⟨c1, c2⟩ := C24_consumed_partial hb hh s1 (by omega) hnm (SetReturns.intro hb.valid hh k2)
    rw [e, e']
    by_cases hu : ∃ s ∈ cs.map (fun c => (mn c, mx c)), s.2 = -1
    · rw [c1 hu, List.length_nil]
      refine ⟨by omega, fun hx => absurd ?_ hx⟩
      unfold setTakes
      rw [if_pos hu]; split <;> rfl
    · have hno : ∀ s ∈ cs.map (fun c => (mn c, mx c)), s.2 ≠ -1 := fun s hs he => hu ⟨s, hs, he⟩
      obtain ⟨t1, t2⟩ := c2 hno (by
        rw [List.length_map, List.map_map]
        have : (cs.map fun c => if mx c = -1 then 0 else mx c) = cs.map (Prod.snd ∘ fun c => (mn c, mx c)) :=
          List.map_congr_left fun c hc => if_neg (hno _ (List.mem_map_of_mem hc))
        rw [← this]; exact s2)
      refine ⟨by omega, fun hx => ?_⟩
      split at hx
      · exact absurd rfl hx
      · rw [if_neg (by assumption)]; omega
  | seq cs join unb =>
    obtain ⟨s1, s2, s3⟩ := h.seq i cs join unb hG
    have hc : ∀ c ∈ cs, G c ≠ none := fun c hc => h.closed i _ hG c (Or.inl hc)
    have hs : List.Forall₂ (fun j s => HasMin G fl1 j s.1 ∧ HasMax G fl1 j s.2) cs (cs.map fun c => (mn c, mx c)) := by
      rw [List.forall₂_map_right_iff]
      exact List.forall₂_same.2 fun c hcm => ⟨(h.sizes c (hc c hcm)).1, (h.sizes c (hc c hcm)).2.1⟩
    have hfst : (cs.map fun c => (mn c, mx c)).map Prod.fst = cs.map mn := by rw [List.map_map]; rfl
    have hsnd : (cs.map fun c => (mn c, mx c)).map Prod.snd = cs.map mx := by rw [List.map_map]; rfl
    obtain ⟨z1, z2, z3⟩ := C63_seq hG hs (by
      intro s hsm
      obtain ⟨c, hcm, rfl⟩ := List.mem_map.1 hsm
      exact (h.sizes c (hc c hcm)).2.2.1) (by rw [hfst]; exact s2)
    rw [hfst] at z1
    have e := (SizeRuns.unique hmin z1).1
    obtain ⟨xs, -, k1, -⟩ := extract_seq_ok hG hr
    rw [e] at hm ⊢
    obtain ⟨t1, t2⟩ := turn_takes cs (fun j hj => (h.sizes j (hc j hj)).2.2.1)
      (fun j hj a s left h1 h2 h3 => ih j a s _ left h1 h2 h3) s1 ha hm k1
    refine ⟨t1, fun hx => ?_⟩
    rcases Bool.eq_false_or_eq_true unb with hu | hu
    · exact absurd (SizeRuns.unique hmax (z2 hu)).1 hx
    · rcases s3 with hu' | ⟨s3, s4⟩
      · rw [hu] at hu'; cases hu'
      · have e' := (SizeRuns.unique hmax (z3 hu (by
          intro s hsm
          obtain ⟨c, hcm, rfl⟩ := List.mem_map.1 hsm
          have := (h.sizes c (hc c hcm)).2.2.2.2.1
          have := s3 c hcm
          dsimp only
          omega) (by rw [hsnd]; exact s4))).1
        rw [hsnd] at e'
        rw [e']
        exact t2 s3
  | unary op c =>
    have hc : G c ≠ none := h.closed i _ hG c (Or.inl (by simp [Node.plainKids]))
    obtain ⟨z1, z2⟩ := C63_unary (op := op) hG (h.sizes c hc).1
    have e := (SizeRuns.unique hmin z1).1
    have e' := (SizeRuns.unique hmax z2).1
    obtain ⟨x, -, k1, -⟩ := extract_unary_ok hG hr
    have := (ih c a x _ left ha (by omega) k1).1
    exact ⟨by omega, fun hx => absurd e' hx⟩
  | lottery r l w smin smax =>
    obtain ⟨hw, hl⟩ := h.lottery i r l w smin smax hG
    have hc : ∀ c ∈ l, G c ≠ none := fun c hc => h.closed i _ hG c (Or.inr hc)
    obtain ⟨u, a1, j, rfl, k2, k3, k4⟩ := lot_inv hG hw (m := mn) (mx := mx) (by
      refine ⟨fun j hj => ?_, fun j hj => ?_⟩
      · obtain ⟨b1, b2, b3, b4, b5, b6⟩ := h.sizes j (hc j hj)
        exact ⟨b1, b3, b4⟩
      · obtain ⟨b1, b2, b3, b4, b5, b6⟩ := h.sizes j (hc j hj)
        have := (hl j hj).1
        exact ⟨b2, by omega⟩) (by omega) hr
    obtain ⟨m1, m2, -⟩ := mem_lotCandidates.1 k3
    obtain ⟨-, q1, q2⟩ := hl j m1
    rw [List.length_append] at ha hm ⊢
    obtain ⟨t1, t2⟩ := ih j a1 s _ left (by omega) m2 k4
    refine ⟨by omega, fun hx => ?_⟩
    obtain ⟨q3, q4⟩ := q2 hx
    have := t2 q3
    omega
  | picker l =>
    have hl := h.picker i l hG
    have hc : ∀ c ∈ l, G c ≠ none := fun c hc => h.closed i _ hG c (Or.inr hc)
    obtain ⟨u, a1, j, rfl, k2, k3, k4⟩ := pick_inv hG (m := mn) (mx := mx) (by
      refine ⟨fun j hj => ?_, fun j hj => ?_⟩
      · obtain ⟨b1, b2, b3, b4, b5, b6⟩ := h.sizes j (hc j hj)
        exact ⟨b1, b3, b4⟩
      · obtain ⟨b1, b2, b3, b4, b5, b6⟩ := h.sizes j (hc j hj)
        exact ⟨b2, by omega⟩) hr
    obtain ⟨m1, m2, -⟩ := mem_pickCandidates.1 k3
    obtain ⟨q1, q2⟩ := hl j m1
    rw [List.length_append] at ha hm ⊢
    obtain ⟨t1, t2⟩ := ih j a1 s _ left (by omega) m2 k4
    refine ⟨by omega, fun hx => ?_⟩
    obtain ⟨q3, q4⟩ := q2 hx
    have := t2 q3
    omega

end

end BS
