import Verif.Lemmas.Safe
import Verif.Lemmas.Sizes
import Verif.Props.GalleyVec

/-!
# Extraction ends
-/

namespace BS
open BlobLike

/-- For every large budget `q` ends the same way, and a result satisfies `P`. -/
def EndsTo {σ α : Type} (q : Nat → M σ α) (s : σ) (P : α → σ → Prop) : Prop :=
  ∃ N o s', o ≠ .fuel ∧ (∀ n ≥ N, q n s = (o, s')) ∧ ∀ v, o = .ok v → P v s'

namespace EndsTo
variable {σ α γ : Type} {s : σ}

theorem const {m : M σ α} {P : α → σ → Prop} (h : (m s).1 ≠ .fuel) (hP : ∀ v, (m s).1 = .ok v → P v (m s).2) :
    EndsTo (fun _ => m) s P := ⟨0, (m s).1, (m s).2, h, fun _ _ => rfl, hP⟩

theorem pure {a : α} {P : α → σ → Prop} (h : P a s) : EndsTo (fun _ => (Pure.pure a : M σ α)) s P :=
  const (by rintro ⟨⟩) fun v hv => by cases hv; exact h

theorem out {o : Out α} {P : α → σ → Prop} (h : o ≠ .fuel) (hP : ∀ v, o = .ok v → P v s) :
    EndsTo (fun _ => (M.out o : M σ α)) s P := const h hP

theorem bind {q : Nat → M σ α} {f : Nat → α → M σ γ} {P : α → σ → Prop} {Q : γ → σ → Prop}
    (h : EndsTo q s P) (hf : ∀ v s', P v s' → EndsTo (fun n => f n v) s' Q) :
    EndsTo (fun n => q n >>= f n) s Q := by
  obtain ⟨N, o, s', ho, hN, hP⟩ := h
  cases o with
  | ok v =>
    obtain ⟨N', o', s'', ho', hN', hQ⟩ := hf v s' (hP v rfl)
    refine ⟨max N N', o', s'', ho', fun n hn => ?_, hQ⟩
    dsimp only
    rw [M.bind_ok (hN n (le_trans (le_max_left _ _) hn))]
    exact hN' n (le_trans (le_max_right _ _) hn)
  | outOfData =>
    exact ⟨N, .outOfData, s', by simp, fun n hn => M.bind_ood (hN n hn), by simp⟩
  | abort => exact ⟨N, .abort, s', by simp, fun n hn => M.bind_abort (hN n hn), by simp⟩
  | ub r => exact ⟨N, .ub r, s', by simp, fun n hn => M.bind_ub (hN n hn), by simp⟩
  | fuel => exact absurd rfl ho

theorem lift {o : Out α} {f : Nat → α → M σ γ} {Q : γ → σ → Prop} (h : o ≠ .fuel)
    (hf : ∀ v, o = .ok v → EndsTo (fun n => f n v) s Q) :
    EndsTo (fun n => (M.lift o : M σ α) >>= f n) s Q := by
  refine bind (P := fun v s' => o = .ok v ∧ s' = s) (const h fun v hv => ⟨hv, rfl⟩) ?_
  rintro v s' ⟨hv, rfl⟩
  exact hf v hv

theorem ite {c : Prop} [Decidable c] {p q : Nat → M σ α} {P : α → σ → Prop} (h1 : c → EndsTo p s P)
    (h2 : ¬ c → EndsTo q s P) : EndsTo (fun n => if c then p n else q n) s P := by
  by_cases h : c
  · simp only [if_pos h]; exact h1 h
  · simp only [if_neg h]; exact h2 h

theorem mono {q : Nat → M σ α} {P Q : α → σ → Prop} (h : EndsTo q s P) (hPQ : ∀ v s, P v s → Q v s) :
    EndsTo q s Q := by
  obtain ⟨N, o, s', ho, hN, hP⟩ := h
  exact ⟨N, o, s', ho, hN, fun v hv => hPQ _ _ (hP v hv)⟩

/-- One more call on the stack. -/
theorem shift {q : Nat → M σ α} {P : α → σ → Prop} (h : EndsTo (fun n => q (n + 1)) s P) : EndsTo q s P := by
  obtain ⟨N, o, s', ho, hN, hP⟩ := h
  refine ⟨N + 1, o, s', ho, fun n hn => ?_, hP⟩
  obtain ⟨m, rfl⟩ : ∃ m, n = m + 1 := ⟨n - 1, by omega⟩
  exact hN m (by omega)

theorem unshift {q : Nat → M σ α} {P : α → σ → Prop} (h : EndsTo q s P) : EndsTo (fun n => q (n + 1)) s P := by
  obtain ⟨N, o, s', ho, hN, hP⟩ := h
  exact ⟨N, o, s', ho, fun n hn => hN _ (by omega), hP⟩

end EndsTo

/-! ## Size queries -/

theorem ends_sizeQ {G : Graph} (h : Guarded G) (fl : Flags) (sel : Sel) (i : Id) :
    EndsTo (fun n => sizeQ G n sel i) fl (fun v fl' => fl' = fl ∧ SizeRuns G fl sel i v fl) := by
  obtain ⟨N, hN⟩ := h.ends fl i sel
  rcases hm : sizeQ G N sel i fl with ⟨o, fl'⟩
  have hst : ∀ n ≥ N, sizeQ G n sel i fl = (o, fl') := fun n hn => by
    rw [sizeQ_stable hn (hN N (le_refl _)), hm]
  refine ⟨N, o, fl', ?_, hst, ?_⟩
  · have : (sizeQ G N sel i fl).1 ≠ .fuel := hN N (le_refl _)
    rw [hm] at this; exact this
  · rintro v rfl
    obtain rfl := (keeps_sizeQ G N sel i fl).2.2 v fl' hm
    exact ⟨rfl, N, hst⟩

theorem ends_queryAll {G : Graph} (h : Guarded G) (fl : Flags) (sel : Sel) (l : List Id) :
    EndsTo (fun n => queryAll (sizeQ G n sel) l) fl (fun _ fl' => fl' = fl) := by
  induction l with
  | nil => exact .pure rfl
  | cons i is ih =>
    refine .bind (ends_sizeQ h fl sel i) ?_
    rintro v _ ⟨rfl, _⟩
    refine .bind ih ?_
    rintro vs _ rfl
    exact .pure rfl

theorem ends_liftF {α : Type} {q : Nat → M Flags α} {fl : Flags} {a : ABlob} {P : α → Flags → Prop}
    (hP' : ∀ v f', P v f' → f' = fl) (h : EndsTo q fl P) :
    EndsTo (fun n => (liftF (q n) : XM ABlob α)) (fl, a) (fun v s' => s' = (fl, a) ∧ P v fl) := by
  obtain ⟨N, o, s', ho, hN, hP⟩ := h
  refine ⟨N, o, (s', a), ho, fun n hn => ?_, fun v hv => ?_⟩
  · show ((q n fl).1, ((q n fl).2, a)) = _
    rw [hN n hn]
  · have h1 := hP v hv
    have h2 := hP' v s' h1
    rw [h2] at h1
    exact ⟨by rw [h2], h1⟩

theorem ends_liftB {α : Type} {q : Nat → M ABlob α} {fl : Flags} {a : ABlob} {P : α → ABlob → Prop}
    (h : EndsTo q a P) : EndsTo (fun n => liftB (q n)) (fl, a) (fun v s' => s'.1 = fl ∧ P v s'.2) := by
  obtain ⟨N, o, s', ho, hN, hP⟩ := h
  refine ⟨N, o, (fl, s'), ho, fun n hn => ?_, fun v hv => ⟨rfl, hP v hv⟩⟩
  show ((q n a).1, (fl, (q n a).2)) = _
  rw [hN n hn]

/-! ## Galleys -/

theorem vecSplit_nodes {mn mx : Int} (hi : -W31 ≤ mn) (hi2 : mn < W31) (h : ¬ (mn = 0 ∧ mx = 0)) (a : ABlob) :
    EndsTo (fun n => (vecSplit n mn mx : M ABlob (List ABlob))) a
      (fun l a' => totalLen l + a'.length ≤ a.length) := by
  have hf := vecSplit_noFuel hi hi2 h (a.length + 1) a (by omega)
  have ht := tri_vecSplit (a0 := a) (a.length + 1) mn mx (List.suffix_refl a)
  refine ⟨a.length + 1, (vecSplit (a.length + 1) mn mx a).1, (vecSplit (a.length + 1) mn mx a).2, hf, ?_,
    fun v hv => (ht.2.2 v hv).1⟩
  intro n hn
  rcases fle_vecSplit (β := ABlob) hn mn mx a with e | e
  · exact absurd e hf
  · show vecSplit n mn mx a = _
    rw [← e]

namespace NoFuel
variable {σ α : Type}
theorem pure (a : α) : NoFuel (pure a : M σ α) := fun _ => by rintro ⟨⟩
theorem get : NoFuel (M.get : M σ σ) := fun _ => by rintro ⟨⟩
theorem lift {o : Out α} (h : o ≠ .fuel) : NoFuel (M.lift o : M σ α) := fun _ => h
theorem ood : NoFuel (M.throwOOD : M σ α) := fun _ => by rintro ⟨⟩
end NoFuel

theorem uOracle_noFuel (w : Nat) : NoFuel (uOracle w : M ABlob Nat) := by
  intro a
  cases ht : uOracleTy w with
  | none => unfold uOracle; rw [ht]; rintro ⟨⟩
  | some ty => rw [uOracle_abs ht]; split <;> simp

theorem scaledIndex_noFuel (o m n : Nat) : scaledIndex o m n ≠ .fuel := by
  unfold scaledIndex
  dsimp only
  generalize hx : FV.toIntRange _ _ _ = x
  have := toIntRange_noFuel (-9223372036854775808) 9223372036854775807
    (FV.mul f64 (FV.div f64 (FV.ofInt f64 o) (FV.ofInt f64 m)) (FV.ofInt f64 n))
  rw [hx] at this
  cases x <;> simp [Out.bind] at this ⊢

theorem vecGet_noFuel {α : Type} (l : List α) (k : Int) : vecGet l k ≠ .fuel := by
  unfold vecGet
  cases l[toSz k]? <;> simp

theorem dict_noFuel (ws : List Bytes) : NoFuel (extractDict ws : M ABlob Bytes) :=
  .bind (uOracle_noFuel _) fun _ => .bind (.lift (scaledIndex_noFuel _ _ _)) fun _ => .lift (vecGet_noFuel _ _)

theorem bytes_noFuel (c : ABlob) : (bytes c : Out Bytes) ≠ .fuel := by
  show (if List.length c = 0 then (.ub .ptrArith : Out Bytes) else .ok c) ≠ _
  split <;> simp

theorem text_noFuel (f : UInt8 → UInt8) : NoFuel (extractText f : M ABlob Bytes) := by
  refine .bind ?_ fun c => .bind (.lift (bytes_noFuel c)) fun _ => .pure _
  intro a
  unfold chop2
  split
  · simp
  · split <;> exact chop_noFuel _ _

theorem arith_noFuel (t : ArithTy) : NoFuel (extractArithStr t : M ABlob Bytes) := by
  intro a
  rw [extractArithStr_abs]
  split
  · simp
  · obtain ⟨l, hl⟩ := toString_ok t (bs := a.take t.size) (by rw [List.length_take]; omega)
    rw [hl]; simp

theorem setModLoop_noFuel (nUnb : Nat) (ss : List SizePair) (p u : FV) :
    NoFuel (setModLoop nUnb ss p u : M ABlob SetMods) := by
  induction ss generalizing p u with
  | nil => exact .pure _
  | cons s ss ih =>
    unfold setModLoop
    exact .ite (.bind (ih _ _) fun _ => .pure _) (.ite (.ite (.bind (ih _ _) fun _ => .pure _)
      (.bind oracle_noFuel fun _ => .bind (ih _ _) fun _ => .pure _))
      (.bind oracle_noFuel fun _ => .bind (.lift (ckInt_noFuel _)) fun _ => .bind (ih _ _) fun _ => .pure _))

theorem setChopLoop_noFuel (kv ku : FV) (ss : List SizePair) (ms : List FV) (vr ur : FV) :
    NoFuel (setChopLoop kv ku ss ms vr ur : M ABlob (List ABlob)) := by
  induction ss generalizing ms vr ur with
  | nil => unfold setChopLoop; exact .pure _
  | cons s ss ih =>
    cases ms with
    | nil => unfold setChopLoop; exact .pure _
    | cons m ms =>
      unfold setChopLoop
      dsimp only
      exact .ite (.bind (.lift (toIntRange_noFuel _ _ _)) fun _ => .bind (.lift (ckInt_noFuel _)) fun _ =>
          .bind (chop_noFuel _) fun _ => .bind (ih _ _ _) fun _ => .pure _)
        (.ite (.bind (chop_noFuel _) fun _ => .bind (ih _ _ _) fun _ => .pure _)
          (.bind (.lift (ckInt_noFuel _)) fun _ => .bind (.lift (toIntRange_noFuel _ _ _)) fun _ =>
            .bind (.lift (ckInt_noFuel _)) fun _ =>
            .bind (chop_noFuel _) fun _ => .bind (ih _ _ _) fun _ => .pure _))

theorem setTotals_noFuel (ss : List SizePair) (t : SetTotals) : setTotals ss t ≠ .fuel := by
  have hb : ∀ {α γ : Type} {o : Out α} {f : α → Out γ}, o ≠ .fuel → (∀ a, f a ≠ .fuel) → o.bind f ≠ .fuel := by
    intro α γ o f h hf
    cases o with
    | ok a => exact hf a
    | fuel => exact absurd rfl h
    | _ => rintro ⟨⟩
  induction ss generalizing t with
  | nil => rintro ⟨⟩
  | cons s ss ih =>
    unfold setTotals
    refine hb (ckInt_noFuel _) fun f => ?_
    split
    · exact hb (ckInt_noFuel _) fun _ => hb (ckInt_noFuel _) fun _ => ih _
    · split <;> exact ih _

theorem setSplit_noFuel (ss : List SizePair) : NoFuel (setSplit ss : M ABlob (List ABlob)) := by
  unfold setSplit
  refine .bind (.lift (setTotals_noFuel _ _)) fun t => .bind .get fun b => .ite .ood ?_
  dsimp only
  refine .bind ?_ fun lim => .bind (setModLoop_noFuel _ _ _ _) fun r => .bind (.lift ?_) fun fv =>
    .bind (.lift (ckInt_noFuel _)) fun fu => setChopLoop_noFuel _ _ _ _ _ _
  · unfold setLimit
    exact .ite (.bind oracle_noFuel fun _ => .bind (.lift (toIntRange_noFuel _ _ _)) fun _ => .pure _) (.pure _)
  · split
    · exact toIntRange_noFuel _ _ _
    · simp

/-! ## Size values are `int`s -/

theorem ckInt_int {i v : Int} (h : ckInt i = .ok v) : -W31 ≤ v ∧ v < W31 := by
  unfold ckInt at h
  split at h
  · next hf => cases h; exact fitsInt_iff.1 hf
  · cases h

def IntQ (m : M Flags Int) : Prop := ∀ fl v fl', m fl = (.ok v, fl') → -W31 ≤ v ∧ v < W31

theorem IntQ.pure {i : Int} (h : -W31 ≤ i ∧ i < W31) : IntQ (pure i) := by
  intro fl v fl' e
  cases e; exact h

theorem IntQ.bind {α : Type} {m : M Flags α} {f : α → M Flags Int} (h : ∀ a, IntQ (f a)) : IntQ (m >>= f) := by
  intro fl v fl' e
  obtain ⟨a, fl1, _, h2⟩ := M.bind_eq_ok.1 e
  exact h a fl1 v fl' h2

theorem IntQ.lift {o : Out Int} (h : ∀ v, o = .ok v → -W31 ≤ v ∧ v < W31) : IntQ (M.lift o) := by
  intro fl v fl' e
  exact h v (Prod.mk.inj e).1

theorem sumInts_int {l : List Int} {a v : Int} (h : sumInts l a = .ok v) (ha : -W31 ≤ a ∧ a < W31) :
    -W31 ≤ v ∧ v < W31 := by
  induction l generalizing a with
  | nil => cases h; exact ha
  | cons x xs ih =>
    unfold sumInts at h
    rcases ckInt_cases (a + x) with e | e
    · rw [e] at h; exact ih h (ckInt_int e)
    · rw [e] at h; cases h

theorem setMaxSize_int {ss : List SizePair} {a v : Int} (h : setMaxSize ss a = .ok v) (ha : -W31 ≤ a ∧ a < W31) :
    -W31 ≤ v ∧ v < W31 := by
  induction ss generalizing a with
  | nil => cases h; exact ha
  | cons x xs ih =>
    unfold setMaxSize at h
    rcases ckInt_cases (a + x.2) with e | e
    · rw [e] at h
      dsimp only [Bind.bind, Out.bind] at h
      split at h
      · cases h; decide
      · refine ih h ?_
        split
        · exact wrap32_fits _
        · exact ckInt_int e
    · rw [e] at h; cases h

theorem setMinSize_int {ss : List SizePair} {v : Int} (h : setMinSize ss = .ok v) :
    -W31 ≤ v ∧ v < W31 := by
  unfold setMinSize at h
  cases hm : ss.foldlM (fun (a : Int) (s : SizePair) => ckInt (a + s.1)) 0 with
  | ok r =>
    rw [hm] at h
    dsimp only [Bind.bind, Out.bind, Pure.pure] at h
    cases h
    split <;> exact wrap32_fits _
  | _ => rw [hm] at h; cases h

theorem pickMinLoop_int {q : Id → M Flags Int} (hq : ∀ i, IntQ (q i)) (l : List Id) (r : Int)
    (hr : -W31 ≤ r ∧ r < W31) : IntQ (pickMinLoop q l r) := by
  induction l generalizing r with
  | nil => exact .pure hr
  | cons i is ih =>
    intro fl v fl' e
    unfold pickMinLoop at e
    obtain ⟨c, fl1, h1, h2⟩ := M.bind_eq_ok.1 e
    refine ih _ ?_ fl1 v fl' h2
    split
    · exact hq i _ _ _ h1
    · exact hr

theorem int_sizeQ {G : Graph} (hu : IntUsers G) (n : Nat) (sel : Sel) (i : Id) : IntQ (sizeQ G n sel i) := by
  induction n generalizing sel i with
  | zero => rintro fl v fl' ⟨⟩
  | succ n ih =>
    unfold sizeQ
    cases hG : G i with
    | none => rintro fl v fl' ⟨⟩
    | some nd =>
      cases nd with
      | arith t => exact .pure (by cases t <;> decide)
      | dict ws =>
        refine .pure ?_
        unfold chooseStampSize
        split
        · decide
        · split
          · decide
          · split <;> decide
      | jsonStr => exact .pure (by decide)
      | latin1 => cases sel <;> exact .pure (by decide)
      | ascii => cases sel <;> exact .pure (by decide)
      | user u =>
        have := hu i u hG
        cases sel
        · exact .pure this.1
        · exact .pure this.2
      | vec c join =>
        cases sel with
        | max => exact .pure (by decide)
        | min =>
          intro fl v fl' e
          obtain ⟨mn, fl1, h1, h2⟩ := M.bind_eq_ok.1 e
          obtain ⟨mx, fl2, h3, h4⟩ := M.bind_eq_ok.1 h2
          cases h4
          have := ih .min c _ _ _ h1
          unfold vecMinSize
          split
          · exact this
          · split <;> exact wrap32_fits _
      | set cs join unb =>
        cases sel with
        | max =>
          cases unb with
          | true => exact .pure (by decide)
          | false => exact .bind fun _ => .bind fun _ => .lift fun v h => setMaxSize_int h (by decide)
        | min => exact .bind fun _ => .bind fun _ => .lift fun v h => setMinSize_int h
      | seq cs join unb =>
        cases sel with
        | max =>
          cases unb with
          | true => exact .pure (by decide)
          | false => exact .bind fun _ => .lift fun v h => sumInts_int h (by decide)
        | min => exact .bind fun _ => .lift fun v h => sumInts_int h (by decide)
      | unary op c =>
        cases sel with
        | max => exact .pure (by decide)
        | min => exact ih .min c
      | lottery r l o mn mx =>
        cases sel with
        | min => exact .lift fun v h => ckInt_int h
        | max =>
          dsimp only
          split
          · exact .pure (by decide)
          · exact .lift fun v h => ckInt_int h
      | picker pool =>
        cases sel with
        | min =>
          dsimp only
          refine .bind fun fl => ?_
          split
          · exact .pure (by decide)
          · refine .bind fun _ => .bind fun r => .bind fun _ => ?_
            split
            · exact .pure (by decide)
            · exact .pure (wrap32_fits _)
        | max =>
          dsimp only
          refine .bind fun fl => ?_
          split
          · exact .pure (by decide)
          · refine .bind fun _ => .bind fun r => .bind fun _ => ?_
            cases r
            · exact .pure (by decide)
            · exact .pure (wrap32_fits _)

theorem HasMin.int {G : Graph} (hu : IntUsers G) {fl : Flags} {i : Id} {v : Int} (h : HasMin G fl i v) :
    -W31 ≤ v ∧ v < W31 := by
  obtain ⟨N, h⟩ := h
  exact int_sizeQ hu N .min i _ _ _ (h N (le_refl _))

/-! ## Extraction -/

/-- After `m` the flags are as before and the blob is no longer. -/
abbrev NoLonger (fl : Flags) (a : ABlob) {α : Type} : α → Flags × ABlob → Prop :=
  fun _ s' => s'.1 = fl ∧ List.length s'.2 ≤ List.length a

theorem ends_pickFilter {G : Graph} (h : Guarded G) (fl : Flags) (a : ABlob) (l : List Id) :
    EndsTo (fun n => (pickFilter (sizeQ G n .min) (sizeQ G n .max) l : XM ABlob _)) (fl, a)
      (fun _ s' => s' = (fl, a)) := by
  induction l with
  | nil => exact .pure rfl
  | cons i is ih =>
    refine .bind (ends_liftF (fun _ _ h => h.1) (ends_sizeQ h fl .min i)) ?_
    rintro mn _ ⟨rfl, _, _⟩
    refine .bind (P := fun _ s' => s' = (fl, a)) (.const (by rintro ⟨⟩) fun _ _ => rfl) ?_
    rintro sz _ rfl
    refine .ite (fun _ => ?_) fun _ => ih
    refine .bind (ends_liftF (fun _ _ h => h.1) (ends_sizeQ h fl .max i)) ?_
    rintro mx _ ⟨rfl, _, _⟩
    refine .bind ih ?_
    rintro r _ rfl
    exact .ite (fun _ => .pure rfl) fun _ => .pure rfl

theorem ends_softFilter {G : Graph} (h : Guarded G) (fl : Flags) (rec4 : Bool) (i : Id) (d : Int) :
    EndsTo (fun n => softFilter rec4 (sizeQ G n .min) (sizeQ G n .max) i d) fl (fun _ fl' => fl' = fl) := by
  refine .ite (fun _ => .pure rfl) fun _ => ?_
  refine .bind (ends_sizeQ h fl .max i) ?_
  rintro mx _ ⟨rfl, _⟩
  refine .ite (fun _ => .pure rfl) fun _ => ?_
  refine .bind (ends_sizeQ h _ .min i) ?_
  rintro mn _ ⟨rfl, _⟩
  exact .lift (ckInt_noFuel _) fun _ _ => .pure rfl

theorem ends_lotFilter {G : Graph} (h : Guarded G) (fl : Flags) (a : ABlob) (rec4 : Bool) (l : List Id) :
    EndsTo (fun n => (lotFilter rec4 (sizeQ G n .min) (sizeQ G n .max) l : XM ABlob _)) (fl, a)
      (fun _ s' => s' = (fl, a)) := by
  induction l with
  | nil => exact .pure rfl
  | cons i is ih =>
    refine .bind (ends_liftF (fun _ _ h => h.1) (ends_sizeQ h fl .min i)) ?_
    rintro mn _ ⟨rfl, _, _⟩
    refine .bind (P := fun _ s' => s' = (fl, a)) (.const (by rintro ⟨⟩) fun _ _ => rfl) ?_
    rintro sz _ rfl
    refine .ite (fun _ => ih) fun _ => ?_
    refine .bind (ends_liftF (fun _ _ h => h) (ends_softFilter h fl rec4 i _)) ?_
    rintro ok _ ⟨rfl, _⟩
    refine .bind ih ?_
    rintro r _ rfl
    exact .pure rfl

theorem ends_each {G : Graph} {fl : Flags} {a : ABlob} (l : List (Id × ABlob))
    (h : ∀ p ∈ l, EndsTo (fun n => extract G n p.1) (fl, p.2) (fun _ s' => s'.1 = fl)) :
    ∀ k : Int, EndsTo (fun n => extractEach (extract G n) k l) (fl, a) (fun _ s' => s' = (fl, a)) := by
  induction l with
  | nil => exact fun _ => .pure rfl
  | cons p l ih =>
    intro k
    obtain ⟨i, c⟩ := p
    refine .bind (P := fun _ s' => s' = (fl, a)) ?_ ?_
    · obtain ⟨N, o, s', ho, hN, hP⟩ := h (i, c) (List.mem_cons_self ..)
      refine ⟨N, o, (s'.1, a), ho, fun n hn => ?_, fun v hv => by rw [hP v hv]⟩
      have e : extract G n i (fl, c) = (o, s') := hN n hn
      show ((extract G n i (fl, c)).1, ((extract G n i (fl, c)).2.1, a)) = _
      rw [e]
    · rintro v _ rfl
      refine .lift (by rcases ckInt_cases (k + 1) with e | e <;> rw [e] <;> simp) fun k' _ => ?_
      refine .bind (ih (fun p hp => h p (List.mem_cons_of_mem _ hp)) k') ?_
      rintro vs _ rfl
      exact .pure rfl

theorem ends_seq {G : Graph} {fl : Flags} (l : List Id) {L : Nat}
    (h : ∀ j ∈ l, ∀ a : ABlob, a.length ≤ L → EndsTo (fun n => extract G n j) (fl, a) (NoLonger fl a))
    (a : ABlob) (ha : a.length ≤ L) :
    EndsTo (fun n => extractSeq (extract G n) l) (fl, a) (NoLonger fl a) := by
  induction l generalizing a with
  | nil => exact .pure ⟨rfl, le_refl _⟩
  | cons j l ih =>
    refine .bind (h j (List.mem_cons_self ..) a ha) ?_
    rintro v ⟨f', a'⟩ ⟨hf, ha'⟩
    dsimp only at hf ha'
    have hf : fl = f' := hf.symm; subst hf
    refine .bind (ih (fun j hj => h j (List.mem_cons_of_mem _ hj)) a' (le_trans ha' ha)) ?_
    rintro vs ⟨f', a''⟩ ⟨hf, ha''⟩
    exact .pure ⟨hf, le_trans ha'' ha'⟩

theorem ends_leaf {α : Type} {m : M ABlob α} {fl : Flags} {a : ABlob} (hm : NoFuel m)
    (hl : ∀ v, (m a).1 = .ok v → (m a).2.length ≤ a.length) :
    EndsTo (fun _ => liftB m) (fl, a) (NoLonger fl a) :=
  .const (hm a) fun v hv => ⟨rfl, hl v hv⟩

theorem dict_len (ws : List Bytes) (a : ABlob) (v : Bytes) (h : ((extractDict ws : M ABlob Bytes) a).1 = .ok v) :
    ((extractDict ws : M ABlob Bytes) a).2.length ≤ a.length := by
  rcases hd : (extractDict ws : M ABlob Bytes) a with ⟨o, a'⟩
  rw [hd] at h
  dsimp only at h ⊢
  cases h
  obtain ⟨x, a1, h1, h2⟩ := M.bind_eq_ok.1 hd
  obtain ⟨y, a2, h3, h4⟩ := M.bind_eq_ok.1 h2
  have t := (tri_uOracle (chooseStampSize ws.length).1 (List.suffix_refl a)).2.2 x
  rw [h1] at t
  have t := t rfl
  have e1 : a2 = a1 := (Prod.mk.inj h3).2.symm
  have e2 : a' = a2 := (Prod.mk.inj h4).2.symm
  subst e1 e2
  dsimp only at t
  omega

theorem ends_extract {G : Graph} {fl : Flags} (h : Ending G fl) (L : Nat) :
    ∀ i, ∀ a : ABlob, a.length ≤ L → EndsTo (fun n => extract G n i) (fl, a) (NoLonger fl a) := by
  induction L using Nat.strong_induction_on with
  | _ L ihL =>
  intro i
  induction i using h.guarded.wf.induction with
  | _ i ihI =>
  intro a ha
  apply EndsTo.shift
  unfold extract
  cases hG : G i with
  | none => exact .out (by rintro ⟨⟩) (by rintro v ⟨⟩)
  | some nd =>
    cases nd with
    | arith t =>
      refine ends_leaf (arith_noFuel t) fun v hv => ?_
      have := (tri_arith t (List.suffix_refl a)).2.2 v hv
      omega
    | dict ws => exact ends_leaf (dict_noFuel ws) fun v hv => dict_len ws a v hv
    | jsonStr =>
      refine ends_leaf (.bind (dict_noFuel _) fun _ => .pure _) fun v hv => ?_
      rcases hd : (extractJsonStr : M ABlob Bytes) a with ⟨o, a'⟩
      rw [hd] at hv
      dsimp only at hv ⊢
      cases hv
      obtain ⟨x, a1, h1, h2⟩ := M.bind_eq_ok.1 hd
      have := dict_len _ a x (by rw [h1])
      rw [h1] at this
      have e2 : a' = a1 := (Prod.mk.inj h2).2.symm
      subst e2
      exact this
    | latin1 =>
      exact ends_leaf (text_noFuel _) fun v hv => (tri_text _ (List.suffix_refl a)).1.length_le
    | ascii =>
      exact ends_leaf (text_noFuel _) fun v hv => (tri_text _ (List.suffix_refl a)).1.length_le
    | user u =>
      dsimp only
      refine .bind (P := fun _ s' => s' = (fl, a)) (.const ?_ fun v hv => rfl) ?_
      · show (Out.ok a : Out Bytes) ≠ _
        simp
      rintro v _ rfl
      refine .bind (P := fun _ s' => s' = (fl, a)) (.const (by rintro ⟨⟩) fun _ _ => rfl) ?_
      rintro sz _ rfl
      refine .bind (ends_leaf (chop_noFuel _) fun v hv => (tri_chop _ (List.suffix_refl a)).1.length_le) ?_
      rintro _ ⟨f', a'⟩ ⟨hf, ha'⟩
      exact .const (h.user i u hG _) fun _ _ => ⟨hf, ha'⟩
    | vec c join =>
      dsimp only
      refine .bind (ends_liftF (fun _ _ h => h.1) (ends_sizeQ h.guarded fl .min c)) ?_
      rintro mn _ ⟨rfl, _, hmn⟩
      refine .bind (ends_liftF (fun _ _ h => h.1) (ends_sizeQ h.guarded fl .max c)) ?_
      rintro mx _ ⟨rfl, _, hmx⟩
      have hr := HasMin.int h.ints hmn
      refine .bind (ends_liftB (vecSplit_nodes hr.1 hr.2 ?_ a)) ?_
      · rintro ⟨rfl, rfl⟩
        exact h.vec i c join hG ⟨hmn, hmx⟩
      · rintro l ⟨f', a'⟩ ⟨hf, hl⟩
        dsimp only at hf hl
        have hf : fl = f' := hf.symm; subst hf
        refine .bind (ends_each _ ?_ 0) ?_
        · intro p hp
          obtain ⟨q, hq, rfl⟩ := List.mem_map.1 hp
          have := mem_le_totalLen hq
          exact (ihI c ⟨_, hG, List.mem_singleton.2 rfl⟩ q (by omega)).mono fun _ _ h => h.1
        · rintro xs _ rfl
          exact .pure ⟨rfl, by show List.length a' ≤ _; omega⟩
    | set cs join unb =>
      dsimp only
      refine .bind (ends_liftF (fun _ _ h => h) (ends_queryAll h.guarded fl .min cs)) ?_
      rintro mns _ ⟨rfl, _⟩
      refine .bind (ends_liftF (fun _ _ h => h) (ends_queryAll h.guarded fl .max cs)) ?_
      rintro mxs _ ⟨rfl, _⟩
      refine .bind (P := fun l s' => s'.1 = fl ∧ totalLen l + List.length s'.2 ≤ List.length a) (.const
        (m := liftB (setSplit (mns.zip mxs))) (setSplit_noFuel _ a) fun v hv => ⟨rfl, ?_⟩) ?_
      · have := (tri_setSplit (mns.zip mxs) (List.suffix_refl a)).2.2 v hv
        unfold Cut at this
        show _ + List.length (setSplit (mns.zip mxs) a).2 ≤ _
        omega
      · rintro l ⟨f', a'⟩ ⟨hf, hl⟩
        dsimp only at hf hl
        have hf : fl = f' := hf.symm; subst hf
        refine .bind (ends_each _ ?_ 0) ?_
        · rintro ⟨j, q⟩ hp
          have hq := List.of_mem_zip hp
          have := mem_le_totalLen hq.2
          exact (ihI j ⟨_, hG, hq.1⟩ q (by omega)).mono fun _ _ h => h.1
        · rintro xs _ rfl
          exact .pure ⟨rfl, by show List.length a' ≤ _; omega⟩
    | seq cs join unb =>
      dsimp only
      refine .bind (ends_seq cs (fun j hj a ha => ihI j ⟨_, hG, hj⟩ a ha) a ha) ?_
      rintro xs s' h'
      exact .pure h'
    | unary op c =>
      dsimp only
      refine .bind (ihI c ⟨_, hG, List.mem_singleton.2 rfl⟩ a ha) ?_
      rintro xs s' h'
      exact .pure h'
    | lottery r l o mn mx =>
      dsimp only
      refine .bind (P := fun _ s' => s'.1 = fl ∧ List.length s'.2 < List.length a)
        (.const (m := liftB (uOracle o)) (uOracle_noFuel _ a) fun v hv => ⟨rfl, ?_⟩) ?_
      · have := (tri_uOracle o (List.suffix_refl a)).2.2 v hv
        show List.length (uOracle o a).2 < _
        omega
      rintro v ⟨f', a'⟩ ⟨hf, ha'⟩
      dsimp only at hf ha'
      have hf : fl = f' := hf.symm; subst hf
      refine .bind (ends_lotFilter h.guarded fl a' r l) ?_
      rintro l1 _ rfl
      refine .bind (P := fun _ s' => s' = (fl, a')) (.ite (fun _ => ends_lotFilter h.guarded fl a' false l)
        fun _ => .pure rfl) ?_
      rintro l2 _ rfl
      refine .ite (fun _ => .out (by rintro ⟨⟩) (by rintro v ⟨⟩)) fun _ => ?_
      refine .lift (scaledIndex_noFuel _ _ _) fun k _ => .lift (vecGet_noFuel _ _) fun j _ => ?_
      exact (ihL a'.length (by omega) j a' (le_refl _)).mono fun _ _ h => ⟨h.1, by omega⟩
    | picker pool =>
      dsimp only
      refine .bind (P := fun _ s' => s'.1 = fl ∧ List.length s'.2 < List.length a)
        (.const (m := liftB oracle) (oracle_noFuel a) fun v hv => ⟨rfl, ?_⟩) ?_
      · have := (tri_oracle (List.suffix_refl a)).2.2 v hv
        show List.length (oracle a).2 < _
        omega
      rintro v ⟨f', a'⟩ ⟨hf, ha'⟩
      dsimp only at hf ha'
      have hf : fl = f' := hf.symm; subst hf
      refine .bind (ends_pickFilter h.guarded fl a' pool) ?_
      rintro r _ rfl
      generalize (if r.2.isEmpty then r.1 else r.2) = l
      refine .ite (fun _ => ?_) fun _ => ?_
      · refine .bind (ends_liftF (fun _ _ h => h.1) (ends_sizeQ h.guarded fl .min i).unshift) ?_
        rintro mn _ ⟨rfl, _, hmn⟩
        refine .bind (P := fun _ s' => s' = (fl, a')) (.const (by rintro ⟨⟩) fun _ _ => rfl) ?_
        rintro sz _ rfl
        exact .ite (fun _ => .out (by rintro ⟨⟩) (by rintro v ⟨⟩)) fun _ => .out (by rintro ⟨⟩) (by rintro v ⟨⟩)
      · refine .lift (oracleProportion_noFuel _ _ _) fun k _ => .lift (vecGet_noFuel _ _) fun j _ => ?_
        exact (ihL a'.length (by omega) j a' (le_refl _)).mono fun _ _ h => ⟨h.1, by omega⟩

end BS
