import Verif.Lemmas.Fuel

/-!
# Size queries and extractions that end leave the recursion flags as they were
-/

namespace BS

/-- A size query: it does not throw, and if it returns the flags are unchanged. -/
def KeepsF {α : Type} (m : M Flags α) : Prop :=
  ∀ fl, (m fl).1 ≠ .outOfData ∧ (m fl).1 ≠ .abort ∧ ∀ a fl', m fl = (.ok a, fl') → fl' = fl

namespace KeepsF
variable {α γ : Type}

theorem pure (a : α) : KeepsF (pure a : M Flags α) :=
  fun _ => ⟨by simp, by simp, fun _ _ h => (Prod.mk.inj h).2.symm⟩

theorem fuel : KeepsF (M.out .fuel : M Flags α) :=
  fun _ => ⟨by simp, by simp, fun _ _ h => (Prod.mk.inj h).2.symm⟩

theorem ub (r : UB) : KeepsF (M.ub r : M Flags α) :=
  fun _ => ⟨by simp, by simp, fun _ _ h => (Prod.mk.inj h).2.symm⟩

theorem lift {o : Out α} (h : o ≠ .outOfData) (h' : o ≠ .abort) : KeepsF (M.lift o : M Flags α) :=
  fun _ => ⟨h, h', fun _ _ h => (Prod.mk.inj h).2.symm⟩

theorem bind {m : M Flags α} {f : α → M Flags γ} (h : KeepsF m) (hf : ∀ a, KeepsF (f a)) :
    KeepsF (m >>= f) := by
  intro fl
  rw [M.bind_apply]
  obtain ⟨h1, h2, h3⟩ := h fl
  rcases hm : m fl with ⟨o, fl'⟩
  rw [hm] at h1 h2
  cases o with
  | ok a =>
    have := h3 a fl' hm
    subst this
    exact hf a fl'
  | outOfData => exact absurd rfl h1
  | abort => exact absurd rfl h2
  | ub r => exact ⟨by simp, by simp, fun _ _ h => by cases h⟩
  | fuel => exact ⟨by simp, by simp, fun _ _ h => by cases h⟩

theorem ite {c : Prop} [Decidable c] {m n : M Flags α} (h : KeepsF m) (h' : KeepsF n) :
    KeepsF (if c then m else n) := by split <;> assumption

end KeepsF

theorem ckInt_ne_ood (i : Int) : ckInt i ≠ .outOfData := by
  rcases ckInt_cases i with h | h <;> rw [h] <;> simp

theorem ckInt_ne_abort (i : Int) : ckInt i ≠ .abort := by
  rcases ckInt_cases i with h | h <;> rw [h] <;> simp

/-- Only a value or undefined behaviour. -/
def Out.OkUb {α : Type} (o : Out α) : Prop := (∃ a, o = .ok a) ∨ ∃ r, o = .ub r

theorem ckInt_okUb (i : Int) : (ckInt i).OkUb := by
  rcases ckInt_cases i with h | h <;> rw [h]
  · exact Or.inl ⟨_, rfl⟩
  · exact Or.inr ⟨_, rfl⟩

theorem Out.OkUb.bind {α γ : Type} {o : Out α} {f : α → Out γ} (h : o.OkUb) (hf : ∀ a, (f a).OkUb) :
    (o >>= f).OkUb := by
  rcases h with ⟨a, rfl⟩ | ⟨r, rfl⟩
  · exact hf a
  · exact Or.inr ⟨r, rfl⟩

theorem sumInts_okUb (l : List Int) (a : Int) : (sumInts l a).OkUb := by
  induction l generalizing a with
  | nil => exact Or.inl ⟨_, rfl⟩
  | cons x xs ih => exact (ckInt_okUb _).bind fun s => ih s

theorem foldlM_okUb (ss : List SizePair) (a : Int) :
    (ss.foldlM (fun (a : Int) (s : SizePair) => ckInt (a + s.1)) a).OkUb := by
  induction ss generalizing a with
  | nil => exact Or.inl ⟨_, rfl⟩
  | cons s ss ih => rw [List.foldlM_cons]; exact (ckInt_okUb _).bind fun s => ih s

theorem setMinSize_okUb (ss : List SizePair) : (setMinSize ss).OkUb := by
  unfold setMinSize
  exact (foldlM_okUb ss 0).bind fun a => Or.inl ⟨_, rfl⟩

theorem setMaxSize_okUb (ss : List SizePair) (a : Int) : (setMaxSize ss a).OkUb := by
  induction ss generalizing a with
  | nil => exact Or.inl ⟨_, rfl⟩
  | cons s ss ih =>
    unfold setMaxSize
    refine (ckInt_okUb _).bind fun r => ?_
    by_cases h : SizePair.unb s = true
    · exact Or.inl ⟨-1, by simp only [if_pos h]⟩
    · simp only [if_neg h]; exact ih _

theorem KeepsF.okUb {α : Type} {o : Out α} (h : o.OkUb) : KeepsF (M.lift o : M Flags α) := by
  apply KeepsF.lift <;> rcases h with ⟨a, rfl⟩ | ⟨r, rfl⟩ <;> simp

theorem keeps_queryAll {q : Id → M Flags Int} (h : ∀ i, KeepsF (q i)) (l : List Id) :
    KeepsF (queryAll q l) := by
  induction l with
  | nil => exact .pure _
  | cons i is ih => exact .bind (h i) fun _ => .bind ih fun _ => .pure _

theorem keeps_pickMinLoop {q : Id → M Flags Int} (h : ∀ i, KeepsF (q i)) (l : List Id) (r : Int) :
    KeepsF (pickMinLoop q l r) := by
  induction l generalizing r with
  | nil => exact .pure _
  | cons i is ih => exact .bind (h i) fun _ => ih _

theorem keeps_pickMaxLoop {q : Id → M Flags Int} (h : ∀ i, KeepsF (q i)) (l : List Id) (r : Int) :
    KeepsF (pickMaxLoop q l r) := by
  induction l generalizing r with
  | nil => exact .pure _
  | cons i is ih => exact .bind (h i) fun _ => .ite (.pure _) (ih _)

theorem Flags.setIn_setIn (fl : Flags) (i : Id) (h : (fl i).inRec = false) :
    (fl.setIn i true).setIn i false = fl := by
  funext j
  unfold Flags.setIn
  by_cases hj : j = i
  · subst hj; simp [← h]
  · simp [hj]

/-- Set the flag, run, clear the flag. -/
theorem KeepsF.guard {α γ : Type} {m : M Flags α} {f : α → M Flags γ} (i : Id) (h : KeepsF m)
    (hf : ∀ a, KeepsF (f a)) (fl : Flags) (hfl : (fl i).inRec = false) :
    let r := (modFlags (·.setIn i true) >>= fun _ => m >>= fun a =>
      modFlags (·.setIn i false) >>= fun _ => f a) fl
    r.1 ≠ .outOfData ∧ r.1 ≠ .abort ∧ ∀ a fl', r = (.ok a, fl') → fl' = fl := by
  intro r
  have hr : r = (m >>= fun a => modFlags (·.setIn i false) >>= fun _ => f a) (fl.setIn i true) := rfl
  rw [hr, M.bind_apply]
  obtain ⟨h1, h2, h3⟩ := h (fl.setIn i true)
  rcases hm : m (fl.setIn i true) with ⟨o, fl'⟩
  rw [hm] at h1 h2
  cases o with
  | ok a =>
    have := h3 a fl' hm
    subst this
    have e : (modFlags (·.setIn i false) >>= fun _ => f a) (fl.setIn i true) = f a fl := by
      show f a ((fl.setIn i true).setIn i false) = f a fl
      rw [Flags.setIn_setIn fl i hfl]
    show (_ : Out γ × Flags).1 ≠ _ ∧ _
    dsimp only
    rw [e]
    exact hf a fl
  | outOfData => exact absurd rfl h1
  | abort => exact absurd rfl h2
  | ub r => exact ⟨by simp, by simp, fun _ _ h => by cases h⟩
  | fuel => exact ⟨by simp, by simp, fun _ _ h => by cases h⟩

theorem keeps_sizeQ (G : Graph) (n : Nat) (sel : Sel) (i : Id) : KeepsF (sizeQ G n sel i) := by
  induction n generalizing sel i with
  | zero => exact .fuel
  | succ n ih =>
    unfold sizeQ
    split
    · exact .ub _
    next nd _ =>
    split
    · exact .pure _
    · exact .pure _
    · exact .pure _
    · exact .pure _
    · exact .pure _
    · exact .pure _
    · split
      · exact .pure _
      · exact .bind (ih _ _) fun _ => .bind (ih _ _) fun _ => .pure _
    · split
      · exact .pure _
      · exact .bind (keeps_queryAll (ih _) _) fun _ => .bind (keeps_queryAll (ih _) _) fun _ =>
          .okUb (setMaxSize_okUb _ _)
      · exact .bind (keeps_queryAll (ih _) _) fun _ => .bind (keeps_queryAll (ih _) _) fun _ =>
          .okUb (setMinSize_okUb _)
    · split
      · exact .pure _
      · exact .bind (keeps_queryAll (ih _) _) fun _ => .okUb (sumInts_okUb _ _)
    · split
      · exact .pure _
      · exact ih _ _
    · split
      · exact .okUb (ckInt_okUb _)
      · exact .ite (.pure _) (.okUb (ckInt_okUb _))
    · split
      · intro fl
        rw [M.bind_ok (M.get_apply fl)]
        by_cases hfl : (fl i).inRec = true
        · rw [if_pos hfl]; exact KeepsF.pure _ fl
        · rw [if_neg hfl]
          exact KeepsF.guard i (keeps_pickMinLoop (ih _) _ _) (fun _ => .ite (.pure _) (.pure _)) fl
            (by simpa using hfl)
      · intro fl
        rw [M.bind_ok (M.get_apply fl)]
        by_cases hfl : ((fl i).isRec || (fl i).inRec) = true
        · rw [if_pos hfl]; exact KeepsF.pure _ fl
        · rw [if_neg hfl]
          refine KeepsF.guard i (keeps_pickMaxLoop (ih _) _ _) (fun r => ?_) fl ?_
          · cases r <;> exact .pure _
          · simp at hfl; exact hfl.2

/-! ## Extraction -/

section
variable {β : Type}

/-- An extraction that returns or throws leaves the flags unchanged. -/
def KeepsX {α : Type} (m : XM β α) : Prop :=
  ∀ s, ((∃ a, (m s).1 = .ok a) ∨ (m s).1 = .outOfData) → (m s).2.1 = s.1

namespace KeepsX
variable {α γ : Type}

theorem pure (a : α) : KeepsX (pure a : XM β α) := fun _ _ => rfl
theorem out (o : Out α) : KeepsX (M.out o : XM β α) := fun _ _ => rfl
theorem lift (o : Out α) : KeepsX (M.lift o : XM β α) := fun _ _ => rfl
theorem liftB (m : M β α) : KeepsX (liftB m) := fun _ _ => rfl
theorem curSize [BlobLike β] : KeepsX (curSize : XM β Nat) := fun _ _ => rfl

theorem liftF {m : M Flags α} (h : KeepsF m) : KeepsX (liftF m : XM β α) := by
  intro s hs
  obtain ⟨h1, h2, h3⟩ := h s.1
  show (m s.1).2 = s.1
  rcases hs with ⟨a, e⟩ | e
  · exact h3 a _ (Prod.ext e rfl)
  · exact absurd e h1

theorem bind {m : XM β α} {f : α → XM β γ} (h : KeepsX m) (hf : ∀ a, KeepsX (f a)) :
    KeepsX (m >>= f) := by
  intro s hs
  rw [M.bind_apply] at hs ⊢
  have h1 := h s
  rcases hm : m s with ⟨o, s'⟩
  rw [hm] at h1 hs
  cases o with
  | ok a =>
    have e := h1 (Or.inl ⟨a, rfl⟩)
    dsimp only at e
    rw [← e]
    exact hf a s' hs
  | outOfData => exact h1 (Or.inr rfl)
  | abort => rcases hs with ⟨a, e⟩ | e <;> cases e
  | ub r => rcases hs with ⟨a, e⟩ | e <;> cases e
  | fuel => rcases hs with ⟨a, e⟩ | e <;> cases e

theorem ite {c : Prop} [Decidable c] {m n : XM β α} (h : KeepsX m) (h' : KeepsX n) :
    KeepsX (if c then m else n) := by split <;> assumption

theorem onBlob (c : β) {m : XM β α} (h : KeepsX m) : KeepsX (onBlob c m) :=
  fun s hs => h (s.1, c) hs

end KeepsX

theorem keeps_extractEach {ex : Id → XM β Bytes} (h : ∀ i, KeepsX (ex i)) (k : Int)
    (l : List (Id × β)) : KeepsX (extractEach ex k l) := by
  induction l generalizing k with
  | nil => exact .pure _
  | cons p l ih =>
    obtain ⟨i, c⟩ := p
    exact .bind (.onBlob c (h i)) fun _ => .bind (.lift _) fun _ => .bind (ih _) fun _ => .pure _

theorem keeps_extractSeq {ex : Id → XM β Bytes} (h : ∀ i, KeepsX (ex i)) (l : List Id) :
    KeepsX (extractSeq ex l) := by
  induction l with
  | nil => exact .pure _
  | cons i l ih => exact .bind (h i) fun _ => .bind ih fun _ => .pure _

variable [BlobLike β]

theorem keeps_pickFilter {a c : Id → M Flags Int} (h : ∀ i, KeepsF (a i)) (h' : ∀ i, KeepsF (c i))
    (l : List Id) : KeepsX (pickFilter a c l : XM β _) := by
  induction l with
  | nil => exact .pure _
  | cons i l ih =>
    exact .bind (.liftF (h i)) fun _ => .bind .curSize fun _ => .ite
      (.bind (.liftF (h' i)) fun _ => .bind ih fun _ => .ite (.pure _) (.pure _)) ih

theorem keeps_softFilter (r : Bool) {a c : Id → M Flags Int} (h : ∀ i, KeepsF (a i))
    (h' : ∀ i, KeepsF (c i)) (i : Id) (d : Int) : KeepsF (softFilter r a c i d) := by
  unfold softFilter
  exact .ite (.pure _) (.bind (h' i) fun _ => .ite (.pure _) (.bind (h i) fun _ =>
    .bind (.okUb (ckInt_okUb _)) fun _ => .pure _))

theorem keeps_lotFilter (r : Bool) {a c : Id → M Flags Int} (h : ∀ i, KeepsF (a i))
    (h' : ∀ i, KeepsF (c i)) (l : List Id) : KeepsX (lotFilter r a c l : XM β _) := by
  induction l with
  | nil => exact .pure _
  | cons i l ih =>
    exact .bind (.liftF (h i)) fun _ => .bind .curSize fun _ => .ite ih
      (.bind (.liftF (keeps_softFilter r h h' i _)) fun _ => .bind ih fun _ => .pure _)

theorem keeps_extract (G : Graph) (n : Nat) (i : Id) : KeepsX (extract G n i : XM β Bytes) := by
  induction n generalizing i with
  | zero => exact .out _
  | succ n ih =>
    unfold extract
    split
    · exact .out _
    next nd _ =>
    split
    · exact .liftB _
    · exact .liftB _
    · exact .liftB _
    · exact .liftB _
    · exact .liftB _
    · exact .bind (.liftB _) fun _ => .bind .curSize fun _ => .bind (.liftB _) fun _ => .lift _
    · exact .bind (.liftF (keeps_sizeQ _ _ _ _)) fun _ => .bind (.liftF (keeps_sizeQ _ _ _ _)) fun _ =>
        .bind (.liftB _) fun _ => .bind (keeps_extractEach ih _ _) fun _ => .pure _
    · exact .bind (.liftF (keeps_queryAll (keeps_sizeQ G n _) _)) fun _ =>
        .bind (.liftF (keeps_queryAll (keeps_sizeQ G n _) _)) fun _ =>
        .bind (.liftB _) fun _ => .bind (keeps_extractEach ih _ _) fun _ => .pure _
    · exact .bind (keeps_extractSeq ih _) fun _ => .pure _
    · exact .bind (ih _) fun _ => .pure _
    · exact .bind (.liftB _) fun _ =>
        .bind (keeps_lotFilter _ (keeps_sizeQ G n _) (keeps_sizeQ G n _) _) fun _ =>
        .bind (.ite (keeps_lotFilter _ (keeps_sizeQ G n _) (keeps_sizeQ G n _) _) (.pure _)) fun _ =>
        .ite (.out _) (.bind (.lift _) fun _ => .bind (.lift _) fun _ => ih _)
    · refine .bind (.liftB _) fun _ =>
        .bind (keeps_pickFilter (keeps_sizeQ G n _) (keeps_sizeQ G n _) _) fun _ => ?_
      exact .ite (.bind (.liftF (keeps_sizeQ _ _ _ _)) fun _ => .bind .curSize fun _ =>
        .ite (.out _) (.out _)) (.bind (.lift _) fun _ => .bind (.lift _) fun _ => ih _)

theorem SizeRuns.flags {G : Graph} {fl fl' : Flags} {sel : Sel} {i : Id} {v : Int}
    (h : SizeRuns G fl sel i v fl') : fl' = fl := by
  obtain ⟨N, h⟩ := h
  exact (keeps_sizeQ G N sel i fl).2.2 _ _ (h N (le_refl _))

theorem Extracts.flags {G : Graph} {fl fl' : Flags} {i : Id} {b b' : β} {o : Out Bytes}
    (h : Extracts G fl i b o fl' b') (ho : (∃ s, o = .ok s) ∨ o = .outOfData) : fl' = fl := by
  obtain ⟨N, h⟩ := h
  have := keeps_extract G N i (fl, b)
  rw [h N (le_refl _)] at this
  exact this ho

end

end BS
