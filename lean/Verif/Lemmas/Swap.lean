import Verif.Spec.Swap
import Verif.Props.Derive

/-!
# Data with places to fill in: how the galleys cut them
-/

namespace BS
open BlobLike

/-! ## Forms -/

theorem holes_append (c d : List Cell) : holes (c ++ d) = holes c + holes d := by
  induction c with
  | nil => exact (Nat.zero_add _).symm
  | cons x c ih =>
    cases x with
    | fix b => exact ih
    | hole => show holes (c ++ d) + 1 = holes c + 1 + holes d; omega

theorem fill_append (c d : List Cell) (xs ys : List Bytes) (h : holes c = xs.length) :
    fill (c ++ d) (xs ++ ys) = fill c xs ++ fill d ys := by
  induction c generalizing xs with
  | nil =>
    cases xs with
    | nil => rfl
    | cons => cases h
  | cons x c ih =>
    cases x with
    | fix b =>
      show b ++ fill (c ++ d) (xs ++ ys) = b ++ fill c xs ++ fill d ys
      rw [ih xs h, List.append_assoc]
    | hole =>
      cases xs with
      | nil => cases h
      | cons x xs =>
        show x ++ fill (c ++ d) (xs ++ ys) = x ++ fill c xs ++ fill d ys
        rw [ih xs (Nat.succ.inj h), List.append_assoc]

/-- Lengths that agree place by place. -/
def SameLen (xs ys : List Bytes) : Prop := List.Forall₂ (fun x y => y.length = x.length) xs ys

theorem SameLen.fill {xs ys : List Bytes} (h : SameLen xs ys) (c : List Cell) : (fill c ys).length = (fill c xs).length := by
  induction c generalizing xs ys with
  | nil => rfl
  | cons x c ih =>
    cases x with
    | fix b =>
      show (b ++ BS.fill c ys).length = (b ++ BS.fill c xs).length
      rw [List.length_append, List.length_append, ih h]
    | hole =>
      cases h with
      | nil => exact ih .nil
      | @cons x y xs ys h1 h2 =>
        show (y ++ BS.fill c ys).length = (x ++ BS.fill c xs).length
        rw [List.length_append, List.length_append, h1, ih h2]

theorem fill_empty {c : List Cell} {xs ys : List Bytes} (h : List.Forall₂ (fun x y => y = [] ↔ x = []) xs ys) :
    fill c ys = [] ↔ fill c xs = [] := by
  induction c generalizing xs ys with
  | nil => exact Iff.rfl
  | cons x c ih =>
    cases x with
    | fix b =>
      show b ++ fill c ys = [] ↔ b ++ fill c xs = []
      rw [List.append_eq_nil_iff, List.append_eq_nil_iff, ih h]
    | hole =>
      cases h with
      | nil => exact ih .nil
      | @cons x y xs ys h1 h2 =>
        show y ++ fill c ys = [] ↔ x ++ fill c xs = []
        rw [List.append_eq_nil_iff, List.append_eq_nil_iff, ih h2, h1]

/-- Forms in the places of a form. -/
def insertForms : List Cell → List (List Cell) → List Cell
  | [], _ => []
  | .fix b :: cs, fs => .fix b :: insertForms cs fs
  | .hole :: cs, f :: fs => f ++ insertForms cs fs
  | .hole :: cs, [] => insertForms cs []

theorem holes_insert {c : List Cell} {fs : List (List Cell)} (h : holes c = fs.length) :
    holes (insertForms c fs) = (fs.map holes).sum := by
  induction c generalizing fs with
  | nil =>
    cases fs with
    | nil => rfl
    | cons => cases h
  | cons x c ih =>
    cases x with
    | fix b => exact ih h
    | hole =>
      cases fs with
      | nil => cases h
      | cons f fs =>
        show holes (f ++ insertForms c fs) = _
        rw [holes_append, ih (Nat.succ.inj h), List.map_cons, List.sum_cons]

theorem fill_insert {c : List Cell} {fs : List (List Cell)} {xss : List (List Bytes)} (h : holes c = fs.length)
    (hx : List.Forall₂ (fun f xs => holes f = xs.length) fs xss) :
    fill (insertForms c fs) xss.flatten = fill c (List.zipWith fill fs xss) := by
  induction c generalizing fs xss with
  | nil => rfl
  | cons x c ih =>
    cases x with
    | fix b =>
      show b ++ fill (insertForms c fs) xss.flatten = b ++ fill c (List.zipWith fill fs xss)
      rw [ih h hx]
    | hole =>
      cases hx with
      | nil => cases h
      | @cons f xs fs xss h1 h2 =>
        show fill (f ++ insertForms c fs) (xs ++ xss.flatten) = fill f xs ++ fill c (List.zipWith fill fs xss)
        rw [fill_append _ _ _ _ h1, ih (Nat.succ.inj h) h2]

/-! ## Cutting -/

/-- On success, the value does not depend on the bytes left, only on how many there are. -/
def Steady {α : Type} (m : M ABlob α) : Prop := ∀ a x a', m a = (.ok x, a') → ∃ u, a = u ++ a' ∧
  ∀ a'' : ABlob, List.length a'' = List.length a' → m (u ++ a'') = (.ok x, a'')

/-- On success, other bytes in the pieces and in what is left, as many, are cut the same way. -/
def CutsForm (m : M ABlob (List ABlob)) : Prop := ∀ a l a', m a = (.ok l, a') → ∃ c, holes c = l.length ∧ a = fill c l ++ a' ∧
  ∀ l' (a'' : ABlob), SameLen l l' → List.length a'' = List.length a' → m (fill c l' ++ a'') = (.ok l', a'')

namespace Steady
variable {α γ : Type}
theorem pure (x : α) : Steady (Pure.pure x) := by intro a y a' h; cases h; exact ⟨[], rfl, fun _ _ => rfl⟩
theorem lift (o : Out α) : Steady (M.lift o) := by intro a y a' h; cases h; exact ⟨[], rfl, fun _ _ => rfl⟩
theorem out {o : Out α} (h : ∀ l, o ≠ .ok l) : Steady (M.out o) := by
  intro a l a' e; cases e; exact absurd rfl (h l)
theorem bind {m : M ABlob α} {f : α → M ABlob γ} (h : Steady m) (hf : ∀ x, Steady (f x)) : Steady (m >>= f) := by
  intro a y a' e
  obtain ⟨x, a1, h1, h2⟩ := M.bind_eq_ok.1 e
  obtain ⟨u, rfl, hu⟩ := h _ _ _ h1
  obtain ⟨v, rfl, hv⟩ := hf x _ _ _ h2
  refine ⟨u ++ v, by rw [List.append_assoc], fun a'' ha => ?_⟩
  rw [List.append_assoc, M.bind_ok (hu (v ++ a'') (by rw [List.length_append, List.length_append, ha]))]
  exact hv a'' ha
theorem get {f : ABlob → M ABlob γ} (h : ∀ b, Steady (f b)) (hf : ∀ b b' : ABlob, List.length b = List.length b' → f b = f b') :
    Steady (M.get >>= f) := by
  intro a y a' e
  change f a a = _ at e
  obtain ⟨u, rfl, hu⟩ := h _ _ _ _ e
  refine ⟨u, rfl, fun a'' ha => ?_⟩
  show f (u ++ a'') (u ++ a'') = _
  rw [hf (u ++ a'') (u ++ a') (by rw [List.length_append, List.length_append, ha])]
  exact hu a'' ha
theorem ite {c : Prop} [Decidable c] {m n : M ABlob α} (h : Steady m) (h' : Steady n) :
    Steady (if c then m else n) := by split <;> assumption
theorem value (t : ArithTy) : Steady (extractValue t : M ABlob AVal) := by
  intro a y a' h
  obtain ⟨c, a1, h1, e⟩ := M.bind_eq_ok.1 h
  rw [chop_abs] at h1
  split at h1
  · cases h1
  · rename_i hl
    injection h1 with h1 h1'
    injection h1 with h1
    obtain ⟨v, a2, h2, e⟩ := M.bind_eq_ok.1 e
    have ev : M.lift (BlobLike.bytes c : Out Bytes) a1 = (.ok v, a2) := h2
    injection ev with ev ev'
    cases e
    subst ev'
    refine ⟨c, by rw [← h1, ← h1']; exact (List.take_append_drop _ _).symm, fun a'' ha => ?_⟩
    have hc : List.length c = t.size := by rw [← h1, List.length_take]; exact Nat.min_eq_left (Nat.le_of_not_lt hl)
    have e3 : (BlobLike.chop t.size : M ABlob ABlob) (c ++ a'') = (.ok c, a'') := by
      rw [chop_abs, if_neg (by rw [List.length_append]; omega), ← hc, List.take_left, List.drop_left]
    unfold extractValue
    rw [M.bind_ok e3]
    show (M.lift (BlobLike.bytes c) >>= fun v => Pure.pure (decode t v)) a'' = _
    rw [ev]
    rfl
theorem oracle : Steady (BS.oracle : M ABlob Nat) := by
  refine .bind (.value _) fun v => ?_
  cases v <;> exact .pure _
theorem uOracle (k : Nat) : Steady (BS.uOracle k : M ABlob Nat) := by
  unfold BS.uOracle
  cases uOracleTy k with
  | none => exact .out (fun _ h => by cases h)
  | some ty =>
    refine .bind (.value _) fun v => ?_
    cases v <;> exact .pure _
end Steady

namespace CutsForm
variable {α : Type}
theorem nil : CutsForm (Pure.pure []) := by
  intro a l a' h
  cases h
  exact ⟨[], rfl, rfl, fun l' a'' hl _ => by cases hl; rfl⟩
theorem out {o : Out (List ABlob)} (h : ∀ l, o ≠ .ok l) : CutsForm (M.out o) := by
  intro a l a' e; cases e; exact absurd rfl (h l)
theorem bind {m : M ABlob α} {f : α → M ABlob (List ABlob)} (h : Steady m) (hf : ∀ x, CutsForm (f x)) : CutsForm (m >>= f) := by
  intro a y a' e
  obtain ⟨x, a1, h1, h2⟩ := M.bind_eq_ok.1 e
  obtain ⟨u, rfl, hu⟩ := h _ _ _ h1
  obtain ⟨c, hc, rfl, hv⟩ := hf x _ _ _ h2
  refine ⟨.fix u :: c, hc, by rw [fill, List.append_assoc], fun l' a'' hl ha => ?_⟩
  show (m >>= f) (u ++ fill c l' ++ a'') = _
  rw [List.append_assoc, M.bind_ok (hu (fill c l' ++ a'') (by rw [List.length_append, List.length_append, ha, hl.fill c]))]
  exact hv l' a'' hl ha
theorem get {f : ABlob → M ABlob (List ABlob)} (h : ∀ b, CutsForm (f b))
    (hf : ∀ b b' : ABlob, List.length b = List.length b' → f b = f b') : CutsForm (M.get >>= f) := by
  intro a y a' e
  change f a a = _ at e
  obtain ⟨c, hc, rfl, hu⟩ := h _ _ _ _ e
  refine ⟨c, hc, rfl, fun l' a'' hl ha => ?_⟩
  show f (fill c l' ++ a'') (fill c l' ++ a'') = _
  rw [hf (fill c l' ++ a'') (fill c y ++ a') (by rw [List.length_append, List.length_append, ha, hl.fill c])]
  exact hu l' a'' hl ha
theorem ite {c : Prop} [Decidable c] {m n : M ABlob (List ABlob)} (h : CutsForm m) (h' : CutsForm n) :
    CutsForm (if c then m else n) := by split <;> assumption
theorem cons {r : M ABlob (List ABlob)} (k : Nat) (h : CutsForm r) :
    CutsForm (BlobLike.chop k >>= fun c => r >>= fun l => Pure.pure (c :: l)) := by
  intro a y a' e
  obtain ⟨p, a1, h1, e⟩ := M.bind_eq_ok.1 e
  obtain ⟨l, a2, h2, e⟩ := M.bind_eq_ok.1 e
  cases e
  obtain ⟨c, hc, rfl, hv⟩ := h _ _ _ h2
  rw [chop_abs] at h1
  split at h1
  · cases h1
  · rename_i hl
    injection h1 with h1 h1'
    injection h1 with h1
    have hp : List.length p = k := by rw [← h1, List.length_take]; exact Nat.min_eq_left (Nat.le_of_not_lt hl)
    refine ⟨.hole :: c, by rw [holes, hc]; rfl, ?_, ?_⟩
    · rw [fill, List.append_assoc, ← h1', ← h1]
      exact (List.take_append_drop k a).symm
    · intro l' a'' hl' ha
      cases hl' with
      | @cons _ q _ l' hq hl' =>
        show (BlobLike.chop k >>= fun c => r >>= fun l => Pure.pure (c :: l)) (q ++ fill c l' ++ a'') = _
        have e3 : (BlobLike.chop k : M ABlob ABlob) (q ++ fill c l' ++ a'') = (.ok q, fill c l' ++ a'') := by
          rw [List.append_assoc, chop_abs, if_neg (by rw [List.length_append]; omega), ← hp, ← hq, List.take_left, List.drop_left]
        rw [M.bind_ok e3, M.bind_ok (hv l' a'' hl' ha)]
        rfl
end CutsForm

theorem form_fixedLoop (n : Nat) (mn : Int) : CutsForm (fixedLoop n mn) := by
  induction n with
  | zero => exact .out (by simp)
  | succ n ih =>
    exact .get (fun _ => .ite (.cons _ ih) .nil) fun b b' h => by
      show (if toSz mn ≤ List.length b then _ else _) = (if toSz mn ≤ List.length b' then _ else _); rw [h]

theorem steady_sizeOracles (n : Nat) (t : Int) : Steady (sizeOracles n t) := by
  induction n generalizing t with
  | zero => exact .pure _
  | succ n ih => exact .bind .oracle fun _ => .bind (.lift _) fun _ => .bind (ih _) fun _ => .pure _

theorem form_unbChopLoop (mn total var : Int) (os : List Nat) (r : FV) : CutsForm (unbChopLoop mn total var os r) := by
  induction os generalizing r with
  | nil => exact .nil
  | cons o os ih => exact .bind (.lift _) fun _ => .cons _ (ih _)

theorem form_vecUnbounded (mn : Int) : CutsForm (vecUnbounded mn) := by
  unfold vecUnbounded
  refine .get (fun _ => .ite (.out (by simp)) (.bind .oracle fun _ => .bind (steady_sizeOracles _ _) fun _ =>
    .get (fun _ => .bind (.lift _) fun _ => .bind (.lift _) fun _ => form_unbChopLoop _ _ _ _ _) ?_)) ?_
  · intro b b' h
    have : size b = size b' := h
    simp only [this]
  · intro b b' h
    have : size b = size b' := h
    simp only [this]

theorem form_variatedLoop (n : Nat) (mn mx : Int) : CutsForm (variatedLoop n mn mx) := by
  induction n with
  | zero => exact .out (by simp)
  | succ n ih =>
    refine .bind (.lift _) fun _ => .get (fun _ => .ite .nil (.bind .oracle fun _ => .bind (.lift _) fun _ =>
      .get (fun _ => .cons _ ih) ?_)) ?_
    · intro b b' h
      have : size b = size b' := h
      simp only [this]
    · intro b b' h
      have : size b = size b' := h
      simp only [this]

theorem form_vecSplit (n : Nat) (mn mx : Int) : CutsForm (vecSplit n mn mx) := by
  unfold vecSplit
  refine .get (fun _ => .ite (.out (by simp)) (.ite (form_fixedLoop _ _) (.ite (form_vecUnbounded _)
    (.bind (.lift _) fun _ => form_variatedLoop _ _ _)))) ?_
  intro b b' h
  have : size b = size b' := h
  simp only [this]

theorem steady_setModLoop (nUnb : Nat) (ss : List SizePair) (p u : FV) : Steady (setModLoop nUnb ss p u) := by
  induction ss generalizing p u with
  | nil => exact .pure _
  | cons s ss ih =>
    exact .ite (.bind (ih _ _) fun _ => .pure _) (.ite (.ite (.bind (ih _ _) fun _ => .pure _)
      (.bind .oracle fun _ => .bind (ih _ _) fun _ => .pure _)) (.bind .oracle fun _ => .bind (.lift _) fun _ =>
      .bind (ih _ _) fun _ => .pure _))

theorem form_setChopLoop (kv ku : FV) (ss : List SizePair) (ms : List FV) (v u : FV) :
    CutsForm (setChopLoop kv ku ss ms v u) := by
  induction ss generalizing ms v u with
  | nil => unfold setChopLoop; exact .nil
  | cons s ss ih =>
    cases ms with
    | nil => unfold setChopLoop; exact .nil
    | cons m ms =>
      unfold setChopLoop
      exact .ite (.bind (.lift _) fun _ => .bind (.lift _) fun _ => .cons _ (ih _ _ _)) (.ite (.cons _ (ih _ _ _))
        (.bind (.lift _) fun _ => .bind (.lift _) fun _ => .bind (.lift _) fun _ => .cons _ (ih _ _ _)))

theorem form_setSplit (ss : List SizePair) : CutsForm (setSplit ss) := by
  unfold setSplit setLimit
  refine .bind (.lift _) fun _ => .get (fun _ => .ite (.out (by simp)) (.bind
    (.ite (.bind .oracle fun _ => .bind (.lift _) fun _ => .pure _) (.pure _)) fun _ =>
    .bind (steady_setModLoop _ _ _ _) fun _ => .bind (.lift _) fun _ => .bind (.lift _) fun _ =>
      form_setChopLoop _ _ _ _ _ _)) ?_
  intro b b' h
  have : size b = size b' := h
  simp only [this]

end BS
