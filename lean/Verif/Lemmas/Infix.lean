import Verif.Lemmas.Safe

/-!
# The pieces a galley hands out come from the blob
-/

namespace BS
open BlobLike

variable {β : Type} [BlobLike β]

/-- What a blob has, its pieces and what is left of it have. -/
def ChopClosed (P : β → Prop) : Prop := ∀ k b c b', P b → (chop k : M β β) b = (.ok c, b') → P c ∧ P b'

/-- On success, what is left has the property. -/
def SufOk {α : Type} (P : β → Prop) (m : M β α) : Prop := ∀ b x b', P b → m b = (.ok x, b') → P b'

/-- On success, every piece and what is left have the property. -/
def Pieces (P : β → Prop) (m : M β (List β)) : Prop :=
  ∀ b l b', P b → m b = (.ok l, b') → P b' ∧ ∀ p ∈ l, P p

theorem infix_closed (a : ABlob) : ChopClosed (β := ABlob) (· <:+: a) := by
  intro k b c b' hb h
  rw [chop_abs] at h
  split at h
  · cases h
  · cases h
    exact ⟨(List.take_prefix _ _).isInfix.trans hb, (List.drop_suffix _ _).isInfix.trans hb⟩

theorem reachable_closed : ChopClosed Reachable :=
  fun k _ _ _ hb h => ⟨.piece (c := .one k) hb h, .rest (c := .one k) hb h⟩

variable {P : β → Prop}

namespace SufOk
variable {α γ : Type}
omit [BlobLike β] in
theorem pure (x : α) : SufOk P (Pure.pure x) := by
  intro a y a' hb h; cases h; exact hb
omit [BlobLike β] in
theorem lift (o : Out α) : SufOk P (M.lift o : M β α) := by
  intro a y a' hb h; cases h; exact hb
omit [BlobLike β] in
theorem get : SufOk P (M.get : M β β) := by
  intro a y a' hb h; cases h; exact hb
omit [BlobLike β] in
theorem bind {m : M β α} {f : α → M β γ} (h : SufOk P m) (hf : ∀ x, SufOk P (f x)) : SufOk P (m >>= f) := by
  intro a y a' hb e
  obtain ⟨x, a1, h1, h2⟩ := M.bind_eq_ok.1 e
  exact hf x _ _ _ (h _ _ _ hb h1) h2
omit [BlobLike β] in
theorem ite {c : Prop} [Decidable c] {m n : M β α} (h : SufOk P m) (h' : SufOk P n) :
    SufOk P (if c then m else n) := by split <;> assumption
theorem chop (hP : ChopClosed P) (k : Nat) : SufOk P (BlobLike.chop k : M β β) := fun _ _ _ hb h => (hP _ _ _ _ hb h).2
theorem oracle (hP : ChopClosed P) : SufOk P (BS.oracle : M β Nat) := by
  refine .bind (.bind (.chop hP _) fun _ => .bind (.lift _) fun _ => .pure _) fun v => ?_
  cases v <;> exact .pure _
end SufOk

namespace Pieces
variable {α : Type}
omit [BlobLike β] in
theorem nil : Pieces P (Pure.pure []) := by
  intro a l a' hb h; cases h; exact ⟨hb, by simp⟩
omit [BlobLike β] in
theorem out {o : Out (List β)} (h : ∀ l, o ≠ .ok l) : Pieces P (M.out o) := by
  intro a l a' _ e; cases e; exact absurd rfl (h l)
omit [BlobLike β] in
theorem bind {m : M β α} {f : α → M β (List β)} (h : SufOk P m) (hf : ∀ x, Pieces P (f x)) :
    Pieces P (m >>= f) := by
  intro a y a' hb e
  obtain ⟨x, a1, h1, h2⟩ := M.bind_eq_ok.1 e
  exact hf x _ _ _ (h _ _ _ hb h1) h2
omit [BlobLike β] in
theorem ite {c : Prop} [Decidable c] {m n : M β (List β)} (h : Pieces P m) (h' : Pieces P n) :
    Pieces P (if c then m else n) := by split <;> assumption
theorem cons (hP : ChopClosed P) {r : M β (List β)} (k : Nat) (h : Pieces P r) :
    Pieces P (chop k >>= fun c => r >>= fun l => Pure.pure (c :: l)) := by
  intro a y a' hb e
  obtain ⟨c, a1, h1, e⟩ := M.bind_eq_ok.1 e
  obtain ⟨l, a2, h2, e⟩ := M.bind_eq_ok.1 e
  cases e
  obtain ⟨p1, p2⟩ := hP _ _ _ _ hb h1
  obtain ⟨h3, h4⟩ := h _ _ _ p2 h2
  refine ⟨h3, fun p hp => ?_⟩
  rcases List.mem_cons.1 hp with rfl | hp
  · exact p1
  · exact h4 p hp
end Pieces

variable (hP : ChopClosed P)
include hP

theorem pieces_fixedLoop (n : Nat) (mn : Int) : Pieces P (fixedLoop n mn) := by
  induction n with
  | zero => exact .out (by simp)
  | succ n ih => exact .bind .get fun _ => .ite (.cons hP _ ih) .nil

theorem sufOk_sizeOracles (n : Nat) (t : Int) : SufOk P (sizeOracles n t : M β _) := by
  induction n generalizing t with
  | zero => exact .pure _
  | succ n ih => exact .bind (.oracle hP) fun _ => .bind (.lift _) fun _ => .bind (ih _) fun _ => .pure _

theorem pieces_unbChopLoop (mn total var : Int) (os : List Nat) (r : FV) :
    Pieces P (unbChopLoop mn total var os r) := by
  induction os generalizing r with
  | nil => exact .nil
  | cons o os ih => exact .bind (.lift _) fun _ => .cons hP _ (ih _)

theorem pieces_vecUnbounded (mn : Int) : Pieces P (vecUnbounded mn) := by
  unfold vecUnbounded
  exact .bind .get fun _ => .ite (.out (by simp)) (.bind (.oracle hP) fun _ => .bind (sufOk_sizeOracles hP _ _) fun _ =>
    .bind .get fun _ => .bind (.lift _) fun _ => .bind (.lift _) fun _ => pieces_unbChopLoop hP _ _ _ _ _)

theorem pieces_variatedLoop (n : Nat) (mn mx : Int) : Pieces P (variatedLoop n mn mx) := by
  induction n with
  | zero => exact .out (by simp)
  | succ n ih =>
    exact .bind (.lift _) fun _ => .bind .get fun _ => .ite .nil (.bind (.oracle hP) fun _ => .bind (.lift _) fun _ =>
      .bind .get fun _ => .cons hP _ ih)

theorem pieces_vecSplit (n : Nat) (mn mx : Int) : Pieces P (vecSplit n mn mx) := by
  unfold vecSplit
  exact .bind .get fun _ => .ite (.out (by simp)) (.ite (pieces_fixedLoop hP _ _) (.ite (pieces_vecUnbounded hP _)
    (.bind (.lift _) fun _ => pieces_variatedLoop hP _ _ _)))

theorem sufOk_setModLoop (nUnb : Nat) (ss : List SizePair) (p u : FV) :
    SufOk P (setModLoop nUnb ss p u : M β _) := by
  induction ss generalizing p u with
  | nil => exact .pure _
  | cons s ss ih =>
    exact .ite (.bind (ih _ _) fun _ => .pure _) (.ite (.ite (.bind (ih _ _) fun _ => .pure _)
      (.bind (.oracle hP) fun _ => .bind (ih _ _) fun _ => .pure _)) (.bind (.oracle hP) fun _ => .bind (.lift _) fun _ =>
      .bind (ih _ _) fun _ => .pure _))

theorem pieces_setChopLoop (kv ku : FV) (ss : List SizePair) (ms : List FV) (v u : FV) :
    Pieces P (setChopLoop kv ku ss ms v u) := by
  induction ss generalizing ms v u with
  | nil => unfold setChopLoop; exact .nil
  | cons s ss ih =>
    cases ms with
    | nil => unfold setChopLoop; exact .nil
    | cons m ms =>
      unfold setChopLoop
      exact .ite (.bind (.lift _) fun _ => .bind (.lift _) fun _ => .cons hP _ (ih _ _ _)) (.ite (.cons hP _ (ih _ _ _))
        (.bind (.lift _) fun _ => .bind (.lift _) fun _ => .bind (.lift _) fun _ => .cons hP _ (ih _ _ _)))

theorem pieces_setSplit (ss : List SizePair) : Pieces P (setSplit ss) := by
  unfold setSplit setLimit
  exact .bind (.lift _) fun _ => .bind .get fun _ => .ite (.out (by simp)) (.bind
    (.ite (.bind (.oracle hP) fun _ => .bind (.lift _) fun _ => .pure _) (.pure _)) fun _ =>
    .bind (sufOk_setModLoop hP _ _ _ _) fun _ => .bind (.lift _) fun _ => .bind (.lift _) fun _ =>
      pieces_setChopLoop hP _ _ _ _ _ _)

end BS
