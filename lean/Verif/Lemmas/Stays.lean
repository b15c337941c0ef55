import Verif.Lemmas.Infix
import Verif.Load

/-!
# What holds of a blob goes on holding while stamps eat from it, however the calls end
-/

namespace BS
open BlobLike

/-- However the call ends, what held of the state before holds after it. -/
def Stays {σ α : Type} (P : σ → Prop) (m : M σ α) : Prop := ∀ s, P s → P (m s).2

namespace Stays
variable {σ α γ : Type} {P : σ → Prop}

theorem pure (x : α) : Stays P (Pure.pure x : M σ α) := fun _ h => h
theorem out (o : Out α) : Stays P (M.out o : M σ α) := fun _ h => h
theorem lift (o : Out α) : Stays P (M.lift o : M σ α) := fun _ h => h
theorem get : Stays P (M.get : M σ σ) := fun _ h => h
theorem bind {m : M σ α} {f : α → M σ γ} (h : Stays P m) (hf : ∀ x, Stays P (f x)) : Stays P (m >>= f) := by
  intro s hs
  have h1 := h s hs
  rw [M.bind_apply]
  rcases e : m s with ⟨o, s'⟩
  rw [e] at h1
  cases o with
  | ok a => exact hf a s' h1
  | _ => exact h1
theorem ite {c : Prop} [Decidable c] {m n : M σ α} (h : Stays P m) (h' : Stays P n) :
    Stays P (if c then m else n) := by split <;> assumption
end Stays

variable {β : Type} [BlobLike β]

/-- What a blob has, is had by what `Chop` leaves of it, however it ends, and by the piece. -/
def ChopKeeps (P : β → Prop) : Prop := ∀ k, Stays P (chop k : M β β) ∧ ∀ b c, P b → (chop k b).1 = .ok c → P c

theorem ChopKeeps.closed {P : β → Prop} (h : ChopKeeps P) : ChopClosed P := by
  intro k b c b' hb e
  have h1 := (h k).1 b hb
  have h2 := (h k).2 b c hb (by rw [e])
  rw [e] at h1
  exact ⟨h2, h1⟩

variable {P : β → Prop} (hP : ∀ k, Stays P (chop k : M β β))
include hP

theorem stays_value (t : ArithTy) : Stays P (extractValue t : M β _) :=
  .bind (hP _) fun _ => .bind (.lift _) fun _ => .pure _

theorem stays_oracle : Stays P (oracle : M β Nat) :=
  .bind (stays_value hP _) fun v => by cases v <;> exact .pure _

theorem stays_uOracle (w : Nat) : Stays P (uOracle w : M β Nat) := by
  unfold uOracle
  generalize uOracleTy w = ty
  cases ty with
  | none => exact .out _
  | some ty => exact .bind (stays_value hP ty) fun v => by cases v <;> exact .pure _

theorem stays_dict (ws : List Bytes) : Stays P (extractDict ws : M β Bytes) :=
  .bind (stays_uOracle hP _) fun _ => .bind (.lift _) fun _ => .lift _

theorem stays_text (f : UInt8 → UInt8) : Stays P (extractText f : M β Bytes) := by
  refine .bind (fun b hb => ?_) fun _ => .bind (.lift _) fun _ => .pure _
  unfold chop2
  split
  · exact hb
  split
  · exact (hP _) b hb
  · exact (hP _) b hb

theorem stays_fixedLoop (n : Nat) (mn : Int) : Stays P (fixedLoop n mn : M β (List β)) := by
  induction n with
  | zero => exact .out _
  | succ n ih => exact .bind .get fun _ => .ite (.bind (hP _) fun _ => .bind ih fun _ => .pure _) (.pure _)

theorem stays_sizeOracles (n : Nat) (t : Int) : Stays P (sizeOracles n t : M β _) := by
  induction n generalizing t with
  | zero => exact .pure _
  | succ n ih => exact .bind (stays_oracle hP) fun _ => .bind (.lift _) fun _ => .bind (ih _) fun _ => .pure _

theorem stays_unbChopLoop (mn total var : Int) (os : List Nat) (r : FV) :
    Stays P (unbChopLoop mn total var os r : M β (List β)) := by
  induction os generalizing r with
  | nil => exact .pure _
  | cons o os ih => exact .bind (.lift _) fun _ => .bind (hP _) fun _ => .bind (ih _) fun _ => .pure _

theorem stays_vecUnbounded (mn : Int) : Stays P (vecUnbounded mn : M β (List β)) := by
  unfold vecUnbounded
  exact .bind .get fun _ => .ite (.out _) (.bind (stays_oracle hP) fun _ => .bind (stays_sizeOracles hP _ _) fun _ =>
    .bind .get fun _ => .bind (.lift _) fun _ => .bind (.lift _) fun _ => stays_unbChopLoop hP _ _ _ _ _)

theorem stays_variatedLoop (n : Nat) (mn mx : Int) : Stays P (variatedLoop n mn mx : M β (List β)) := by
  induction n with
  | zero => exact .out _
  | succ n ih =>
    exact .bind (.lift _) fun _ => .bind .get fun _ => .ite (.pure _) (.bind (stays_oracle hP) fun _ => .bind (.lift _) fun _ =>
      .bind .get fun _ => .bind (hP _) fun _ => .bind ih fun _ => .pure _)

theorem stays_vecSplit (n : Nat) (mn mx : Int) : Stays P (vecSplit n mn mx : M β (List β)) := by
  unfold vecSplit
  exact .bind .get fun _ => .ite (.out _) (.ite (stays_fixedLoop hP _ _) (.ite (stays_vecUnbounded hP _)
    (.bind (.lift _) fun _ => stays_variatedLoop hP _ _ _)))

theorem stays_setModLoop (nUnb : Nat) (ss : List SizePair) (p u : FV) : Stays P (setModLoop nUnb ss p u : M β _) := by
  induction ss generalizing p u with
  | nil => exact .pure _
  | cons s ss ih =>
    exact .ite (.bind (ih _ _) fun _ => .pure _) (.ite (.ite (.bind (ih _ _) fun _ => .pure _)
      (.bind (stays_oracle hP) fun _ => .bind (ih _ _) fun _ => .pure _)) (.bind (stays_oracle hP) fun _ => .bind (.lift _) fun _ =>
      .bind (ih _ _) fun _ => .pure _))

theorem stays_setChopLoop (kv ku : FV) (ss : List SizePair) (ms : List FV) (v u : FV) :
    Stays P (setChopLoop kv ku ss ms v u : M β (List β)) := by
  induction ss generalizing ms v u with
  | nil => unfold setChopLoop; exact .pure _
  | cons s ss ih =>
    cases ms with
    | nil => unfold setChopLoop; exact .pure _
    | cons m ms =>
      have hc : ∀ (k : Nat) (a b : FV), Stays P (chop k >>= fun c => setChopLoop kv ku ss ms a b >>= fun r => Pure.pure (c :: r)) :=
        fun k a b => .bind (hP _) fun _ => .bind (ih _ _ _) fun _ => .pure _
      unfold setChopLoop
      exact .ite (.bind (.lift _) fun _ => .bind (.lift _) fun _ => hc _ _ _) (.ite (hc _ _ _)
        (.bind (.lift _) fun _ => .bind (.lift _) fun _ => .bind (.lift _) fun _ => hc _ _ _))

theorem stays_setSplit (ss : List SizePair) : Stays P (setSplit ss : M β (List β)) := by
  unfold setSplit setLimit
  exact .bind (.lift _) fun _ => .bind .get fun _ => .ite (.out _) (.bind
    (.ite (.bind (stays_oracle hP) fun _ => .bind (.lift _) fun _ => .pure _) (.pure _)) fun _ =>
    .bind (stays_setModLoop hP _ _ _ _) fun _ => .bind (.lift _) fun _ => .bind (.lift _) fun _ =>
      stays_setChopLoop hP _ _ _ _ _ _)

omit hP [BlobLike β] in
theorem stays_liftB {α : Type} {m : M β α} (h : Stays P m) : Stays (fun s => P s.2) (liftB m : XM β α) := fun s hs => h s.2 hs
omit hP [BlobLike β] in
theorem stays_liftF {α : Type} (m : M Flags α) : Stays (fun s => P s.2) (liftF m : XM β α) := fun _ hs => hs
omit hP [BlobLike β] in
theorem stays_onBlob {α : Type} (c : β) (m : XM β α) : Stays (fun s => P s.2) (onBlob c m : XM β α) := fun _ hs => hs
omit hP in
theorem stays_curSize : Stays (fun s => P s.2) (curSize : XM β Nat) := fun _ hs => hs

omit hP [BlobLike β] in
theorem stays_extractEach (ex : Id → XM β Bytes) (k : Int) (l : List (Id × β)) :
    Stays (fun s => P s.2) (extractEach ex k l : XM β _) := by
  induction l generalizing k with
  | nil => exact .pure _
  | cons x l ih => exact .bind (stays_onBlob _ _) fun _ => .bind (.lift _) fun _ => .bind (ih _) fun _ => .pure _

omit hP [BlobLike β] in
theorem stays_extractSeq {ex : Id → XM β Bytes} (h : ∀ i, Stays (fun s => P s.2) (ex i)) (l : List Id) :
    Stays (fun s => P s.2) (extractSeq ex l : XM β _) := by
  induction l with
  | nil => exact .pure _
  | cons x l ih => exact .bind (h _) fun _ => .bind ih fun _ => .pure _

omit hP in
theorem stays_pickFilter (q q' : Id → M Flags Int) (l : List Id) : Stays (fun s => P s.2) (pickFilter q q' l : XM β _) := by
  induction l with
  | nil => exact .pure _
  | cons x l ih =>
    exact .bind (stays_liftF _) fun _ => .bind stays_curSize fun _ => .ite (.bind (stays_liftF _) fun _ => .bind ih fun _ =>
      .ite (.pure _) (.pure _)) ih

omit hP in
theorem stays_lotFilter (r : Bool) (q q' : Id → M Flags Int) (l : List Id) :
    Stays (fun s => P s.2) (lotFilter r q q' l : XM β _) := by
  induction l with
  | nil => exact .pure _
  | cons x l ih =>
    exact .bind (stays_liftF _) fun _ => .bind stays_curSize fun _ => .ite ih (.bind (stays_liftF _) fun _ => .bind ih fun _ =>
      .pure _)

/-- Whatever holds of a blob, and of what `Chop` leaves of it, holds of what an extraction leaves of it, however it ends. -/
theorem stays_extract (G : Graph) (n : Nat) (i : Id) : Stays (fun s => P s.2) (extract G n i : XM β Bytes) := by
  induction n generalizing i with
  | zero => exact .out _
  | succ n ih =>
    unfold extract
    cases hG : G i with
    | none => exact .out _
    | some nd =>
      cases nd with
      | arith t => exact stays_liftB (.bind (stays_value hP t) fun _ => .lift _)
      | dict ws => exact stays_liftB (stays_dict hP ws)
      | jsonStr => exact stays_liftB (.bind (stays_dict hP _) fun _ => .pure _)
      | latin1 => exact stays_liftB (stays_text hP _)
      | ascii => exact stays_liftB (stays_text hP _)
      | user u =>
        exact .bind (stays_liftB fun _ h => h) fun _ => .bind stays_curSize fun _ => .bind (stays_liftB (hP _)) fun _ => .lift _
      | vec c join =>
        exact .bind (stays_liftF _) fun _ => .bind (stays_liftF _) fun _ => .bind (stays_liftB (stays_vecSplit hP _ _ _)) fun _ =>
          .bind (stays_extractEach _ _ _) fun _ => .pure _
      | set cs join op =>
        exact .bind (stays_liftF _) fun _ => .bind (stays_liftF _) fun _ => .bind (stays_liftB (stays_setSplit hP _)) fun _ =>
          .bind (stays_extractEach _ _ _) fun _ => .pure _
      | seq cs join op => exact .bind (stays_extractSeq ih _) fun _ => .pure _
      | unary op c => exact .bind (ih c) fun _ => .pure _
      | lottery rec4 stamps osz a b =>
        exact .bind (stays_liftB (stays_uOracle hP _)) fun _ => .bind (stays_lotFilter _ _ _ _) fun _ =>
          .bind (.ite (stays_lotFilter _ _ _ _) (.pure _)) fun _ => .ite (.out _) (.bind (.lift _) fun _ => .bind (.lift _) fun _ =>
            ih _)
      | picker pool =>
        exact .bind (stays_liftB (stays_oracle hP)) fun _ => .bind (stays_pickFilter _ _ _) fun _ =>
          .ite (.bind (stays_liftF _) fun _ => .bind stays_curSize fun _ => .ite (.out _) (.out _))
            (.bind (.lift _) fun _ => .bind (.lift _) fun _ => ih _)

theorem stays_loadPiece (G : Graph) (n : Nat) (i : Id) : Stays (fun s => P s.2) (loadPiece G n i : XM β β) :=
  .bind (stays_liftF _) fun _ => .bind stays_curSize fun _ => .ite (.out _) (.bind (stays_liftF _) fun _ =>
    .ite (stays_liftB (hP _)) (.bind (stays_liftF _) fun _ => stays_liftB (hP _)))

omit hP
variable (hC : ChopKeeps P)
include hC

/-- What `Load` keeps is a piece of the blob. -/
theorem loadPiece_has {G : Graph} {n : Nat} {i : Id} {s : Flags × β} {c : β} (hs : P s.2) (h : (loadPiece G n i s).1 = .ok c) :
    P c := by
  have e : loadPiece G n i s = (.ok c, (loadPiece G n i s).2) := Prod.ext h rfl
  have hc : ∀ (k : Nat) (t t' : Flags × β), P t.2 → (liftB (chop k) : XM β β) t = (.ok c, t') → P c :=
    fun k t t' ht h' => (hC k).2 t.2 c ht (Prod.mk.inj h').1
  unfold loadPiece at e
  obtain ⟨mn, s1, e1, e⟩ := M.bind_eq_ok.1 e
  have h1 : P s1.2 := by have := stays_liftF (P := P) (sizeQ G n .min i) s hs; rw [e1] at this; exact this
  obtain ⟨sz, s2, e2, e⟩ := M.bind_eq_ok.1 e
  have h2 : P s2.2 := by have := stays_curSize (P := P) s1 h1; rw [e2] at this; exact this
  split at e
  · cases e
  obtain ⟨mx, s3, e3, e⟩ := M.bind_eq_ok.1 e
  have h3 : P s3.2 := by have := stays_liftF (P := P) (sizeQ G n .max i) s2 h2; rw [e3] at this; exact this
  split at e
  · exact hc _ _ _ h3 e
  obtain ⟨mx', s4, e4, e⟩ := M.bind_eq_ok.1 e
  have h4 : P s4.2 := by have := stays_liftF (P := P) (sizeQ G n .max i) s3 h3; rw [e4] at this; exact this
  exact hc _ _ _ h4 e

/-- The same for each stamp that is loaded from its own piece. -/
theorem loadEach_has (G : Graph) (n : Nat) (l : List (Id × β)) (s : Bitten β × Flags) (hl : ∀ x ∈ l, P x.2)
    (hs : ∀ j c, s.1 j = some c → P c) : ∀ j c, (loadEach G n l s).2.1 j = some c → P c := by
  induction l generalizing s with
  | nil => exact hs
  | cons x l ih =>
    obtain ⟨i, d⟩ := x
    have h1 : ∀ j c, (loadOne G n i d s).2.1 j = some c → P c := by
      intro j c hj
      have hj' : (match (loadPiece G n i (s.2, d)).1 with | .ok c => s.1.set i c | _ => s.1) j = some c := hj
      rcases e : (loadPiece G n i (s.2, d)).1 with x | _ | _ | _ | _ <;> rw [e] at hj' <;> dsimp only at hj'
      · unfold Bitten.set at hj'
        split at hj'
        · cases hj'
          exact loadPiece_has hC (s := (s.2, d)) (hl _ List.mem_cons_self) e
        · exact hs j c hj'
      all_goals exact hs j c hj'
    unfold loadEach
    rw [M.bind_apply]
    rcases e : loadOne G n i d s with ⟨o, s'⟩
    rw [e] at h1
    cases o with
    | ok _ => exact ih s' (fun x hx => hl x (List.mem_cons_of_mem _ hx)) h1
    | _ => exact h1

/-- `LoadAll`: what the stamps keep and what is left of the blob. -/
theorem loadAll_has (G : Graph) (n : Nat) (cs : List Id) (s : Bitten β × (Flags × β)) (hb : P s.2.2)
    (hs : ∀ j c, s.1 j = some c → P c) :
    P (loadAll G n cs s).2.2.2 ∧ ∀ j c, (loadAll G n cs s).2.1 j = some c → P c := by
  unfold loadAll
  set m : XM β (List β) := (do
    let mns ← liftF (queryAll (sizeQ G n .min) cs)
    let mxs ← liftF (queryAll (sizeQ G n .max) cs)
    liftB (setSplit (mns.zip mxs))) with hm
  have hst : Stays (fun s => P s.2) m :=
    .bind (stays_liftF _) fun _ => .bind (stays_liftF _) fun _ => stays_liftB (stays_setSplit (fun k => (hC k).1) _)
  have h1 := hst s.2 hb
  rcases e : m s.2 with ⟨o, s'⟩
  rw [e] at h1
  cases o with
  | ok blobs =>
    refine ⟨h1, loadEach_has hC G n _ _ ?_ hs⟩
    rw [hm] at e
    obtain ⟨_, t1, e1, e⟩ := M.bind_eq_ok.1 e
    have p1 : P t1.2 := by have := stays_liftF (P := P) (queryAll (sizeQ G n .min) cs) s.2 hb; rw [e1] at this; exact this
    obtain ⟨_, t2, e2, e⟩ := M.bind_eq_ok.1 e
    have p2 : P t2.2 := by have := stays_liftF (P := P) (queryAll (sizeQ G n .max) cs) t1 p1; rw [e2] at this; exact this
    have h2 := pieces_setSplit hC.closed _ t2.2 blobs _ p2 (Prod.ext (Prod.mk.inj e).1 rfl)
    exact fun x hx => h2.2 _ (List.of_mem_zip hx).2
  | _ => exact ⟨h1, hs⟩

omit hC

/-- What a stamp keeps after the loop was cut from its own piece. -/
theorem loadEach_from (G : Graph) (n : Nat) (l : List (Id × β)) (s : Bitten β × Flags) {j : Id} {c : β}
    (h : (loadEach G n l s).2.1 j = some c) :
    s.1 j = some c ∨ ∃ d fl, (j, d) ∈ l ∧ (loadPiece G n j (fl, d)).1 = .ok c := by
  induction l generalizing s with
  | nil => exact .inl h
  | cons x l ih =>
    obtain ⟨i, d⟩ := x
    have h1 : (loadOne G n i d s).2.1 j = some c → s.1 j = some c ∨ ∃ d' fl, (j, d') ∈ (i, d) :: l ∧
        (loadPiece G n j (fl, d')).1 = .ok c := by
      intro hj
      have hj' : (match (loadPiece G n i (s.2, d)).1 with | .ok c => s.1.set i c | _ => s.1) j = some c := hj
      rcases e : (loadPiece G n i (s.2, d)).1 with x | _ | _ | _ | _ <;> rw [e] at hj' <;> dsimp only at hj'
      · unfold Bitten.set at hj'
        split at hj'
        · next hji =>
          cases hj'
          subst hji
          exact .inr ⟨d, s.2, List.mem_cons_self, e⟩
        · exact .inl hj'
      all_goals exact .inl hj'
    unfold loadEach at h
    rw [M.bind_apply] at h
    rcases e : loadOne G n i d s with ⟨o, s'⟩
    rw [e] at h h1
    cases o with
    | ok _ =>
      rcases ih s' h with h2 | ⟨d', fl, h2, h3⟩
      · exact h1 h2
      · exact .inr ⟨d', fl, List.mem_cons_of_mem _ h2, h3⟩
    | _ => exact h1 h

theorem loadAll_eq (G : Graph) (n : Nat) (cs : List Id) (s : Bitten β × (Flags × β)) :
    loadAll G n cs s = match (do
      let mns ← liftF (queryAll (sizeQ G n .min) cs)
      let mxs ← liftF (queryAll (sizeQ G n .max) cs)
      liftB (setSplit (mns.zip mxs)) : XM β (List β)) s.2 with
    | (.ok blobs, s') =>
      ((loadEach G n (cs.zip blobs) (s.1, s'.1)).1,
        ((loadEach G n (cs.zip blobs) (s.1, s'.1)).2.1, ((loadEach G n (cs.zip blobs) (s.1, s'.1)).2.2, s'.2)))
    | (o, s') => (o.map fun _ => (), (s.1, s')) := rfl

end BS
