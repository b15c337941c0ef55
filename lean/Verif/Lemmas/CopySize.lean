import Verif.Lemmas.Copy

/-!
# Sizes of stamps and their copies
-/

namespace BS
open BlobLike

/-- No picker of rank at most `k` is marked. -/
def Clear (rank : Id → Nat) (k : Nat) (fl : Flags) : Prop := ∀ x, rank x ≤ k → (fl x).inRec = false ∧ (fl x).isRec = false

theorem Clear.mono {rank : Id → Nat} {k l : Nat} {fl : Flags} (h : Clear rank k fl) (hl : l ≤ k) : Clear rank l fl :=
  fun x hx => h x (le_trans hx hl)

theorem Clear.below {rank : Id → Nat} {i c : Id} {fl : Flags} (h : Clear rank (rank i) fl) (hc : rank c < rank i) :
    Clear rank (rank c) (fl.setIn i true) := by
  intro x hx
  have : x ≠ i := by rintro rfl; omega
  unfold Flags.setIn
  rw [if_neg this]
  exact h x (by omega)

theorem Clear.init (rank : Id → Nat) (k : Nat) : Clear rank k Flags.init := fun _ _ => ⟨rfl, rfl⟩

theorem SubF.of_out {α : Type} {fl fl' : Flags} {m₁ m₂ : M Flags α} (h1 : KeepsF m₁) (h2 : KeepsF m₂)
    (h : (m₁ fl).1 = .fuel ∨ (m₁ fl).1 = (m₂ fl').1) : SubF fl fl' m₁ m₂ := by
  rcases h with h | h
  · exact .inl h
  · exact .inr ⟨h, fun x hx => ⟨(h1 fl).2.2 x _ (Prod.ext hx rfl), (h2 fl').2.2 x _ (Prod.ext (h.symm.trans hx) rfl)⟩⟩

section
variable {fl fl' : Flags}

theorem subF_pickMin {q q' : Id → M Flags Int} {cs ds : List Id} (h : List.Forall₂ (fun c d => SubF fl fl' (q c) (q' d)) cs ds)
    (r : Int) : SubF fl fl' (pickMinLoop q cs r) (pickMinLoop q' ds r) := by
  induction h generalizing r with
  | nil => exact .pure _
  | cons h _ ih => exact .bind h fun _ => ih _

theorem subF_pickMax {q q' : Id → M Flags Int} {cs ds : List Id} (h : List.Forall₂ (fun c d => SubF fl fl' (q c) (q' d)) cs ds)
    (r : Int) : SubF fl fl' (pickMaxLoop q cs r) (pickMaxLoop q' ds r) := by
  induction h generalizing r with
  | nil => exact .pure _
  | cons h _ ih => exact .bind h fun _ => .ite (.pure _) (ih _)

variable {G H : Graph} {R : Id → Id → Prop}

theorem forall₂_ranked {rG rH : Id → Nat} {x y : Nat} {cs ds : List Id} (h : List.Forall₂ R cs ds) (hc : ∀ c ∈ cs, rG c < x)
    (hd : ∀ d ∈ ds, rH d < y) : List.Forall₂ (fun c d => R c d ∧ rG c < x ∧ rH d < y) cs ds := by
  induction h with
  | nil => exact .nil
  | cons h _ ih =>
    exact .cons ⟨h, hc _ List.mem_cons_self, hd _ List.mem_cons_self⟩
      (ih (fun c hc' => hc c (List.mem_cons_of_mem _ hc')) (fun d hd' => hd d (List.mem_cons_of_mem _ hd')))

theorem subF_sizeQ {rG rH : Id → Nat} (hM : Matched G H R) (hG : Grounded G rG) (hH : Grounded H rH) (n : Nat) :
    ∀ (sel : Sel) (i j : Id) (fl fl' : Flags), R i j → Clear rG (rG i) fl → Clear rH (rH j) fl' →
      SubF fl fl' (sizeQ G n sel i) (sizeQ H n sel j) := by
  induction n with
  | zero => exact fun _ _ _ _ _ _ _ _ => .inl rfl
  | succ n ih =>
    intro sel i j fl fl' h hc hc'
    rcases hM i j h with ⟨h1, h2⟩ | ⟨nd, nd', h1, h2, h3⟩
    · unfold sizeQ
      rw [h1, h2]
      exact .lift (.ub _)
    · have kG := hG i nd h1
      have kH := hH j nd' h2
      cases h3 with
      | single hs =>
        unfold sizeQ
        rw [h1, h2]
        cases nd with
        | user u => exact .pure _
        | arith t => exact .pure _
        | dict ws => exact .pure _
        | jsonStr => exact .pure _
        | latin1 => exact .pure _
        | ascii => exact .pure _
        | _ => cases hs
      | @vec c d join hcd =>
        have r1 := kG.1 c List.mem_cons_self
        have r2 := kH.1 d List.mem_cons_self
        unfold sizeQ
        rw [h1, h2]
        cases sel with
        | max => exact .pure _
        | min =>
          exact .bind (ih .min c d _ _ hcd (hc.mono r1.le) (hc'.mono r2.le)) fun _ =>
            .bind (ih .max c d _ _ hcd (hc.mono r1.le) (hc'.mono r2.le)) fun _ => .pure _
      | @set cs ds join unb hcd =>
        have hl := forall₂_ranked hcd kG.1 kH.1
        have hq : ∀ sel, List.Forall₂ (fun c d => SubF fl fl' (sizeQ G n sel c) (sizeQ H n sel d)) cs ds := fun sel =>
          hl.imp fun c d hx => ih sel c d _ _ hx.1 (hc.mono hx.2.1.le) (hc'.mono hx.2.2.le)
        unfold sizeQ
        rw [h1, h2]
        cases sel with
        | max =>
          cases unb with
          | true => exact .pure _
          | false => exact .bind (subF_queryAll (hq .min)) fun _ => .bind (subF_queryAll (hq .max)) fun _ => .lift _
        | min => exact .bind (subF_queryAll (hq .min)) fun _ => .bind (subF_queryAll (hq .max)) fun _ => .lift _
      | @seq cs ds join unb hcd =>
        have hl := forall₂_ranked hcd kG.1 kH.1
        have hq : ∀ sel, List.Forall₂ (fun c d => SubF fl fl' (sizeQ G n sel c) (sizeQ H n sel d)) cs ds := fun sel =>
          hl.imp fun c d hx => ih sel c d _ _ hx.1 (hc.mono hx.2.1.le) (hc'.mono hx.2.2.le)
        unfold sizeQ
        rw [h1, h2]
        cases sel with
        | max =>
          cases unb with
          | true => exact .pure _
          | false => exact .bind (subF_queryAll (hq .max)) fun _ => .lift _
        | min => exact .bind (subF_queryAll (hq .min)) fun _ => .lift _
      | @unary c d op hcd =>
        have r1 := kG.1 c List.mem_cons_self
        have r2 := kH.1 d List.mem_cons_self
        unfold sizeQ
        rw [h1, h2]
        cases sel with
        | max => exact .pure _
        | min => exact ih .min c d _ _ hcd (hc.mono r1.le) (hc'.mono r2.le)
      | lottery rec4 osz smin smax hcd =>
        unfold sizeQ
        rw [h1, h2]
        cases sel with
        | max => exact .ite (.pure _) (.lift _)
        | min => exact .lift _
      | @picker cs ds hcd =>
        have hl := forall₂_ranked hcd (kG.2 cs rfl) (kH.2 ds rfl)
        have hq : ∀ sel, List.Forall₂ (fun c d => SubF (fl.setIn i true) (fl'.setIn j true) (sizeQ G n sel c) (sizeQ H n sel d)) cs ds :=
          fun sel => hl.imp fun c d hx => ih sel c d _ _ hx.1 (hc.below hx.2.1) (hc'.below hx.2.2)
        refine .of_out (keeps_sizeQ _ _ _ _) (keeps_sizeQ _ _ _ _) ?_
        obtain ⟨f1, f2⟩ := hc i le_rfl
        obtain ⟨g1, g2⟩ := hc' j le_rfl
        unfold sizeQ
        rw [h1, h2]
        cases sel with
        | min =>
          have key := subF_pickMin (hq .min) (INT_MAX / 2)
          dsimp only
          have a1 : (M.get : M Flags Flags) fl = (.ok fl, fl) := rfl
          have a2 : (M.get : M Flags Flags) fl' = (.ok fl', fl') := rfl
          have b1 : modFlags (·.setIn i true) fl = (.ok (), fl.setIn i true) := rfl
          have b2 : modFlags (·.setIn j true) fl' = (.ok (), fl'.setIn j true) := rfl
          rw [M.bind_ok a1, M.bind_ok a2, if_neg (by simp [f1]), if_neg (by simp [g1]), M.bind_ok b1, M.bind_ok b2]
          unfold SubF at key
          rw [M.bind_apply, M.bind_apply]
          rcases e1 : pickMinLoop (sizeQ G n .min) cs (INT_MAX / 2) (fl.setIn i true) with ⟨o1, s1⟩
          rcases e2 : pickMinLoop (sizeQ H n .min) ds (INT_MAX / 2) (fl'.setIn j true) with ⟨o2, s2⟩
          rw [e1, e2] at key
          rcases key with key | ⟨key, -⟩
          · cases key
            exact .inl rfl
          · dsimp only at key
            subst key
            refine .inr ?_
            cases o1 with
            | ok x =>
              have d1 : modFlags (·.setIn i false) s1 = (.ok (), s1.setIn i false) := rfl
              have d2 : modFlags (·.setIn j false) s2 = (.ok (), s2.setIn j false) := rfl
              dsimp only
              rw [M.bind_ok d1, M.bind_ok d2]
              split <;> rfl
            | _ => rfl
        | max =>
          have key := subF_pickMax (hq .max) 0
          dsimp only
          have a1 : (M.get : M Flags Flags) fl = (.ok fl, fl) := rfl
          have a2 : (M.get : M Flags Flags) fl' = (.ok fl', fl') := rfl
          have b1 : modFlags (·.setIn i true) fl = (.ok (), fl.setIn i true) := rfl
          have b2 : modFlags (·.setIn j true) fl' = (.ok (), fl'.setIn j true) := rfl
          rw [M.bind_ok a1, M.bind_ok a2, if_neg (by simp [f1, f2]), if_neg (by simp [g1, g2]), M.bind_ok b1, M.bind_ok b2]
          unfold SubF at key
          rw [M.bind_apply, M.bind_apply]
          rcases e1 : pickMaxLoop (sizeQ G n .max) cs 0 (fl.setIn i true) with ⟨o1, s1⟩
          rcases e2 : pickMaxLoop (sizeQ H n .max) ds 0 (fl'.setIn j true) with ⟨o2, s2⟩
          rw [e1, e2] at key
          rcases key with key | ⟨key, -⟩
          · cases key
            exact .inl rfl
          · dsimp only at key
            subst key
            refine .inr ?_
            cases o1 with
            | ok x =>
              have d1 : modFlags (·.setIn i false) s1 = (.ok (), s1.setIn i false) := rfl
              have d2 : modFlags (·.setIn j false) s2 = (.ok (), s2.setIn j false) := rfl
              dsimp only
              rw [M.bind_ok d1, M.bind_ok d2]
              cases x <;> rfl
            | _ => rfl

end

end BS
