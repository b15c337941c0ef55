import Verif.Spec.Calls
import Verif.Lemmas.Keep
import Verif.Lemmas.Sizes
import Verif.Lemmas.Invert
import Mathlib.Data.Nat.Factorial.Basic
import Mathlib.Algebra.BigOperators.Group.Finset.Basic

/-!
# Counting calls
-/

namespace BS

/-! ## The values are those of `sizeQ` -/

/-- Returns `v`, changes no flag. -/
def Tells {α : Type} (c : CM α) (fl : Flags) (v : α) : Prop := ∀ k, ∃ k', c (fl, k) = (.ok v, (fl, k'))

namespace Tells
variable {α γ : Type} {fl : Flags}

theorem pure (a : α) : Tells (pure a : CM α) fl a := fun k => ⟨k, rfl⟩

theorem bind {c : CM α} {f : α → CM γ} {a : α} {v : γ} (h : Tells c fl a) (hf : Tells (f a) fl v) :
    Tells (c >>= f) fl v := by
  intro k
  obtain ⟨k1, h1⟩ := h k
  obtain ⟨k2, h2⟩ := hf k1
  exact ⟨k2, by rw [M.bind_ok h1, h2]⟩

theorem tick : Tells tick fl () := fun k => ⟨k + 1, rfl⟩

theorem lift {o : Out α} {a : α} (h : o = .ok a) : Tells (M.lift o : CM α) fl a := fun k => ⟨k, by rw [h]; rfl⟩

variable {q : Sel → Id → CM Int} {i : Id} {mn mx : Int}

theorem askFixed (h1 : Tells (q .min i) fl mn) (h2 : Tells (q .max i) fl mx) :
    Tells (askFixed q i) fl (SizePair.fixed (mn, mx)) := h1.bind (h2.bind (.pure _))

theorem askUnb (h2 : Tells (q .max i) fl mx) : Tells (askUnb q i) fl (SizePair.unb (mn, mx)) := h2.bind (.pure _)

theorem askVar (h1 : Tells (q .min i) fl mn) (h2 : Tells (q .max i) fl mx) :
    Tells (askVar q i) fl (SizePair.var (mn, mx)) := by
  refine (askFixed h1 h2).bind ?_
  unfold SizePair.var
  cases SizePair.fixed (mn, mx) with
  | true => exact .pure _
  | false => exact (askUnb (mn := mn) h2).bind (.pure _)

theorem vecMinC (h1 : Tells (q .min i) fl mn) (h2 : Tells (q .max i) fl mx) :
    Tells (vecMinC q i) fl (vecMinSize mn mx) := by
  refine (askFixed h1 h2).bind ?_
  unfold vecMinSize
  by_cases hf : mn = mx
  · simp only [SizePair.fixed, hf, beq_self_eq_true, if_true]
    exact hf ▸ h1
  · have hb : (mn == mx) = false := by simpa using hf
    simp only [SizePair.fixed, hb, hf, if_false, Bool.false_eq_true]
    refine (askUnb (mn := mn) h2).bind (h1.bind ?_)
    by_cases hu : mx = -1
    · subst hu; exact .pure _
    · have hb : (mx == -1) = false := by simpa using hu
      simp only [SizePair.unb, hb, hu, if_false, Bool.false_eq_true]
      exact .pure _

/-- All stamps of a list answer. -/
def All (q : Sel → Id → CM Int) (fl : Flags) (cs : List Id) (ss : List SizePair) : Prop :=
  List.Forall₂ (fun i s => Tells (q .min i) fl s.1 ∧ Tells (q .max i) fl s.2) cs ss

theorem setMinC {cs : List Id} {ss : List SizePair} (h : All q fl cs ss) {res : Int} {a b : Nat} {v : Int}
    (e : (do
      let res ← ss.foldlM (fun (a : Int) (s : SizePair) => ckInt (a + s.1)) res
      let nVar := a + ss.countP SizePair.var
      let nUnb := b + ss.countP SizePair.unb
      let r1 := if 0 < nVar ∧ 0 < nUnb then wrap32 (res + 2) else res
      let r2 := wrap32 (r1 + 2 * nVar)
      Out.ok (if 1 < nUnb then wrap32 (r2 + 2 * nUnb) else r2) : Out Int) = .ok v) :
    Tells (setMinC q cs res a b) fl v := by
  induction h generalizing res a b with
  | nil =>
    cases e
    exact .pure _
  | @cons i s is ss hi h ih =>
    obtain ⟨h1, h2⟩ := hi
    unfold BS.setMinC
    rw [List.foldlM_cons] at e
    rcases hr : ckInt (res + s.1) with r | _ | _ | _ | _
    all_goals rw [hr] at e
    case ok =>
      refine h1.bind ((lift hr).bind ((askVar h1 h2).bind ((askUnb (mn := s.1) h2).bind (ih ?_))))
      rw [← e]
      have hv : (if SizePair.var (s.1, s.2) = true then a + 1 else a) + List.countP SizePair.var ss =
          a + List.countP SizePair.var (s :: ss) := by
        rw [List.countP_cons]
        split <;> simp_all; omega
      have hu : (if SizePair.unb (s.1, s.2) = true then b + 1 else b) + List.countP SizePair.unb ss =
          b + List.countP SizePair.unb (s :: ss) := by
        rw [List.countP_cons]
        split <;> simp_all; omega
      rw [hv, hu]
      rfl
    all_goals cases e

theorem setMaxC {cs : List Id} {ss : List SizePair} (h : All q fl cs ss) {res : Int} {v : Int}
    (e : setMaxSize ss res = .ok v) : Tells (setMaxC q cs res) fl v := by
  induction h generalizing res with
  | nil =>
    cases e
    exact .pure _
  | @cons i s is ss hi h ih =>
    obtain ⟨h1, h2⟩ := hi
    unfold BS.setMaxC
    unfold setMaxSize at e
    rcases hr : ckInt (res + s.2) with r | _ | _ | _ | _
    all_goals rw [hr] at e
    case ok =>
      refine h2.bind ((lift hr).bind ((askVar h1 h2).bind ((askUnb (mn := s.1) h2).bind ?_)))
      change (if SizePair.unb s = true then Out.ok (-1) else
        setMaxSize ss (if SizePair.var s = true then wrap32 (r + 2) else r)) = .ok v at e
      change Tells (if SizePair.unb s = true then _ else _) fl v
      split at e
      next hu =>
        rw [if_pos hu]
        cases e
        exact .pure _
      next hu =>
        rw [if_neg hu]
        exact ih e
    all_goals cases e

theorem sumC {sel : Sel} {cs : List Id} {l : List Int} (h : List.Forall₂ (fun i v => Tells (q sel i) fl v) cs l)
    {res v : Int} (e : sumInts l res = .ok v) : Tells (sumC q sel cs res) fl v := by
  induction h generalizing res with
  | nil =>
    cases e
    exact .pure _
  | @cons i x is l hi h ih =>
    unfold BS.sumC
    unfold sumInts at e
    rcases hr : ckInt (res + x) with r | _ | _ | _ | _
    all_goals rw [hr] at e
    case ok => exact hi.bind ((lift hr).bind (ih e))
    all_goals cases e

end Tells

/-- Where `m` returns, so does `c`, with the same value and the same flags. -/
def Shadows {α : Type} (m : M Flags α) (c : CM α) : Prop :=
  ∀ fl v fl', m fl = (.ok v, fl') → ∀ k, ∃ k', c (fl, k) = (.ok v, (fl', k'))

namespace Shadows
variable {α γ : Type}

theorem pure (a : α) : Shadows (pure a) (pure a) := by
  intro fl v fl' e k
  cases e
  exact ⟨k, rfl⟩

theorem lift (o : Out α) : Shadows (M.lift o) (M.lift o) := by
  intro fl v fl' e k
  obtain ⟨h1, h2⟩ := Prod.mk.inj e
  subst h2
  exact ⟨k, by rw [M.lift, M.out, h1]⟩

theorem modFlags (f : Flags → Flags) : Shadows (modFlags f) (modFlagsC f) := by
  intro fl v fl' e k
  cases e
  exact ⟨k, rfl⟩

theorem bind {m : M Flags α} {c : CM α} {f : α → M Flags γ} {g : α → CM γ} (h : Shadows m c)
    (hf : ∀ a, Shadows (f a) (g a)) : Shadows (m >>= f) (c >>= g) := by
  intro fl v fl' e k
  rw [M.bind_apply] at e
  rcases hm : m fl with ⟨o, fl1⟩
  rw [hm] at e
  cases o with
  | ok a =>
    obtain ⟨k1, h1⟩ := h fl a fl1 hm k
    obtain ⟨k2, h2⟩ := hf a fl1 v fl' e k1
    exact ⟨k2, by rw [M.bind_ok h1, h2]⟩
  | outOfData => cases e
  | ub r => cases e
  | abort => cases e
  | fuel => cases e

theorem ite {p : Prop} [Decidable p] {m n : M Flags α} {c d : CM α} (h : Shadows m c) (h' : Shadows n d) :
    Shadows (if p then m else n) (if p then c else d) := by
  split
  · exact h
  · exact h'

theorem get {f : Flags → M Flags α} {g : Flags × Nat → CM α} (h : ∀ fl k, Shadows (f fl) (g (fl, k))) :
    Shadows (M.get >>= f) (M.get >>= g) := by
  intro fl v fl' e k
  exact h fl k fl v fl' e k

theorem ticked {m : M Flags α} {c : CM α} (h : Shadows m c) : Shadows m (tick >>= fun _ => c) := by
  intro fl v fl' e k
  exact h fl v fl' e (k + 1)

theorem pickMin {m : Id → M Flags Int} {q : Sel → Id → CM Int} (h : ∀ i, Shadows (m i) (q .min i)) (l : List Id)
    (r : Int) : Shadows (pickMinLoop m l r) (pickMinC q l r) := by
  induction l generalizing r with
  | nil => exact .pure _
  | cons i is ih => exact .bind (h i) fun c => ih _

theorem pickMax {m : Id → M Flags Int} {q : Sel → Id → CM Int} (h : ∀ i, Shadows (m i) (q .max i)) (l : List Id)
    (r : Int) : Shadows (pickMaxLoop m l r) (pickMaxC q l r) := by
  induction l generalizing r with
  | nil => exact .pure _
  | cons i is ih => exact .bind (h i) fun c => .ite (.pure _) (ih _)

end Shadows

theorem all_tells {G : Graph} {n : Nat} (ih : ∀ sel i, Shadows (sizeQ G n sel i) (sizeC G n sel i)) {fl : Flags}
    {cs : List Id} {mns mxs : List Int}
    (h1 : List.Forall₂ (fun i v => sizeQ G n .min i fl = (.ok v, fl)) cs mns)
    (h2 : List.Forall₂ (fun i v => sizeQ G n .max i fl = (.ok v, fl)) cs mxs) :
    Tells.All (sizeC G n) fl cs (mns.zip mxs) := by
  induction h1 generalizing mxs with
  | nil => cases h2; exact .nil
  | cons a _ ih1 =>
    cases h2 with
    | cons b h2 => exact .cons ⟨ih _ _ _ _ _ a, ih _ _ _ _ _ b⟩ (ih1 h2)

/-- Two queries of the same list, then a computation. -/
theorem query_pairs {G : Graph} {n : Nat} {cs : List Id} {f : List Int → List Int → Out Int} {fl fl' : Flags} {v : Int}
    (e : (do
      let mns ← queryAll (sizeQ G n .min) cs
      let mxs ← queryAll (sizeQ G n .max) cs
      M.lift (f mns mxs) : M Flags Int) fl = (.ok v, fl')) :
    fl' = fl ∧ ∃ mns mxs, List.Forall₂ (fun i v => sizeQ G n .min i fl = (.ok v, fl)) cs mns ∧
      List.Forall₂ (fun i v => sizeQ G n .max i fl = (.ok v, fl)) cs mxs ∧ f mns mxs = .ok v := by
  rcases h1 : queryAll (sizeQ G n .min) cs fl with ⟨o, f1⟩
  rw [M.bind_apply, h1] at e
  cases o with
  | ok mns =>
    obtain ⟨rfl, h1⟩ := queryAll_ok (keeps_sizeQ G n .min) h1
    change (queryAll (sizeQ G n .max) cs >>= fun mxs => M.lift (f mns mxs)) f1 = _ at e
    rcases h2 : queryAll (sizeQ G n .max) cs f1 with ⟨o, f2⟩
    rw [M.bind_apply, h2] at e
    cases o with
    | ok mxs =>
      obtain ⟨rfl, h2⟩ := queryAll_ok (keeps_sizeQ G n .max) h2
      obtain ⟨h3, h4⟩ := Prod.mk.inj (e : M.lift (f mns mxs) f2 = _)
      exact ⟨h4.symm, mns, mxs, h1, h2, h3⟩
    | outOfData => cases e
    | ub r => cases e
    | abort => cases e
    | fuel => cases e
  | outOfData => cases e
  | ub r => cases e
  | abort => cases e
  | fuel => cases e

/-- Asking again each time gives the same value. -/
theorem shadows_sizeC (G : Graph) (n : Nat) (sel : Sel) (i : Id) : Shadows (sizeQ G n sel i) (sizeC G n sel i) := by
  induction n generalizing sel i with
  | zero => intro fl v fl' e; cases e
  | succ n ih =>
    unfold sizeQ sizeC
    apply Shadows.ticked
    cases hG : G i with
    | none => intro fl v fl' e; cases e
    | some nd =>
      cases nd with
      | arith t => exact .pure _
      | dict ws => exact .pure _
      | jsonStr => exact .pure _
      | latin1 => exact .pure _
      | ascii => exact .pure _
      | user u => exact .pure _
      | vec c j =>
        cases sel with
        | max => exact .pure _
        | min =>
          intro fl v fl' e
          change (sizeQ G n .min c >>= fun mn => sizeQ G n .max c >>= fun mx => pure (vecMinSize mn mx)) fl = _ at e
          rcases h1 : sizeQ G n .min c fl with ⟨o, f1⟩
          rw [M.bind_apply, h1] at e
          cases o with
          | ok mn =>
            cases (keeps_sizeQ G n .min c fl).2.2 _ _ h1
            change (sizeQ G n .max c >>= fun mx => pure (vecMinSize mn mx)) _ = _ at e
            rcases h2 : sizeQ G n .max c fl with ⟨o, f2⟩
            rw [M.bind_apply, h2] at e
            cases o with
            | ok mx =>
              cases (keeps_sizeQ G n .max c fl).2.2 _ _ h2
              cases e
              exact Tells.vecMinC (ih _ _ _ _ _ h1) (ih _ _ _ _ _ h2)
            | outOfData => cases e
            | ub r => cases e
            | abort => cases e
            | fuel => cases e
          | outOfData => cases e
          | ub r => cases e
          | abort => cases e
          | fuel => cases e
      | set cs j unb =>
        cases sel with
        | max =>
          cases unb with
          | true => exact .pure _
          | false =>
            intro fl v fl' e
            obtain ⟨rfl, mns, mxs, h1, h2, h3⟩ := query_pairs (f := fun mns mxs => setMaxSize (mns.zip mxs) 0) e
            exact Tells.setMaxC (all_tells ih h1 h2) h3
        | min =>
          intro fl v fl' e
          obtain ⟨rfl, mns, mxs, h1, h2, h3⟩ := query_pairs (f := fun mns mxs => setMinSize (mns.zip mxs)) e
          refine Tells.setMinC (all_tells ih h1 h2) ?_
          simp only [Nat.zero_add]
          exact h3
      | seq cs j unb =>
        have key : Shadows (queryAll (sizeQ G n sel) cs >>= fun xs => M.lift (sumInts xs 0))
            (sumC (sizeC G n) sel cs 0) := by
          intro fl v fl' e
          rcases h1 : queryAll (sizeQ G n sel) cs fl with ⟨o, f1⟩
          rw [M.bind_apply, h1] at e
          cases o with
          | ok xs =>
            obtain ⟨rfl, h1⟩ := queryAll_ok (keeps_sizeQ G n sel) h1
            obtain ⟨h3, rfl⟩ := Prod.mk.inj (e : M.lift (sumInts xs 0) _ = _)
            exact Tells.sumC (h1.imp fun _ _ h => ih _ _ _ _ _ h) h3
          | outOfData => cases e
          | ub r => cases e
          | abort => cases e
          | fuel => cases e
        cases sel with
        | max =>
          cases unb with
          | true => exact .pure _
          | false => exact key
        | min => cases unb <;> exact key
      | unary op c =>
        cases sel with
        | max => exact .pure _
        | min => exact ih _ _
      | lottery r st osz smin smax =>
        cases sel with
        | min => exact .lift _
        | max => exact .ite (.pure _) (.lift _)
      | picker pool =>
        cases sel with
        | min =>
          exact .get fun fl k => .ite (.pure _) (.bind (.modFlags _) fun _ => .bind (.pickMin (ih .min) _ _) fun _ =>
            .bind (.modFlags _) fun _ => .ite (.pure _) (.pure _))
        | max =>
          refine .get fun fl k => .ite (.pure _) (.bind (.modFlags _) fun _ => .bind (.pickMax (ih .max) _ _) fun r =>
            .bind (.modFlags _) fun _ => ?_)
          cases r with
          | none => exact .pure _
          | some r => exact .pure _

/-! ## Larger budgets -/

section
variable {q q' : Sel → Id → CM Int}

theorem fle_askFixed (h : ∀ sel i, FLe (q sel i) (q' sel i)) (i : Id) : FLe (askFixed q i) (askFixed q' i) :=
  .bind (h _ _) fun _ => .bind (h _ _) fun _ => .refl _

theorem fle_askUnb (h : ∀ sel i, FLe (q sel i) (q' sel i)) (i : Id) : FLe (askUnb q i) (askUnb q' i) :=
  .bind (h _ _) fun _ => .refl _

theorem fle_askVar (h : ∀ sel i, FLe (q sel i) (q' sel i)) (i : Id) : FLe (askVar q i) (askVar q' i) :=
  .bind (fle_askFixed h i) fun _ => .ite (.refl _) (.bind (fle_askUnb h i) fun _ => .refl _)

theorem fle_vecMinC (h : ∀ sel i, FLe (q sel i) (q' sel i)) (i : Id) : FLe (vecMinC q i) (vecMinC q' i) :=
  .bind (fle_askFixed h i) fun _ => .ite (h _ _) (.bind (fle_askUnb h i) fun _ => .bind (h _ _) fun _ => .refl _)

theorem fle_setMinC (h : ∀ sel i, FLe (q sel i) (q' sel i)) (cs : List Id) (res : Int) (a b : Nat) :
    FLe (setMinC q cs res a b) (setMinC q' cs res a b) := by
  induction cs generalizing res a b with
  | nil => exact .refl _
  | cons i is ih =>
    exact .bind (h _ _) fun _ => .bind (.refl _) fun _ => .bind (fle_askVar h i) fun _ =>
      .bind (fle_askUnb h i) fun _ => ih _ _ _

theorem fle_setMaxC (h : ∀ sel i, FLe (q sel i) (q' sel i)) (cs : List Id) (res : Int) :
    FLe (setMaxC q cs res) (setMaxC q' cs res) := by
  induction cs generalizing res with
  | nil => exact .refl _
  | cons i is ih =>
    exact .bind (h _ _) fun _ => .bind (.refl _) fun _ => .bind (fle_askVar h i) fun _ =>
      .bind (fle_askUnb h i) fun _ => .ite (.refl _) (ih _)

theorem fle_sumC (h : ∀ sel i, FLe (q sel i) (q' sel i)) (sel : Sel) (cs : List Id) (res : Int) :
    FLe (sumC q sel cs res) (sumC q' sel cs res) := by
  induction cs generalizing res with
  | nil => exact .refl _
  | cons i is ih => exact .bind (h _ _) fun _ => .bind (.refl _) fun _ => ih _

theorem fle_pickMinC (h : ∀ sel i, FLe (q sel i) (q' sel i)) (cs : List Id) (res : Int) :
    FLe (pickMinC q cs res) (pickMinC q' cs res) := by
  induction cs generalizing res with
  | nil => exact .refl _
  | cons i is ih => exact .bind (h _ _) fun _ => ih _

theorem fle_pickMaxC (h : ∀ sel i, FLe (q sel i) (q' sel i)) (cs : List Id) (res : Int) :
    FLe (pickMaxC q cs res) (pickMaxC q' cs res) := by
  induction cs generalizing res with
  | nil => exact .refl _
  | cons i is ih => exact .bind (h _ _) fun _ => .ite (.refl _) (ih _)

end

theorem fle_sizeC_succ (G : Graph) (n : Nat) (sel : Sel) (i : Id) : FLe (sizeC G n sel i) (sizeC G (n + 1) sel i) := by
  induction n generalizing sel i with
  | zero => exact .fuel _
  | succ n ih =>
    unfold sizeC
    refine .bind (.refl _) fun _ => ?_
    cases hG : G i with
    | none => exact .refl _
    | some nd =>
      cases nd with
      | arith t => exact .refl _
      | dict ws => exact .refl _
      | jsonStr => exact .refl _
      | latin1 => exact .refl _
      | ascii => exact .refl _
      | user u => exact .refl _
      | vec c j =>
        cases sel
        · exact fle_vecMinC ih c
        · exact .refl _
      | set cs j unb =>
        cases sel
        · exact fle_setMinC ih cs 0 0 0
        · cases unb
          · exact fle_setMaxC ih cs 0
          · exact .refl _
      | seq cs j unb =>
        cases sel
        · cases unb <;> exact fle_sumC ih .min cs 0
        · cases unb
          · exact fle_sumC ih .max cs 0
          · exact .refl _
      | unary op c =>
        cases sel
        · exact ih _ _
        · exact .refl _
      | lottery r st osz mn mx => exact .refl _
      | picker pool =>
        cases sel
        · exact .bind (.refl _) fun fl => .ite (.refl _)
            (.bind (.refl _) fun _ => .bind (fle_pickMinC ih _ _) fun _ => .refl _)
        · exact .bind (.refl _) fun fl => .ite (.refl _)
            (.bind (.refl _) fun _ => .bind (fle_pickMaxC ih _ _) fun _ => .refl _)

theorem fle_sizeC (G : Graph) {n m : Nat} (h : n ≤ m) (sel : Sel) (i : Id) :
    FLe (sizeC G n sel i) (sizeC G m sel i) := by
  induction h with
  | refl => exact .refl _
  | step _ ih => exact ih.trans (fle_sizeC_succ G _ sel i)

/-- One sufficient budget determines the cost. -/
theorem Costs.intro {G : Graph} {fl : Flags} {sel : Sel} {i : Id} {c : Nat} (n : Nat) {v : Int}
    (h : sizeC G n sel i (fl, 0) = (.ok v, (fl, c))) : Costs G fl sel i c := by
  refine ⟨n, fun m hm => ⟨v, ?_⟩⟩
  rcases fle_sizeC G hm sel i (fl, 0) with e | e
  · rw [h] at e
    cases e
  · rw [← e, h]

/-- The cost by evaluation. -/
theorem costs_eval {G : Graph} {fl : Flags} {sel : Sel} {i : Id} {c : Nat} (n : Nat) {v : Int}
    (h : (sizeQ G n sel i fl).1 = .ok v) (hc : (sizeC G n sel i (fl, 0)).2.2 = c) : Costs G fl sel i c := by
  have e : sizeQ G n sel i fl = (.ok v, (sizeQ G n sel i fl).2) := Prod.ext h rfl
  have hk := (keeps_sizeQ G n sel i fl).2.2 _ _ e
  rw [hk] at e
  obtain ⟨k, hs⟩ := shadows_sizeC G n sel i _ _ _ e 0
  rw [hs] at hc
  cases hc
  exact .intro n hs

theorem Costs.unique {G : Graph} {fl : Flags} {sel : Sel} {i : Id} {c d : Nat} (h : Costs G fl sel i c)
    (h' : Costs G fl sel i d) : c = d := by
  obtain ⟨N, h⟩ := h
  obtain ⟨N', h'⟩ := h'
  obtain ⟨v, e⟩ := h (max N N') (le_max_left _ _)
  obtain ⟨v', e'⟩ := h' (max N N') (le_max_right _ _)
  rw [e] at e'
  cases e'
  rfl

/-! ## At most -/

/-- Makes at most `B` calls. -/
def CallsAtMost {α : Type} (B : Nat) (c : CM α) : Prop := ∀ s, s.2 ≤ (c s).2.2 ∧ (c s).2.2 ≤ s.2 + B

namespace CallsAtMost
variable {α γ : Type} {A B : Nat}

theorem mono {c : CM α} (h : CallsAtMost A c) (hAB : A ≤ B) : CallsAtMost B c := fun s => ⟨(h s).1, by have := (h s).2; omega⟩

theorem out (o : Out α) : CallsAtMost 0 (M.out o : CM α) := fun _ => ⟨Nat.le_refl _, Nat.le_refl _⟩

theorem pure (a : α) : CallsAtMost 0 (pure a : CM α) := fun _ => ⟨Nat.le_refl _, Nat.le_refl _⟩

theorem lift (o : Out α) : CallsAtMost 0 (M.lift o : CM α) := out o

theorem get : CallsAtMost 0 (M.get : CM (Flags × Nat)) := fun _ => ⟨Nat.le_refl _, Nat.le_refl _⟩

theorem tick : CallsAtMost 1 tick := fun _ => ⟨Nat.le_succ _, Nat.le_refl _⟩

theorem modFlags (f : Flags → Flags) : CallsAtMost 0 (modFlagsC f) := fun _ => ⟨Nat.le_refl _, Nat.le_refl _⟩

theorem bind {c : CM α} {f : α → CM γ} (h : CallsAtMost A c) (hf : ∀ a, CallsAtMost B (f a)) : CallsAtMost (A + B) (c >>= f) := by
  intro s
  have h1 := h s
  rw [M.bind_apply]
  rcases hc : c s with ⟨o, s1⟩
  rw [hc] at h1
  cases o with
  | ok a =>
    have h2 := hf a s1
    exact ⟨Nat.le_trans h1.1 h2.1, by have := h1.2; have := h2.2; dsimp only at *; omega⟩
  | outOfData => exact ⟨h1.1, by have := h1.2; dsimp only at *; omega⟩
  | ub r => exact ⟨h1.1, by have := h1.2; dsimp only at *; omega⟩
  | abort => exact ⟨h1.1, by have := h1.2; dsimp only at *; omega⟩
  | fuel => exact ⟨h1.1, by have := h1.2; dsimp only at *; omega⟩

theorem ite {p : Prop} [Decidable p] {c d : CM α} (h : CallsAtMost B c) (h' : CallsAtMost B d) :
    CallsAtMost B (if p then c else d) := by
  split
  · exact h
  · exact h'

variable {q : Sel → Id → CM Int}

theorem askFixed (h : ∀ sel i, CallsAtMost B (q sel i)) (i : Id) : CallsAtMost (2 * B) (askFixed q i) :=
  (bind (h .min i) fun _ => bind (h .max i) fun _ => pure _).mono (by omega)

theorem askUnb (h : ∀ sel i, CallsAtMost B (q sel i)) (i : Id) : CallsAtMost B (askUnb q i) :=
  (bind (h .max i) fun _ => pure _).mono (by omega)

theorem askVar (h : ∀ sel i, CallsAtMost B (q sel i)) (i : Id) : CallsAtMost (3 * B) (askVar q i) :=
  (bind (askFixed h i) fun _ => ite (B := B) ((pure _).mono (by omega))
    ((bind (askUnb h i) fun _ => pure _).mono (by omega))).mono (by omega)

theorem vecMinC (h : ∀ sel i, CallsAtMost B (q sel i)) (i : Id) : CallsAtMost (4 * B) (vecMinC q i) :=
  (bind (askFixed h i) fun _ => ite (B := 2 * B) ((h _ _).mono (by omega))
    ((bind (askUnb h i) fun _ => bind (h .min i) fun _ => pure _).mono (by omega))).mono (by omega)

theorem setMinC (h : ∀ sel i, CallsAtMost B (q sel i)) (cs : List Id) (res : Int) (a b : Nat) :
    CallsAtMost (cs.length * (5 * B)) (setMinC q cs res a b) := by
  induction cs generalizing res a b with
  | nil => exact (pure _).mono (Nat.zero_le _)
  | cons i is ih =>
    refine (bind (h .min i) fun _ => bind (lift _) fun _ => bind (askVar h i) fun _ => bind (askUnb h i) fun _ =>
      ih _ _ _).mono ?_
    rw [List.length_cons, Nat.add_mul is.length 1]
    omega

theorem setMaxC (h : ∀ sel i, CallsAtMost B (q sel i)) (cs : List Id) (res : Int) :
    CallsAtMost (cs.length * (5 * B)) (setMaxC q cs res) := by
  induction cs generalizing res with
  | nil => exact (pure _).mono (Nat.zero_le _)
  | cons i is ih =>
    refine (bind (h .max i) fun _ => bind (lift _) fun _ => bind (askVar h i) fun _ => bind (askUnb h i) fun _ =>
      ite ((pure _).mono (Nat.zero_le _)) (ih _)).mono ?_
    rw [List.length_cons, Nat.add_mul is.length 1]
    omega

theorem sumC (h : ∀ sel i, CallsAtMost B (q sel i)) (sel : Sel) (cs : List Id) (res : Int) :
    CallsAtMost (cs.length * (5 * B)) (sumC q sel cs res) := by
  induction cs generalizing res with
  | nil => exact (pure _).mono (Nat.zero_le _)
  | cons i is ih =>
    refine (bind (h sel i) fun _ => bind (lift _) fun _ => ih _).mono ?_
    rw [List.length_cons, Nat.add_mul is.length 1]
    omega

theorem pickMinC (h : ∀ sel i, CallsAtMost B (q sel i)) (cs : List Id) (res : Int) :
    CallsAtMost (cs.length * (5 * B)) (pickMinC q cs res) := by
  induction cs generalizing res with
  | nil => exact (pure _).mono (Nat.zero_le _)
  | cons i is ih =>
    refine (bind (h .min i) fun _ => ih _).mono ?_
    rw [List.length_cons, Nat.add_mul is.length 1]
    omega

theorem pickMaxC (h : ∀ sel i, CallsAtMost B (q sel i)) (cs : List Id) (res : Int) :
    CallsAtMost (cs.length * (5 * B)) (pickMaxC q cs res) := by
  induction cs generalizing res with
  | nil => exact (pure _).mono (Nat.zero_le _)
  | cons i is ih =>
    refine (bind (h .max i) fun _ => ite ((pure _).mono (Nat.zero_le _)) (ih _)).mono ?_
    rw [List.length_cons, Nat.add_mul is.length 1]
    omega

end CallsAtMost

theorem within_sizeC {G : Graph} {w : Nat} (hw : Narrow w G) (h1 : 1 ≤ w) (n : Nat) (sel : Sel) (i : Id) :
    CallsAtMost ((5 * w + 1) ^ n) (sizeC G n sel i) := by
  induction n generalizing sel i with
  | zero => exact (CallsAtMost.out _).mono (Nat.zero_le _)
  | succ n ih =>
    have hB : 1 ≤ (5 * w + 1) ^ n := Nat.one_le_pow _ _ (by omega)
    have hs : (5 * w + 1) ^ (n + 1) = 1 + ((5 * w + 1) ^ n * (5 * w) + ((5 * w + 1) ^ n - 1)) := by
      rw [Nat.pow_succ, Nat.mul_add, Nat.mul_one]
      omega
    have hl : ∀ l, l ≤ w → l * (5 * (5 * w + 1) ^ n) ≤ (5 * w + 1) ^ n * (5 * w) := by
      intro l hl
      have := Nat.mul_le_mul_right (5 * (5 * w + 1) ^ n) hl
      calc _ ≤ _ := this
        _ = _ := by ring
    have h4 : 4 * (5 * w + 1) ^ n ≤ (5 * w + 1) ^ n * (5 * w) := by
      calc 4 * (5 * w + 1) ^ n = (5 * w + 1) ^ n * 4 := by ring
        _ ≤ _ := Nat.mul_le_mul_left _ (by omega)
    rw [hs]
    unfold sizeC
    refine .bind .tick fun _ => ?_
    cases hG : G i with
    | none => exact (CallsAtMost.out _).mono (Nat.zero_le _)
    | some nd =>
      have hnd := hw i nd hG
      cases nd with
      | arith t => exact (CallsAtMost.pure _).mono (Nat.zero_le _)
      | dict ws => exact (CallsAtMost.pure _).mono (Nat.zero_le _)
      | jsonStr => exact (CallsAtMost.pure _).mono (Nat.zero_le _)
      | latin1 => exact (CallsAtMost.pure _).mono (Nat.zero_le _)
      | ascii => exact (CallsAtMost.pure _).mono (Nat.zero_le _)
      | user u => exact (CallsAtMost.pure _).mono (Nat.zero_le _)
      | vec c j =>
        cases sel with
        | max => exact (CallsAtMost.pure _).mono (Nat.zero_le _)
        | min => exact (CallsAtMost.vecMinC ih c).mono (by omega)
      | set cs j unb =>
        have := hl _ hnd
        cases sel with
        | max =>
          cases unb with
          | true => exact (CallsAtMost.pure _).mono (Nat.zero_le _)
          | false => exact (CallsAtMost.setMaxC ih cs 0).mono (by omega)
        | min => exact (CallsAtMost.setMinC ih cs 0 0 0).mono (by omega)
      | seq cs j unb =>
        have := hl _ hnd
        cases sel with
        | max =>
          cases unb with
          | true => exact (CallsAtMost.pure _).mono (Nat.zero_le _)
          | false => exact (CallsAtMost.sumC ih .max cs 0).mono (by omega)
        | min => cases unb <;> exact (CallsAtMost.sumC ih .min cs 0).mono (by omega)
      | unary op c =>
        cases sel with
        | max => exact (CallsAtMost.pure _).mono (Nat.zero_le _)
        | min => exact (ih _ _).mono (by omega)
      | lottery r st osz smin smax =>
        cases sel with
        | min => exact (CallsAtMost.lift _).mono (Nat.zero_le _)
        | max => exact (CallsAtMost.ite (.pure _) (.lift _)).mono (Nat.zero_le _)
      | picker pool =>
        have := hl _ hnd
        cases sel with
        | min =>
          refine (CallsAtMost.bind .get fun _ => .ite ((CallsAtMost.pure _).mono (Nat.zero_le _))
            (.bind (.modFlags _) fun _ => .bind (.pickMinC ih pool _) fun _ =>
            .bind (.modFlags _) fun _ => .ite (.pure _) (.pure _))).mono (by omega)
        | max =>
          refine (CallsAtMost.bind .get fun _ => .ite ((CallsAtMost.pure _).mono (Nat.zero_le _))
            (.bind (.modFlags _) fun _ => .bind (.pickMaxC ih pool _) fun r =>
            .bind (B := 0) (.modFlags _) fun _ => ?_)).mono (by omega)
          cases r with
          | none => exact .pure _
          | some r => exact .pure _

/-! ## Exactly -/

/-- Returns `v`, changes no flag, makes `c` calls. -/
def Takes {α : Type} (m : CM α) (fl : Flags) (v : α) (c : Nat) : Prop := ∀ k, m (fl, k) = (.ok v, (fl, k + c))

namespace Takes
variable {α γ : Type} {fl : Flags}

theorem pure (a : α) : Takes (pure a : CM α) fl a 0 := fun _ => rfl

theorem bind {m : CM α} {f : α → CM γ} {a : α} {v : γ} {c d : Nat} (h : Takes m fl a c) (hf : Takes (f a) fl v d) :
    Takes (m >>= f) fl v (c + d) := by
  intro k
  rw [M.bind_ok (h k), hf, Nat.add_assoc]

theorem tick : Takes tick fl () 1 := fun _ => rfl

theorem cast {m : CM α} {v : α} {c d : Nat} (h : Takes m fl v c) (e : c = d) : Takes m fl v d := e ▸ h

end Takes

theorem takes_nest_max (d n : Nat) (fl : Flags) : Takes (sizeC nestGraph (n + 1) .max (d + 1)) fl (-1) 1 := fun _ => rfl

theorem takes_nest_byte (n : Nat) (sel : Sel) (fl : Flags) : Takes (sizeC nestGraph (n + 1) sel 0) fl 1 1 :=
  fun _ => rfl

/-- Sizes and costs of nested lists. The size is never -1, also when it wraps. -/
theorem takes_nest (d n : Nat) (fl : Flags) :
    ∃ v : Int, v % 4 = 1 ∧ Takes (sizeC nestGraph (n + d + 2) .min (d + 1)) fl v (7 * 2 ^ d - 3) := by
  induction d with
  | zero =>
    refine ⟨1, rfl, ?_⟩
    have h1 := takes_nest_byte n .min fl
    have h2 := takes_nest_byte n .max fl
    have hvec : Takes (vecMinC (sizeC nestGraph (n + 1)) 0) fl 1 ((1 + (1 + 0)) + 1) :=
      Takes.bind (a := true) (h1.bind (h2.bind (.pure _))) h1
    exact Takes.bind (f := fun _ => vecMinC (sizeC nestGraph (n + 1)) 0) Takes.tick hvec
  | succ d ih =>
    obtain ⟨v, hv, ih⟩ := ih
    have hne : (v == -1) = false := by
      rw [beq_eq_false_iff_ne]
      omega
    have h2 := takes_nest_max d (n + d + 1) fl
    have hvec : Takes (vecMinC (sizeC nestGraph (n + d + 2)) (d + 1)) fl (wrap32 (v + 4))
        (((7 * 2 ^ d - 3) + (1 + 0)) + ((1 + 0) + ((7 * 2 ^ d - 3) + 0))) := by
      refine Takes.bind (a := false) (ih.bind (h2.bind ?_)) (Takes.bind (a := true) (h2.bind (.pure _)) (ih.bind (.pure _)))
      intro k
      rw [hne]
      rfl
    refine ⟨wrap32 (v + 4), ?_, 
      (Takes.bind (f := fun _ => vecMinC (sizeC nestGraph (n + d + 2)) (d + 1)) Takes.tick hvec).cast ?_⟩
    · unfold wrap32
      omega
    · have : 1 ≤ 2 ^ d := Nat.one_le_two_pow
      rw [Nat.pow_succ]
      omega

/-! ## Pickers -/

/-- Calls made by asking one of `k` pickers of which `r` are not being asked yet. -/
def cliqueCost (k : Nat) : Nat → Nat
  | 0 => 1
  | r + 1 => 1 + ((k - r) + r * cliqueCost k r + 1)

theorem cliqueCost_ge (k r : Nat) : Nat.factorial r ≤ cliqueCost k (r + 1) := by
  induction r with
  | zero => rw [cliqueCost, Nat.factorial_zero]; omega
  | succ r ih =>
    rw [cliqueCost, Nat.factorial_succ]
    have := Nat.mul_le_mul_left (r + 1) ih
    omega

/-- The pickers not being asked. -/
def idle (k : Nat) (fl : Flags) : Finset Nat := (Finset.range k).filter fun j => (fl j).inRec = false

theorem mem_idle {k : Nat} {fl : Flags} {j : Nat} : j ∈ idle k fl ↔ j < k ∧ (fl j).inRec = false := by
  rw [idle, Finset.mem_filter, Finset.mem_range]

theorem idle_setIn {k : Nat} {fl : Flags} {i : Nat} : idle k (fl.setIn i true) = (idle k fl).erase i := by
  ext j
  rw [mem_idle, Finset.mem_erase, mem_idle]
  unfold Flags.setIn
  by_cases h : j = i
  · subst h
    simp
  · simp [h]

theorem takes_pickMin {q : Sel → Id → CM Int} {fl : Flags} {c d : Nat} (l : List Id)
    (h1 : ∀ j ∈ l, (fl j).inRec = true → Takes (q .min j) fl (INT_MAX / 2) 1)
    (h2 : ∀ j ∈ l, (fl j).inRec = false → Takes (q .min j) fl 3 c)
    (z : Id) (hz : Takes (q .min z) fl 1 d) (r : Int) (hr : 3 ≤ r) :
    Takes (pickMinC q (l ++ [z]) r) fl 1 ((l.map fun j => if (fl j).inRec = false then c else 1).sum + d) := by
  induction l generalizing r with
  | nil =>
    have h : Takes (pickMinC q [z] r) fl (if 1 < r then 1 else r) (d + 0) := hz.bind (Takes.pure _)
    rw [if_pos (by omega)] at h
    exact h.cast (Nat.zero_add d).symm
  | cons j l ih =>
    have ih := ih (fun x hx => h1 x (List.mem_cons_of_mem _ hx)) (fun x hx => h2 x (List.mem_cons_of_mem _ hx))
    rw [List.map_cons, List.sum_cons, Nat.add_assoc]
    rcases hj : (fl j).inRec with _ | _
    · rw [if_pos rfl]
      refine (h2 j List.mem_cons_self hj).bind (ih _ ?_)
      split <;> omega
    · rw [if_neg (by simp)]
      refine (h1 j List.mem_cons_self hj).bind (ih _ ?_)
      split <;> omega

theorem sum_range_list (k : Nat) (f : Nat → Nat) : ((List.range k).map f).sum = ∑ j ∈ Finset.range k, f j := by
  induction k with
  | zero => rfl
  | succ k ih => rw [List.range_succ, List.map_append, List.sum_append, ih, Finset.sum_range_succ]; simp

theorem clique_sum (k c : Nat) (fl : Flags) :
    ((List.range k).map fun j => if (fl j).inRec = false then c else 1).sum =
      (k - (idle k fl).card) + (idle k fl).card * c := by
  rw [sum_range_list, Finset.sum_ite, Finset.sum_const, Finset.sum_const, smul_eq_mul, smul_eq_mul, Nat.mul_one]
  have h := Finset.card_filter_add_card_filter_not (s := Finset.range k) fun j => (fl j).inRec = false
  rw [Finset.card_range] at h
  unfold idle
  omega

theorem takes_clique (k n : Nat) (fl : Flags) (i : Nat) (hi : i ∈ idle k fl) (hn : (idle k fl).card + 1 ≤ n) :
    Takes (sizeC (cliqueGraph k) n .min i) fl 3 (cliqueCost k (idle k fl).card) := by
  induction n generalizing fl i with
  | zero => omega
  | succ n ih =>
    obtain ⟨hik, hin⟩ := mem_idle.1 hi
    have hG : cliqueGraph k i = some (.picker (List.range k ++ [k])) := if_pos hik
    have hcard : (idle k (fl.setIn i true)).card = (idle k fl).card - 1 := by
      rw [idle_setIn, Finset.card_erase_of_mem hi]
    have hpos : 0 < (idle k fl).card := Finset.card_pos.2 ⟨i, hi⟩
    obtain ⟨r, hr⟩ : ∃ r, (idle k fl).card = r + 1 := ⟨_, (Nat.succ_pred_eq_of_pos hpos).symm⟩
    rw [hr] at hcard hn ⊢
    rw [Nat.add_sub_cancel] at hcard
    obtain ⟨n, rfl⟩ : ∃ m, n = m + 1 := ⟨n - 1, by omega⟩
    have hbusy : ∀ j ∈ List.range k, ((fl.setIn i true) j).inRec = true →
        Takes (sizeC (cliqueGraph k) (n + 1) .min j) (fl.setIn i true) (INT_MAX / 2) 1 := by
      intro j hj hb c
      have hGj : cliqueGraph k j = some (.picker (List.range k ++ [k])) := if_pos (List.mem_range.1 hj)
      unfold sizeC
      rw [M.bind_ok (Takes.tick c)]
      rw [hGj]
      change (if ((fl.setIn i true) j).inRec = true then (pure _ : CM Int) else _) _ = _
      rw [if_pos hb]
      rfl
    have hidle : ∀ j ∈ List.range k, ((fl.setIn i true) j).inRec = false →
        Takes (sizeC (cliqueGraph k) (n + 1) .min j) (fl.setIn i true) 3 (cliqueCost k r) := by
      intro j hj hb
      have := ih (fl.setIn i true) j (mem_idle.2 ⟨List.mem_range.1 hj, hb⟩) (by omega)
      rw [hcard] at this
      exact this
    have hleaf : Takes (sizeC (cliqueGraph k) (n + 1) .min k) (fl.setIn i true) 1 1 := by
      have hGk : cliqueGraph k k = some (.arith .u8) := by
        unfold cliqueGraph
        rw [if_neg (Nat.lt_irrefl k), if_pos rfl]
      intro c
      unfold sizeC
      rw [M.bind_ok (Takes.tick c), hGk]
      rfl
    have hloop := takes_pickMin (List.range k) hbusy hidle k hleaf (INT_MAX / 2) (by decide)
    rw [clique_sum, hcard] at hloop
    have hback : (fl.setIn i true).setIn i false = fl := by
      funext j
      unfold Flags.setIn
      by_cases h : j = i
      · subst h
        simp only [if_true]
        rw [← hin]
      · simp only [if_neg h]
    intro c
    unfold sizeC
    rw [M.bind_ok (Takes.tick c), hG]
    change (if (fl i).inRec = true then (pure _ : CM Int) else _) (fl, c + 1) = _
    rw [if_neg (by rw [hin]; decide)]
    change (pickMinC (sizeC (cliqueGraph k) (n + 1)) (List.range k ++ [k]) (INT_MAX / 2) >>= fun res =>
      modFlagsC (·.setIn i false) >>= fun _ =>
      if res = INT_MAX / 2 then (pure (INT_MAX / 2) : CM Int) else pure (wrap32 (res + 2))) (fl.setIn i true, c + 1) = _
    rw [M.bind_ok (hloop (c + 1))]
    change (Out.ok (3 : Int), ((fl.setIn i true).setIn i false, _)) = _
    rw [hback, cliqueCost]
    congr 2
    omega

end BS
