import Verif.Lemmas.Asking
import Verif.Lemmas.Work

/-!
# Extraction call by call: counts and blobs
-/

namespace BS
open BlobLike

/-! ## A count goes on from where it starts -/

/-- The calls counted do not depend on those counted before. -/
def Shifts {α : Type} (c : CM α) : Prop :=
  ∀ fl k, c (fl, k) = ((c (fl, 0)).1, ((c (fl, 0)).2.1, k + (c (fl, 0)).2.2))

namespace Shifts
variable {α γ : Type}

theorem pure (a : α) : Shifts (pure a : CM α) := fun _ _ => rfl
theorem out (o : Out α) : Shifts (M.out o : CM α) := fun _ _ => rfl
theorem tick : Shifts tick := fun fl k => by
  show (Out.ok (), (fl, k + 1)) = (Out.ok (), (fl, k + (0 + 1)))
  rw [Nat.zero_add]
theorem modFlags (f : Flags → Flags) : Shifts (modFlagsC f) := fun _ _ => rfl

theorem bind {c : CM α} {f : α → CM γ} (h : Shifts c) (hf : ∀ a, Shifts (f a)) : Shifts (c >>= f) := by
  intro fl k
  rw [M.bind_apply, M.bind_apply, h fl k]
  rcases c (fl, 0) with ⟨o, fl1, k1⟩
  cases o with
  | ok a =>
    dsimp only
    rw [hf a fl1 (k + k1), hf a fl1 k1]
    dsimp only
    rw [Nat.add_assoc]
  | _ => rfl

theorem ite {p : Prop} [Decidable p] {c d : CM α} (h : Shifts c) (h' : Shifts d) : Shifts (if p then c else d) := by
  split
  · exact h
  · exact h'

theorem get {f : Flags × Nat → CM α} (h : ∀ s, Shifts (f s)) (h' : ∀ fl k, f (fl, k) = f (fl, 0)) :
    Shifts (M.get >>= f) := by
  intro fl k
  show f (fl, k) (fl, k) = ((f (fl, 0) (fl, 0)).1, _)
  rw [h' fl k, h (fl, 0) fl k]
  rfl

variable {q : Sel → Id → CM Int}

theorem askFixed (h : ∀ sel i, Shifts (q sel i)) (i : Id) : Shifts (askFixed q i) :=
  .bind (h _ _) fun _ => .bind (h _ _) fun _ => .pure _

theorem askUnb (h : ∀ sel i, Shifts (q sel i)) (i : Id) : Shifts (askUnb q i) := .bind (h _ _) fun _ => .pure _

theorem askVar (h : ∀ sel i, Shifts (q sel i)) (i : Id) : Shifts (askVar q i) :=
  .bind (askFixed h i) fun _ => .ite (.pure _) (.bind (askUnb h i) fun _ => .pure _)

theorem vecMinC (h : ∀ sel i, Shifts (q sel i)) (i : Id) : Shifts (vecMinC q i) :=
  .bind (askFixed h i) fun _ => .ite (h _ _) (.bind (askUnb h i) fun _ => .bind (h _ _) fun _ => .pure _)

theorem setMinC (h : ∀ sel i, Shifts (q sel i)) (cs : List Id) (res : Int) (a b : Nat) : Shifts (setMinC q cs res a b) := by
  induction cs generalizing res a b with
  | nil => exact .pure _
  | cons i is ih =>
    exact .bind (h _ _) fun _ => .bind (.out _) fun _ => .bind (askVar h i) fun _ => .bind (askUnb h i) fun _ => ih _ _ _

theorem setMaxC (h : ∀ sel i, Shifts (q sel i)) (cs : List Id) (res : Int) : Shifts (setMaxC q cs res) := by
  induction cs generalizing res with
  | nil => exact .pure _
  | cons i is ih =>
    exact .bind (h _ _) fun _ => .bind (.out _) fun _ => .bind (askVar h i) fun _ => .bind (askUnb h i) fun _ =>
      .ite (.pure _) (ih _)

theorem sumC (h : ∀ sel i, Shifts (q sel i)) (sel : Sel) (cs : List Id) (res : Int) : Shifts (sumC q sel cs res) := by
  induction cs generalizing res with
  | nil => exact .pure _
  | cons i is ih => exact .bind (h _ _) fun _ => .bind (.out _) fun _ => ih _

theorem pickMinC (h : ∀ sel i, Shifts (q sel i)) (cs : List Id) (res : Int) : Shifts (pickMinC q cs res) := by
  induction cs generalizing res with
  | nil => exact .pure _
  | cons i is ih => exact .bind (h _ _) fun _ => ih _

theorem pickMaxC (h : ∀ sel i, Shifts (q sel i)) (cs : List Id) (res : Int) : Shifts (pickMaxC q cs res) := by
  induction cs generalizing res with
  | nil => exact .pure _
  | cons i is ih => exact .bind (h _ _) fun _ => .ite (.pure _) (ih _)

theorem sizeC (G : Graph) (n : Nat) (sel : Sel) (i : Id) : Shifts (sizeC G n sel i) := by
  induction n generalizing sel i with
  | zero => exact .out _
  | succ n ih =>
    unfold BS.sizeC
    refine .bind .tick fun _ => ?_
    cases G i with
    | none => exact .out _
    | some nd =>
      cases nd with
      | vec c _ =>
        cases sel
        · exact vecMinC ih c
        · exact .pure _
      | set cs _ unb =>
        cases sel
        · cases unb <;> exact setMinC ih _ _ _ _
        · cases unb
          · exact setMaxC ih _ _
          · exact .pure _
      | seq cs _ unb =>
        cases sel
        · cases unb <;> exact sumC ih _ _ _
        · cases unb
          · exact sumC ih _ _ _
          · exact .pure _
      | unary _ c =>
        cases sel
        · exact ih _ _
        · exact .pure _
      | lottery _ _ _ _ _ =>
        cases sel
        · exact .out _
        · exact .ite (.pure _) (.out _)
      | picker pool =>
        cases sel
        · exact .get (fun s => .ite (.pure _) (.bind (.modFlags _) fun _ => .bind (pickMinC ih _ _) fun _ =>
            .bind (.modFlags _) fun _ => .ite (.pure _) (.pure _))) fun _ _ => rfl
        · refine .get (fun s => .ite (.pure _) (.bind (.modFlags _) fun _ => .bind (pickMaxC ih _ _) fun r =>
            .bind (.modFlags _) fun _ => ?_)) fun _ _ => rfl
          cases r <;> exact .pure _
      | _ => exact .pure _

end Shifts

/-! ## From blobs to their remaining bytes -/

section
variable {q : Sel → Id → CM Int}

theorem simA_ask {α : Type} (c : CM α) : Sim WR Eq (askW c : WM Blob α) (askW c : WM ABlob α) := by
  rintro ⟨k, fl, b⟩ ⟨_, _, a⟩ ⟨rfl, rfl, hb⟩
  exact ⟨.refl _, rfl, rfl, hb⟩

theorem simA_doB {α α' : Type} {Q : α → α' → Prop} {m : M Blob α} {m' : M ABlob α'} (h : Sim BR Q m m') :
    Sim WR Q (doB m) (doB m') := simW_liftW (sim_liftB h)

/-- A question, and what follows. -/
theorem simA_asks {α γ γ' : Type} {c : CM α} {P : γ → γ' → Prop} {f : α → WM Blob γ} {f' : α → WM ABlob γ'}
    (h : ∀ v, Sim WR P (f v) (f' v)) : Sim WR P (askW c >>= f) (askW c >>= f') :=
  .bind (simA_ask c) fun _ _ e => e ▸ h _

theorem simA_lifts {α γ γ' : Type} {o : Out α} {P : γ → γ' → Prop} {f : α → WM Blob γ} {f' : α → WM ABlob γ'}
    (h : ∀ v, Sim WR P (f v) (f' v)) : Sim WR P (M.lift o >>= f) (M.lift o >>= f') :=
  .bind .lift fun _ _ e => e ▸ h _

theorem simA_does {α γ γ' : Type} {m : M Blob α} {m' : M ABlob α} {P : γ → γ' → Prop} {f : α → WM Blob γ} {f' : α → WM ABlob γ'}
    (hm : Sim BR Eq m m') (h : ∀ v, Sim WR P (f v) (f' v)) : Sim WR P (doB m >>= f) (doB m' >>= f') :=
  .bind (simA_doB hm) fun _ _ e => e ▸ h _

theorem simA_chops {γ γ' : Type} {n : Nat} {P : γ → γ' → Prop} {f : Blob → WM Blob γ} {f' : ABlob → WM ABlob γ'}
    (h : ∀ b a, BR b a → Sim WR P (f b) (f' a)) : Sim WR P (doB (chop n) >>= f) (doB (chop n) >>= f') :=
  .bind (simA_doB (sim_chop n)) h

theorem simA_same {α γ γ' : Type} {m : WM Blob α} {m' : WM ABlob α} {P : γ → γ' → Prop} {f : α → WM Blob γ}
    {f' : α → WM ABlob γ'} (hm : Sim WR Eq m m') (h : ∀ v, Sim WR P (f v) (f' v)) : Sim WR P (m >>= f) (m' >>= f') :=
  .bind hm fun _ _ e => e ▸ h _

theorem simA_unbChop (c : Id) (total var : Int) (os : List Nat) (rem : FV) :
    Sim WR BRL (unbChopLoopA q c total var os rem) (unbChopLoopA q c total var os rem) := by
  induction os generalizing rem with
  | nil => exact .pure .nil
  | cons o os ih =>
    exact simA_asks fun _ => simA_lifts fun _ => simA_chops fun _ _ hc => .bind (ih _) fun _ _ hr => .pure (.cons hc hr)

theorem simA_vecUnbounded (c : Id) : Sim WR BRL (vecUnboundedA q c) (vecUnboundedA q c) := by
  refine .bind (simA_doB .get) fun b a hb => simA_asks fun _ => ?_
  rw [hb.size]
  refine .ite Iff.rfl (fun _ => .ub) fun _ => simA_does sim_oracle fun co => ?_
  refine simA_does (sim_sizeOracles _ _) fun ⟨os, tot⟩ => .bind (simA_doB .get) fun b' a' hb' => ?_
  dsimp only
  rw [hb'.size]
  exact simA_asks fun _ => simA_lifts fun _ => simA_lifts fun _ => simA_unbChop _ _ _ _ _

theorem simA_variated (c : Id) (n : Nat) : Sim WR BRL (variatedLoopA q c n) (variatedLoopA q c n) := by
  induction n with
  | zero => exact .out .fuel
  | succ n ih =>
    refine simA_asks fun _ => simA_lifts fun need => .bind (simA_doB .get) fun b a hb => ?_
    rw [hb.size]
    refine .ite Iff.rfl (fun _ => .pure .nil) fun _ => simA_does sim_oracle fun _ => ?_
    refine simA_asks fun _ => simA_asks fun _ => simA_lifts fun _ => .bind (simA_doB .get) fun b a hb => ?_
    rw [hb.size]
    exact simA_chops fun _ _ hc => .bind ih fun _ _ hr => .pure (.cons hc hr)

theorem simA_vecSplit (n : Nat) (c : Id) : Sim WR BRL (vecSplitA n q c) (vecSplitA n q c) := by
  refine .bind (simA_doB .get) fun b a hb => simA_asks fun _ => ?_
  rw [hb.size]
  refine .ite Iff.rfl (fun _ => .throwOOD) fun _ => simA_asks fun _ => .ite Iff.rfl
    (fun _ => simA_asks fun _ => simA_doB (sim_fixedLoop _ _)) fun _ => ?_
  refine simA_asks fun _ => .ite Iff.rfl (fun _ => simA_vecUnbounded c) fun _ => ?_
  exact simA_asks fun _ => simA_asks fun _ => simA_lifts fun _ => simA_variated c n

theorem simA_addVar (i : Id) (v : Bool) (sum : Int) :
    Sim WR Eq (setAddVarA q i v sum : WM Blob Int) (setAddVarA q i v sum) :=
  .ite Iff.rfl (fun _ => simA_asks fun _ => simA_asks fun _ => simA_lifts fun _ => .lift) fun _ => .pure rfl

theorem simA_totals (cs : List Id) (t : SetTotals) :
    Sim WR Eq (setTotalsA q cs t : WM Blob SetTotals) (setTotalsA q cs t) := by
  induction cs generalizing t with
  | nil => exact .pure rfl
  | cons i cs ih =>
    exact simA_asks fun _ => simA_lifts fun _ => simA_asks fun _ => simA_same (simA_addVar _ _ _) fun _ => simA_asks fun _ => ih _

theorem simA_modifier (nUnb : Nat) (u : Bool) : Sim WR Eq (setModifierA nUnb u : WM Blob FV) (setModifierA nUnb u) :=
  .ite Iff.rfl (fun _ => .pure rfl) fun _ => simA_does sim_oracle fun _ => .pure rfl

theorem simA_modLoop (nUnb : Nat) (cs : List Id) (pred ut : FV) :
    Sim WR Eq (setModLoopA q nUnb cs pred ut : WM Blob SetMods) (setModLoopA q nUnb cs pred ut) := by
  induction cs generalizing pred ut with
  | nil => exact .pure rfl
  | cons i cs ih =>
    refine simA_asks fun _ => .ite Iff.rfl (fun _ => simA_same (ih _ _) fun _ => .pure rfl) fun _ => ?_
    refine simA_asks fun _ => simA_same (simA_modifier _ _) fun _ => simA_asks fun _ => .ite Iff.rfl
      (fun _ => simA_same (ih _ _) fun _ => .pure rfl) fun _ => ?_
    exact simA_asks fun _ => simA_asks fun _ => simA_lifts fun _ => simA_same (ih _ _) fun _ => .pure rfl

theorem simA_modFix (cs : List Id) (ms : List FV) (ut : FV) :
    Sim WR Eq (setModFixA q cs ms ut : WM Blob (List FV × FV)) (setModFixA q cs ms ut) := by
  induction cs generalizing ms ut with
  | nil => cases ms <;> exact .pure rfl
  | cons i cs ih =>
    cases ms with
    | nil => exact .pure rfl
    | cons m ms =>
      exact simA_asks fun _ => .ite Iff.rfl (fun _ => simA_same (ih _ _) fun _ => .pure rfl)
        fun _ => simA_same (ih _ _) fun _ => .pure rfl

theorem simA_mods (cs : List Id) (r : SetMods) : Sim WR Eq (setModsA q cs r : WM Blob (List FV × FV)) (setModsA q cs r) :=
  .ite Iff.rfl (fun _ => simA_modFix _ _ _) fun _ => .pure rfl

theorem simA_elFixed (i : Id) : Sim WR Eq (setElFixedA q i : WM Blob Int) (setElFixedA q i) :=
  simA_asks fun _ => .ite Iff.rfl (fun _ => simA_ask _) fun _ => .pure rfl

theorem simA_elVar (i : Id) (m kvar vr : FV) (el : Int) :
    Sim WR Eq (setElVarA q i m kvar vr el : WM Blob (Int × FV)) (setElVarA q i m kvar vr el) :=
  simA_asks fun _ => .ite Iff.rfl (fun _ => simA_asks fun _ => simA_asks fun _ => simA_lifts fun _ => simA_lifts fun _ =>
    simA_asks fun _ => simA_lifts fun _ => .pure rfl) fun _ => .pure rfl

theorem simA_elUnb (i : Id) (m kunb ur : FV) (el : Int) :
    Sim WR Eq (setElUnbA q i m kunb ur el : WM Blob (Int × FV)) (setElUnbA q i m kunb ur el) :=
  simA_asks fun _ => .ite Iff.rfl (fun _ => simA_lifts fun _ => simA_asks fun _ => simA_lifts fun _ => .pure rfl)
    fun _ => .pure rfl

theorem simA_setChop (kv ku : FV) (cs : List Id) (ms : List FV) (vr ur : FV) :
    Sim WR BRL (setChopLoopA q kv ku cs ms vr ur) (setChopLoopA q kv ku cs ms vr ur) := by
  induction cs generalizing ms vr ur with
  | nil => cases ms <;> exact .pure .nil
  | cons i cs ih =>
    cases ms with
    | nil => exact .pure .nil
    | cons m ms =>
      exact simA_same (simA_elFixed _) fun _ => simA_same (simA_elVar _ _ _ _ _) fun _ => simA_same (simA_elUnb _ _ _ _ _) fun _ =>
        simA_chops fun _ _ hc => .bind (ih _ _ _) fun _ _ hr => .pure (.cons hc hr)

theorem simA_setSplit (cs : List Id) : Sim WR BRL (setSplitA q cs) (setSplitA q cs) := by
  refine simA_same (simA_totals _ _) fun t => .bind (simA_doB .get) fun b a hb => ?_
  rw [hb.size]
  refine .ite Iff.rfl (fun _ => .throwOOD) fun _ => simA_does (sim_setLimit _ _) fun _ => ?_
  exact simA_same (simA_modLoop _ _ _ _) fun _ => simA_same (simA_mods _ _) fun _ => simA_lifts fun _ => simA_lifts fun _ =>
    simA_setChop _ _ _ _ _ _

theorem simA_takesAll (i : Id) (sz : Nat) : Sim WR Eq (takesAllA q i sz : WM Blob Bool) (takesAllA q i sz) :=
  simA_asks fun _ => .ite Iff.rfl (fun _ => .pure rfl) fun _ => simA_asks fun _ => .pure rfl

theorem simA_picks (l : List Id) : Sim WR Eq (pickFilterA q l : WM Blob (List Id × List Id)) (pickFilterA q l) := by
  induction l with
  | nil => exact .pure rfl
  | cons i l ih =>
    refine simA_asks fun _ => .bind (simA_doB .get) fun b a hb => ?_
    rw [hb.size]
    exact .ite Iff.rfl (fun _ => simA_same (simA_takesAll _ _) fun _ => simA_same ih fun _ => .pure rfl) fun _ => ih

theorem simA_soft (rec4 : Bool) (i : Id) (d : Int) :
    Sim WR Eq (softFilterA rec4 q i d : WM Blob Bool) (softFilterA rec4 q i d) :=
  .ite Iff.rfl (fun _ => .pure rfl) fun _ => simA_asks fun _ => .ite Iff.rfl (fun _ => .pure rfl) fun _ => simA_asks fun _ =>
    .ite Iff.rfl (fun _ => .pure rfl) fun _ => simA_asks fun _ => simA_asks fun _ => simA_lifts fun _ => .pure rfl

theorem simA_lots (rec4 : Bool) (l : List Id) : Sim WR Eq (lotFilterA rec4 q l : WM Blob (List Id)) (lotFilterA rec4 q l) := by
  induction l with
  | nil => exact .pure rfl
  | cons i l ih =>
    refine simA_asks fun _ => .bind (simA_doB .get) fun b a hb => ?_
    rw [hb.size]
    exact .ite Iff.rfl (fun _ => ih) fun _ => simA_same (simA_soft _ _ _) fun _ => simA_same ih fun _ => .pure rfl

theorem simA_extract (G : Graph) (n : Nat) (i : Id) :
    Sim WR Eq (extractA G n i : WM Blob Bytes) (extractA G n i : WM ABlob Bytes) := by
  induction n generalizing i with
  | zero => exact .out .fuel
  | succ n ih =>
    unfold extractA
    refine simA_same simW_tick fun _ => ?_
    cases hG : G i with
    | none => exact .ub
    | some nd =>
      cases nd with
      | vec c join =>
        exact .bind (simA_vecSplit _ _) fun bs bs' hbs => simA_same (simW_each ih (forall₂_pair hbs) 0) fun _ => .pure rfl
      | set cs join unb =>
        exact .bind (simA_setSplit _) fun bs bs' hbs => simA_same (simW_each ih (forall₂_zip cs hbs) 0) fun _ => .pure rfl
      | seq cs join unb => exact simA_same (simW_seq ih cs) fun _ => .pure rfl
      | unary op c => exact simA_same (ih c) fun _ => .pure rfl
      | lottery rec4 stamps osz smin smax =>
        refine simA_does (sim_uOracle _) fun o => simA_same (simA_lots _ _) fun l1 => ?_
        refine simA_same (m := lotAgainA _ _ _) (.ite Iff.rfl (fun _ => simA_lots _ _) fun _ => .pure rfl) fun l => ?_
        exact .ite Iff.rfl (fun _ => .throwOOD) fun _ => simA_lifts fun _ => simA_lifts fun j => ih j
      | picker pool =>
        refine simA_does sim_oracle fun o => simA_same (simA_picks _) fun r => .ite Iff.rfl (fun _ => ?_) fun _ => ?_
        · refine simA_asks fun mn => .bind (simA_doB .get) fun b a hb => ?_
          rw [hb.size]
          exact .ite Iff.rfl (fun _ => .throwOOD) fun _ => .out .abort
        · exact simA_lifts fun _ => simA_lifts fun j => ih j
      | _ => exact simW_liftW (sim_extract G (n + 1) i)

end

end BS
