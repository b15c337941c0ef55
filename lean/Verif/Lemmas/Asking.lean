import Verif.Spec.Asking
import Verif.Lemmas.Calls

/-!
# Asking again gives the same
-/

namespace BS
open BlobLike

section
variable {β : Type} {α γ : Type} {fl : Flags}

/-- With flags `fl`, the run with questions does to the blob what the other does. -/
def Mirrors (fl : Flags) (m : M β α) (mA : WM β α) : Prop :=
  ∀ b k, ∃ k', mA (k, (fl, b)) = ((m b).1, (k', (fl, (m b).2)))

namespace Mirrors

theorem doB (m : M β α) : Mirrors fl m (doB m) := fun _ k => ⟨k, rfl⟩

theorem pure (a : α) : Mirrors fl (pure a : M β α) (pure a) := fun _ k => ⟨k, rfl⟩

theorem out (o : Out α) : Mirrors fl (M.out o : M β α) (M.out o) := fun _ k => ⟨k, rfl⟩

theorem ub (r : UB) : Mirrors fl (M.ub r : M β α) (M.ub r) := fun _ k => ⟨k, rfl⟩

theorem ood : Mirrors fl (M.throwOOD : M β α) M.throwOOD := fun _ k => ⟨k, rfl⟩

theorem bind {m : M β α} {mA : WM β α} {f : α → M β γ} {fA : α → WM β γ} (h : Mirrors fl m mA)
    (hf : ∀ a, Mirrors fl (f a) (fA a)) : Mirrors fl (m >>= f) (mA >>= fA) := by
  intro b k
  obtain ⟨k1, h1⟩ := h b k
  rw [M.bind_apply, M.bind_apply, h1]
  rcases m b with ⟨o, b'⟩
  cases o with
  | ok a => exact hf a b' k1
  | _ => exact ⟨k1, rfl⟩

theorem lift {o : Out α} {f : α → M β γ} {fA : α → WM β γ} (hf : ∀ a, Mirrors fl (f a) (fA a)) :
    Mirrors fl (M.lift o >>= f) (M.lift o >>= fA) := .bind (fun _ k => ⟨k, rfl⟩) hf

theorem ask {c : CM α} {v : α} {m : M β γ} {g : α → WM β γ} (h : Tells c fl v) (hg : Mirrors fl m (g v)) :
    Mirrors fl m (askW c >>= g) := by
  intro b k
  obtain ⟨k1, h1⟩ := h k
  have e : (askW c : WM β α) (k, (fl, b)) = (.ok v, (k1, (fl, b))) := by
    show ((c (fl, k)).1, ((c (fl, k)).2.2, ((c (fl, k)).2.1, b))) = _
    rw [h1]
  rw [M.bind_ok e]
  exact hg b k1

/-- A question at the end. -/
theorem told {c : CM α} {v : α} (h : Tells c fl v) : Mirrors fl (Pure.pure v : M β α) (askW c) := by
  intro b k
  obtain ⟨k1, h1⟩ := h k
  refine ⟨k1, ?_⟩
  show ((c (fl, k)).1, ((c (fl, k)).2.2, ((c (fl, k)).2.1, b))) = _
  rw [h1]
  rfl

theorem ite {p : Prop} [Decidable p] {m m' : M β α} {n n' : WM β α} (h1 : p → Mirrors fl m n) (h2 : ¬ p → Mirrors fl m' n') :
    Mirrors fl (if p then m else m') (if p then n else n') := by
  split
  · exact h1 ‹_›
  · exact h2 ‹_›

theorem congr {m m' : M β α} {mA : WM β α} (h : Mirrors fl m mA) (e : m = m') : Mirrors fl m' mA := e ▸ h

end Mirrors

variable [BlobLike β] {q : Sel → Id → CM Int}

/-! ## Lists -/

variable {c : Id} {mn mx : Int}

theorem mirrors_unbChop (h1 : Tells (q .min c) fl mn) (total var : Int) (os : List Nat) (rem : FV) :
    Mirrors fl (unbChopLoop mn total var os rem : M β (List β)) (unbChopLoopA q c total var os rem) := by
  induction os generalizing rem with
  | nil => exact .pure _
  | cons o os ih =>
    unfold unbChopLoop unbChopLoopA
    exact .ask h1 (.lift fun el => .bind (.doB _) fun p => .bind (ih _) fun r => .pure _)

theorem mirrors_vecUnbounded (h1 : Tells (q .min c) fl mn) :
    Mirrors fl (vecUnbounded mn : M β (List β)) (vecUnboundedA q c) := by
  unfold vecUnbounded vecUnboundedA
  refine .bind (.doB _) fun b => .ask h1 (.ite (fun _ => .ub _) fun _ => .bind (.doB _) fun co => ?_)
  refine .bind (.doB _) fun ⟨os, tot⟩ => .bind (.doB _) fun b' => .ask h1 (.lift fun _ => .lift fun _ => ?_)
  exact mirrors_unbChop h1 _ _ _ _

theorem mirrors_variated (h1 : Tells (q .min c) fl mn) (h2 : Tells (q .max c) fl mx) (n : Nat) :
    Mirrors fl (variatedLoop n mn mx : M β (List β)) (variatedLoopA q c n) := by
  induction n with
  | zero => exact .out _
  | succ n ih =>
    unfold variatedLoop variatedLoopA
    refine .ask h1 (.lift fun need => .bind (.doB _) fun b => .ite (fun _ => .pure _) fun _ => ?_)
    refine .bind (.doB _) fun o => .ask h1 (.ask h2 (.lift fun s => .bind (.doB _) fun b' => ?_))
    exact .bind (.doB _) fun p => .bind ih fun r => .pure _

theorem mirrors_vecSplit (h1 : Tells (q .min c) fl mn) (h2 : Tells (q .max c) fl mx) (n : Nat) :
    Mirrors fl (vecSplit n mn mx : M β (List β)) (vecSplitA n q c) := by
  unfold vecSplit vecSplitA
  refine .bind (.doB _) fun b => .ask h1 (.ite (fun _ => .ood) fun _ => .ask (h1.askFixed h2) ?_)
  by_cases hf : mn = mx
  · have e : SizePair.fixed (mn, mx) = true := by unfold SizePair.fixed; simpa using hf
    rw [if_pos hf, e, if_pos rfl]
    exact .ask h1 (.doB _)
  · have e : SizePair.fixed (mn, mx) = false := by unfold SizePair.fixed; simpa using hf
    rw [if_neg hf, e, if_neg Bool.false_ne_true]
    refine .ask (Tells.askUnb (mn := mn) h2) ?_
    by_cases hu : mx = -1
    · have e : SizePair.unb (mn, mx) = true := by unfold SizePair.unb; simpa using hu
      rw [if_pos hu, e, if_pos rfl]
      exact mirrors_vecUnbounded h1
    · have e : SizePair.unb (mn, mx) = false := by unfold SizePair.unb; simpa using hu
      rw [if_neg hu, e, if_neg Bool.false_ne_true]
      exact .ask h1 (.ask h2 (.lift fun _ => mirrors_variated h1 h2 n))

/-! ## Sets -/

/-- The questions about the stamps of a set are answered with these sizes. -/
def TellsAll (q : Sel → Id → CM Int) (fl : Flags) : List Id → List SizePair → Prop :=
  List.Forall₂ fun i s => Tells (q .min i) fl s.1 ∧ Tells (q .max i) fl s.2

omit [BlobLike β] in
theorem lift_bind (o : Out α) (f : α → Out γ) :
    (M.lift (o >>= f) : M β γ) = M.lift o >>= fun a => M.lift (f a) := by
  cases o <;> rfl

omit [BlobLike β] in
theorem mirrors_setTotals {cs : List Id} {ss : List SizePair} (h : TellsAll q fl cs ss) (t : SetTotals) :
    Mirrors fl (M.lift (setTotals ss t) : M β SetTotals) (setTotalsA q cs t) := by
  induction h generalizing t with
  | nil => exact .pure _
  | @cons i s cs ss h h' ih =>
    obtain ⟨mn, mx⟩ := s
    obtain ⟨h1, h2⟩ := h
    unfold setTotalsA setTotals
    refine .ask h1 ?_
    refine .congr (m := M.lift (ckInt (t.fixed + mn)) >>= fun fixed => M.lift _) (.lift fun fixed => ?_) (lift_bind _ _).symm
    refine .ask (Tells.askVar h1 h2) ?_
    by_cases hv : SizePair.var (mn, mx) = true
    · have hu : SizePair.unb (mn, mx) = false := by
        unfold SizePair.var at hv
        simp at hv
        exact hv.2
      simp only [hv, setAddVarA, if_true, M.bind_assoc]
      refine .ask h2 (.ask h1 ?_)
      refine .congr (.lift fun d => ?_) (lift_bind _ _).symm
      refine .congr (.lift fun mv => ?_) (lift_bind _ _).symm
      refine .ask (Tells.askUnb (mn := mn) h2) ?_
      simp only [hu, Bool.false_eq_true, if_false]
      exact ih _
    · simp only [hv, setAddVarA, Bool.false_eq_true, if_false, M.pure_bind]
      refine .ask (Tells.askUnb (mn := mn) h2) ?_
      by_cases hu : SizePair.unb (mn, mx) = true
      · simp only [hu, if_true]
        exact ih _
      · simp only [hu, Bool.false_eq_true, if_false]
        exact ih _

theorem mirrors_setModLoop {cs : List Id} {ss : List SizePair} (h : TellsAll q fl cs ss) (nUnb : Nat) (pred ut : FV) :
    Mirrors fl (setModLoop nUnb ss pred ut : M β SetMods) (setModLoopA q nUnb cs pred ut) := by
  induction h generalizing pred ut with
  | nil => exact .pure _
  | @cons i s cs ss h h' ih =>
    obtain ⟨mn, mx⟩ := s
    unfold setModLoopA setModLoop
    obtain ⟨h1, h2⟩ := h
    refine .ask (h1.askFixed h2) (.ite (fun _ => .bind (ih _ _) fun r => .pure _) fun _ => ?_)
    refine .ask (Tells.askUnb (mn := mn) h2) ?_
    by_cases hu : SizePair.unb (mn, mx) = true
    · by_cases hn : nUnb ≤ 1
      · simp only [hu, hn, setModifierA, and_self, if_true, M.pure_bind]
        refine .ask (Tells.askUnb (mn := mn) h2) ?_
        simp only [hu, if_true]
        exact .bind (ih _ _) fun r => .pure _
      · simp only [hu, hn, setModifierA, and_false, if_true, if_false, M.pure_bind, M.bind_assoc]
        refine .bind (.doB _) fun o => .ask (Tells.askUnb (mn := mn) h2) ?_
        simp only [hu, if_true]
        exact .bind (ih _ _) fun r => .pure _
    · simp only [hu, setModifierA, false_and, Bool.false_eq_true, if_false, M.pure_bind, M.bind_assoc]
      refine .bind (.doB _) fun o => .ask (Tells.askUnb (mn := mn) h2) ?_
      simp only [hu, Bool.false_eq_true, if_false]
      exact .ask h2 (.ask h1 (.lift fun d => .bind (ih _ _) fun r => .pure _))

omit [BlobLike β] in
theorem mirrors_setModFix {cs : List Id} {ss : List SizePair} (h : TellsAll q fl cs ss) (ms : List FV) (ut : FV) :
    Mirrors fl (pure (setModFix ss ms ut) : M β (List FV × FV)) (setModFixA q cs ms ut) := by
  induction h generalizing ms ut with
  | nil => cases ms <;> exact .pure _
  | @cons i s cs ss h h' ih =>
    cases ms with
    | nil => exact .pure _
    | cons m ms =>
      obtain ⟨mn, mx⟩ := s
      obtain ⟨h1, h2⟩ := h
      unfold setModFixA setModFix
      refine .ask (Tells.askUnb (mn := mn) h2) ?_
      by_cases hu : SizePair.unb (mn, mx) = true
      · simp only [hu, if_true]
        exact (Mirrors.bind (ih _ _) fun r => .pure _).congr (M.pure_bind _ _)
      · simp only [hu, Bool.false_eq_true, if_false]
        exact (Mirrors.bind (ih _ _) fun r => .pure _).congr (M.pure_bind _ _)

theorem mirrors_setChop {cs : List Id} {ss : List SizePair} (h : TellsAll q fl cs ss) (kvar kunb : FV) (ms : List FV)
    (vr ur : FV) :
    Mirrors fl (setChopLoop kvar kunb ss ms vr ur : M β (List β)) (setChopLoopA q kvar kunb cs ms vr ur) := by
  induction h generalizing ms vr ur with
  | nil => cases ms <;> exact .pure _
  | @cons i s cs ss h h' ih =>
    cases ms with
    | nil => exact .pure _
    | cons m ms =>
      obtain ⟨mn, mx⟩ := s
      obtain ⟨h1, h2⟩ := h
      unfold setChopLoopA setChopLoop
      unfold setElFixedA setElVarA setElUnbA
      simp only [M.bind_assoc]
      refine .ask (h1.askFixed h2) ?_
      cases hf : SizePair.fixed (mn, mx) <;> cases hu : SizePair.unb (mn, mx)
      all_goals
        have hv : SizePair.var (mn, mx) = (!SizePair.fixed (mn, mx) && !SizePair.unb (mn, mx)) := rfl
        rw [hf, hu] at hv
        simp only [Bool.not_true, Bool.not_false, Bool.and_true, Bool.and_false] at hv
        simp only [Bool.false_eq_true, if_false, if_true, M.pure_bind]
      · refine .ask (h1.askVar h2) ?_
        simp only [hv, if_true, M.bind_assoc, M.pure_bind]
        refine .ask h2 (.ask h1 (.lift fun d => .lift fun el => .ask h1 (.lift fun el' => ?_)))
        refine .ask (Tells.askUnb (mn := mn) h2) ?_
        simp only [hu, Bool.false_eq_true, if_false, M.pure_bind]
        exact .bind (.doB _) fun p => .bind (ih _ _ _) fun r => .pure _
      · refine .ask (h1.askVar h2) ?_
        simp only [hv, Bool.false_eq_true, if_false, M.pure_bind]
        refine .ask (Tells.askUnb (mn := mn) h2) ?_
        simp only [hu, if_true, M.bind_assoc, M.pure_bind]
        refine .lift fun el => .ask h1 (.lift fun el' => ?_)
        exact .bind (.doB _) fun p => .bind (ih _ _ _) fun r => .pure _
      · refine .ask h1 (.ask (h1.askVar h2) ?_)
        simp only [hv, Bool.false_eq_true, if_false, M.pure_bind]
        refine .ask (Tells.askUnb (mn := mn) h2) ?_
        simp only [hu, Bool.false_eq_true, if_false, M.pure_bind]
        exact .bind (.doB _) fun p => .bind (ih _ _ _) fun r => .pure _
      · refine .ask h1 (.ask (h1.askVar h2) ?_)
        simp only [hv, Bool.false_eq_true, if_false, M.pure_bind]
        refine .ask (Tells.askUnb (mn := mn) h2) ?_
        simp only [hu, if_true, M.bind_assoc, M.pure_bind]
        refine .lift fun el => .ask h1 (.lift fun el' => ?_)
        exact .bind (.doB _) fun p => .bind (ih _ _ _) fun r => .pure _

theorem mirrors_setSplit {cs : List Id} {ss : List SizePair} (h : TellsAll q fl cs ss) :
    Mirrors fl (setSplit ss : M β (List β)) (setSplitA q cs) := by
  unfold setSplit setSplitA
  refine .bind (mirrors_setTotals h _) fun t => .bind (.doB _) fun b => .ite (fun _ => .ood) fun _ => ?_
  refine .bind (.doB _) fun lim => .bind (mirrors_setModLoop h _ _ _) fun r => ?_
  have e : Mirrors fl (pure (if FV.beq r.unbTot (.fin 0) then setModFix ss r.mods (.fin 0) else (r.mods, r.unbTot)) : M β _)
      (setModsA q cs r) := by
    unfold setModsA
    split
    · exact mirrors_setModFix h _ _
    · exact .pure _
  exact (Mirrors.bind e fun x => .lift fun fv => .lift fun fu => mirrors_setChop h _ _ _ _ _).congr (M.pure_bind _ _)

/-! ## Extraction -/

/-- With flags `fl`: where the first run ends, the second ends the same way. `D` has to hold where the first is
undefined. -/
def Echoes (D : Prop) (fl : Flags) (m : XM β α) (mA : WM β α) : Prop :=
  ∀ b k, (m (fl, b)).1 ≠ .fuel → (∀ u, (m (fl, b)).1 = .ub u → D) →
    (∃ k', mA (k, (fl, b)) = ((m (fl, b)).1, (k', (m (fl, b)).2))) ∧ ∀ a, (m (fl, b)).1 = .ok a → (m (fl, b)).2.1 = fl

namespace Echoes
variable {D : Prop}

omit [BlobLike β] in
theorem ofMirrors {m : M β α} {mA : WM β α} (h : Mirrors fl m mA) : Echoes D fl (liftB m) mA := by
  intro b k _ _
  exact ⟨h b k, fun _ _ => rfl⟩

omit [BlobLike β] in
theorem liftB (m : M β α) : Echoes D fl (liftB m) (BS.doB m) := .ofMirrors (.doB m)

omit [BlobLike β] in
theorem pure (a : α) : Echoes D fl (Pure.pure a : XM β α) (Pure.pure a) := fun _ k _ _ => ⟨⟨k, rfl⟩, fun _ _ => rfl⟩

omit [BlobLike β] in
theorem out (o : Out α) : Echoes D fl (M.out o : XM β α) (M.out o) := fun _ k _ _ => ⟨⟨k, rfl⟩, fun _ _ => rfl⟩

omit [BlobLike β] in
theorem lift (o : Out α) : Echoes D fl (M.lift o : XM β α) (M.lift o) := .out o

omit [BlobLike β] in
theorem bind {m : XM β α} {mA : WM β α} {f : α → XM β γ} {fA : α → WM β γ} (h : Echoes D fl m mA)
    (hf : ∀ a, Echoes D fl (f a) (fA a)) : Echoes D fl (m >>= f) (mA >>= fA) := by
  intro b k hn hd
  have H := h b k
  rw [M.bind_apply] at hn hd ⊢
  rw [M.bind_apply]
  rcases e : m (fl, b) with ⟨o, fl1, b1⟩
  rw [e] at H hn hd
  cases o with
  | ok a =>
    obtain ⟨⟨k1, h1⟩, h2⟩ := H (fun h => by cases h) fun _ h => by cases h
    have : fl1 = fl := h2 a rfl
    subst this
    rw [h1]
    exact hf a b1 k1 hn hd
  | fuel => exact absurd rfl hn
  | ub u =>
    obtain ⟨⟨k1, h1⟩, _⟩ := H (fun h => by cases h) fun u' h => hd u rfl
    rw [h1]
    exact ⟨⟨k1, rfl⟩, fun _ h => by cases h⟩
  | outOfData =>
    obtain ⟨⟨k1, h1⟩, _⟩ := H (fun h => by cases h) fun _ h => by cases h
    rw [h1]
    exact ⟨⟨k1, rfl⟩, fun _ h => by cases h⟩
  | abort =>
    obtain ⟨⟨k1, h1⟩, _⟩ := H (fun h => by cases h) fun _ h => by cases h
    rw [h1]
    exact ⟨⟨k1, rfl⟩, fun _ h => by cases h⟩

omit [BlobLike β] in
theorem tick {m : XM β α} {mA : WM β α} (h : Echoes D fl m mA) : Echoes D fl m (tickW >>= fun _ => mA) :=
  fun b k => h b (k + 1)

omit [BlobLike β] in
theorem ite {p : Prop} [Decidable p] {m m' : XM β α} {n n' : WM β α} (h1 : p → Echoes D fl m n)
    (h2 : ¬ p → Echoes D fl m' n') : Echoes D fl (if p then m else m') (if p then n else n') := by
  split
  · exact h1 ‹_›
  · exact h2 ‹_›

omit [BlobLike β] in
/-- A question on the right only. -/
theorem ask {c : CM α} {v : α} {m : XM β γ} {g : α → WM β γ} (h : Tells c fl v) (hg : Echoes D fl m (g v)) :
    Echoes D fl m (askW c >>= g) := by
  intro b k
  obtain ⟨k1, h1⟩ := h k
  have e : (askW c : WM β α) (k, (fl, b)) = (.ok v, (k1, (fl, b))) := by
    show ((c (fl, k)).1, ((c (fl, k)).2.2, ((c (fl, k)).2.1, b))) = _
    rw [h1]
  rw [M.bind_ok e]
  exact hg b k1

theorem size {f : Nat → XM β γ} {fA : β → WM β γ} (h : ∀ b, Echoes D fl (f (BlobLike.size b)) (fA b)) :
    Echoes D fl (curSize >>= f) (BS.doB M.get >>= fA) := fun b k => h b b k

omit [BlobLike β] in
/-- A question on the left: it can be asked as often as one likes on the right. -/
theorem query {G : Graph} {n : Nat} {sel : Sel} {j : Id} {f : Int → XM β γ} {mA : WM β γ}
    (hd : D → ∀ r, (sizeQ G n sel j fl).1 ≠ .ub r)
    (h : ∀ v, Tells (sizeC G n sel j) fl v → Echoes D fl (f v) mA) :
    Echoes D fl (liftF (sizeQ G n sel j) >>= f) mA := by
  intro b k hn hu
  obtain ⟨k1, k2, k3⟩ := keeps_sizeQ G n sel j fl
  rcases e : sizeQ G n sel j fl with ⟨o, fl1⟩
  have e' : (liftF (sizeQ G n sel j) : XM β Int) (fl, b) = (o, (fl1, b)) := by
    show ((sizeQ G n sel j fl).1, ((sizeQ G n sel j fl).2, b)) = _
    rw [e]
  rw [e] at k1 k2 k3
  cases o with
  | ok v =>
    have : fl1 = fl := k3 v fl1 rfl
    subst this
    rw [M.bind_ok e'] at hn hu ⊢
    exact h v (fun k => shadows_sizeC G n sel j fl1 v fl1 e k) b k hn hu
  | fuel => rw [M.bind_fuel e'] at hn; exact absurd rfl hn
  | outOfData => exact absurd rfl k1
  | abort => exact absurd rfl k2
  | ub u =>
    rw [M.bind_ub e'] at hu
    exact absurd (by rw [e]) (hd (hu u rfl) u)

omit [BlobLike β] in
theorem liftF_bind (m : M Flags α) (f : α → M Flags γ) :
    (liftF (m >>= f) : XM β γ) = liftF m >>= fun a => liftF (f a) := by
  funext ⟨fl, b⟩
  rw [M.bind_apply]
  show ((m >>= f) fl |>.1, ((m >>= f) fl |>.2, b)) = _
  rw [M.bind_apply]
  unfold liftF
  dsimp only
  rcases m fl with ⟨o, fl1⟩
  cases o <;> rfl

omit [BlobLike β] in
theorem queries {G : Graph} {n : Nat} {sel : Sel} {cs : List Id} {f : List Int → XM β γ} {mA : WM β γ}
    (hd : D → ∀ j ∈ cs, ∀ r, (sizeQ G n sel j fl).1 ≠ .ub r)
    (h : ∀ vs, List.Forall₂ (fun j v => Tells (sizeC G n sel j) fl v) cs vs → Echoes D fl (f vs) mA) :
    Echoes D fl (liftF (queryAll (sizeQ G n sel) cs) >>= f) mA := by
  induction cs generalizing f with
  | nil => exact h [] .nil
  | cons j cs ih =>
    unfold queryAll
    rw [liftF_bind, M.bind_assoc]
    refine .query (fun hD => hd hD j List.mem_cons_self) fun v hv => ?_
    rw [liftF_bind, M.bind_assoc]
    exact ih (fun hD j hj => hd hD j (List.mem_cons_of_mem _ hj)) fun vs hvs => h (v :: vs) (.cons hv hvs)

omit [BlobLike β] in
theorem each {ex : Id → XM β Bytes} {exA : Id → WM β Bytes} (h : ∀ i, Echoes D fl (ex i) (exA i)) (k : Int)
    (l : List (Id × β)) : Echoes D fl (extractEach ex k l) (extractEachW exA k l) := by
  induction l generalizing k with
  | nil => exact .pure _
  | cons p l ih =>
    obtain ⟨i, c⟩ := p
    unfold extractEach extractEachW
    refine .bind (fun b k hn hd => ?_) fun s => .bind (.lift _) fun k' => .bind (ih _) fun ss => .pure _
    obtain ⟨⟨k', h1⟩, h2⟩ := h i c k hn hd
    refine ⟨⟨k', ?_⟩, h2⟩
    show ((exA i (k, (fl, c))).1, ((exA i (k, (fl, c))).2.1, ((exA i (k, (fl, c))).2.2.1, b))) = _
    rw [h1]
    rfl

omit [BlobLike β] in
theorem inTurn {ex : Id → XM β Bytes} {exA : Id → WM β Bytes} (h : ∀ i, Echoes D fl (ex i) (exA i)) (l : List Id) :
    Echoes D fl (extractSeq ex l) (extractSeqW exA l) := by
  induction l with
  | nil => exact .pure _
  | cons i l ih => exact .bind (h i) fun _ => .bind ih fun _ => .pure _

variable {G : Graph} {n : Nat}

theorem picks {l : List Id} (hd : D → ∀ sel, ∀ j ∈ l, ∀ r, (sizeQ G n sel j fl).1 ≠ .ub r) :
    Echoes D fl (pickFilter (sizeQ G n .min) (sizeQ G n .max) l : XM β _) (pickFilterA (sizeC G n) l) := by
  induction l with
  | nil => exact .pure _
  | cons i l ih =>
    have ih := ih fun hD sel j hj => hd hD sel j (List.mem_cons_of_mem _ hj)
    unfold pickFilter pickFilterA
    refine .query (fun hD => hd hD _ i List.mem_cons_self) fun mn h1 => .ask h1 (.size fun b => .ite (fun _ => ?_) fun _ => ih)
    unfold takesAllA
    simp only [M.bind_assoc]
    refine .query (fun hD => hd hD _ i List.mem_cons_self) fun mx h2 => .ask (Tells.askUnb (mn := mn) h2) ?_
    by_cases hu : mx = -1
    · have e : SizePair.unb (mn, mx) = true := by unfold SizePair.unb; simpa using hu
      simp only [if_true, hu, true_or]
      exact .bind ih fun r => .pure _
    · have e : SizePair.unb (mn, mx) = false := by unfold SizePair.unb; simpa using hu
      simp only [e, Bool.false_eq_true, if_false, hu, false_or, M.bind_assoc]
      refine .ask h2 ?_
      simp only [M.pure_bind, decide_eq_true_eq]
      refine .bind ih fun r => ?_
      split
      · exact .pure _
      · exact .pure _

omit [BlobLike β] in
theorem soft {rec4 : Bool} {i : Id} {d : Int}
    (hd : D → ∀ sel, ∀ r, (sizeQ G n sel i fl).1 ≠ .ub r) :
    Echoes D fl (liftF (softFilter rec4 (sizeQ G n .min) (sizeQ G n .max) i d) : XM β _)
      (softFilterA rec4 (sizeC G n) i d) := by
  unfold softFilter softFilterA
  cases rec4 with
  | false => exact .pure _
  | true =>
    simp only [Bool.not_true, Bool.false_eq_true, if_false]
    rw [liftF_bind]
    refine .query (fun hD => hd hD _) fun mx h2 => .ask (Tells.askUnb (mn := 0) h2) ?_
    by_cases hu : mx = -1
    · have e : SizePair.unb (0, mx) = true := by unfold SizePair.unb; simpa using hu
      simp only [if_true, hu, true_or]
      exact .pure _
    · have e : SizePair.unb (0, mx) = false := by unfold SizePair.unb; simpa using hu
      simp only [e, Bool.false_eq_true, if_false, hu, false_or]
      refine .ask h2 ?_
      by_cases hl : d < mx
      · rw [if_pos hl, if_pos hl]
        exact .pure _
      · rw [if_neg hl, if_neg hl, liftF_bind]
        refine .query (fun hD => hd hD _) fun mn' h1 => .ask h1 (.ask h2 ?_)
        rw [liftF_bind]
        exact .bind (.lift _) fun s => .pure _

theorem lots {rec4 : Bool} {l : List Id} (hd : D → ∀ sel, ∀ j ∈ l, ∀ r, (sizeQ G n sel j fl).1 ≠ .ub r) :
    Echoes D fl (lotFilter rec4 (sizeQ G n .min) (sizeQ G n .max) l : XM β _) (lotFilterA rec4 (sizeC G n) l) := by
  induction l with
  | nil => exact .pure _
  | cons i l ih =>
    have ih := ih fun hD sel j hj => hd hD sel j (List.mem_cons_of_mem _ hj)
    unfold lotFilter lotFilterA
    refine .query (fun hD => hd hD _ i List.mem_cons_self) fun mn h1 => .ask h1 (.size fun b => .ite (fun _ => ih) fun _ => ?_)
    exact .bind (soft fun hD sel => hd hD sel i List.mem_cons_self) fun ok => .bind ih fun r => .pure _

end Echoes

theorem tellsBoth {A B : Id → Int → Prop} {cs : List Id} {xs ys : List Int} (h1 : List.Forall₂ A cs xs)
    (h2 : List.Forall₂ B cs ys) : List.Forall₂ (fun i (s : SizePair) => A i s.1 ∧ B i s.2) cs (xs.zip ys) := by
  induction h1 generalizing ys with
  | nil => cases h2; exact .nil
  | cons h _ ih =>
    cases h2 with
    | cons h' t => exact .cons ⟨h, h'⟩ (ih t)

/-- Asking again gives the same. -/
theorem echoes_extract (G : Graph) (n : Nat) (i : Id) :
    Echoes (SizesDefined G fl) fl (extract G n i : XM β Bytes) (extractA G n i) := by
  induction n generalizing i with
  | zero => exact .out _
  | succ n ih =>
    unfold extractA
    refine .tick ?_
    have kid : ∀ nd, G i = some nd → ∀ j, j ∈ nd.plainKids ∨ j ∈ nd.choices → SizesDefined G fl →
        ∀ m sel r, (sizeQ G m sel j fl).1 ≠ .ub r := fun nd e j hj hD m sel r => hD j (.inr ⟨i, nd, e, hj⟩) sel m r
    have leaf : Echoes (SizesDefined G fl) fl (extract G (n + 1) i : XM β Bytes) (liftW (extract G (n + 1) i)) := by
      intro b k _ _
      exact ⟨⟨k, rfl⟩, fun a e => keeps_extract G (n + 1) i (fl, b) (.inl ⟨a, e⟩)⟩
    rcases e : G i with _ | nd
    · simp only [extract, e]
      exact .out _
    · have kid := kid nd e
      cases nd with
      | vec c join =>
        simp only [extract, e]
        refine .query (fun hD => kid c (.inl (by simp [Node.plainKids])) hD n _) fun mn h1 =>
          .query (fun hD => kid c (.inl (by simp [Node.plainKids])) hD n _) fun mx h2 => ?_
        exact .bind (.ofMirrors (mirrors_vecSplit h1 h2 n)) fun bs => .bind (.each ih _ _) fun xs => .pure _
      | set cs join unb =>
        simp only [extract, e]
        refine .queries (fun hD j hj => kid j (.inl (by simpa [Node.plainKids] using hj)) hD n _) fun mns h1 =>
          .queries (fun hD j hj => kid j (.inl (by simpa [Node.plainKids] using hj)) hD n _) fun mxs h2 => ?_
        exact .bind (.ofMirrors (mirrors_setSplit (tellsBoth h1 h2))) fun bs => .bind (.each ih _ _) fun xs => .pure _
      | seq cs join unb =>
        simp only [extract, e]
        exact .bind (.inTurn ih _) fun xs => .pure _
      | unary op c =>
        simp only [extract, e]
        exact .bind (ih c) fun xs => .pure _
      | lottery rec4 stamps osz smin smax =>
        simp only [extract, e]
        have hd : ∀ r4, Echoes (SizesDefined G fl) fl (lotFilter r4 (sizeQ G n .min) (sizeQ G n .max) stamps : XM β _)
            (lotFilterA r4 (sizeC G n) stamps) := fun r4 => .lots fun hD sel j hj =>
          kid j (.inr (by simpa [Node.choices] using hj)) hD n sel
        refine .bind (.liftB _) fun o => .bind (hd _) fun l1 => ?_
        refine .bind (.ite (fun _ => hd _) fun _ => .pure _) fun l => ?_
        exact .ite (fun _ => .out _) fun _ => .bind (.lift _) fun k => .bind (.lift _) fun j => ih j
      | picker pool =>
        simp only [extract, e]
        refine .bind (.liftB _) fun o => .bind (.picks fun hD sel j hj =>
          kid j (.inr (by simpa [Node.choices] using hj)) hD n sel) fun r => ?_
        refine .ite (fun _ => ?_) fun _ => .bind (.lift _) fun k => .bind (.lift _) fun j => ih j
        refine .query (fun hD => hD i (.inl (by rw [e]; simp)) _ _) fun mn h1 => .ask h1 (.size fun b => ?_)
        exact .ite (fun _ => .out _) fun _ => .out _
      | _ => exact leaf

end

end BS
