import Verif.Threads
import Verif.Spec.Threads
import Verif.Lemmas.Invert

/-!
# Lemmas: threads
-/

namespace BS
open BlobLike
set_option linter.unusedSectionVars false

/-! ## A thread alone does what the model without threads does -/

/-- The whole program, with nobody else taking steps. -/
def Prog.run {α : Type} : Prog α → Flags → α × Flags
  | .ret a, fl => (a, fl)
  | .read i m k, fl => (k ((fl i).get m)).run fl
  | .write i m v k, fl => k.run (fl.put i m v)

theorem Prog.run_bind {α γ : Type} (p : Prog α) (f : α → Prog γ) (fl : Flags) :
    (p.bind f).run fl = (f (p.run fl).1).run (p.run fl).2 := by
  induction p generalizing fl with
  | ret a => rfl
  | read i m k ih => exact ih _ _
  | write i m v k ih => exact ih _

section
variable {β : Type} [BlobLike β] {α γ : Type}

/-- The program of a thread, run alone. -/
def P.alone (p : P (Nat × β) α) : WM β α := fun w =>
  let r := (p (w.1, w.2.2)).run w.2.1
  (r.1.1, (r.1.2.1, (r.2, r.1.2.2)))

theorem alone_pure (a : α) : (pure a : P (Nat × β) α).alone = pure a := rfl
theorem alone_lift (o : Out α) : (P.lift o : P (Nat × β) α).alone = M.lift o := rfl
theorem alone_ub (r : UB) : (P.ub r : P (Nat × β) α).alone = M.ub r := rfl
theorem alone_out (o : Out α) : (P.out o : P (Nat × β) α).alone = M.out o := rfl
theorem alone_throw : (P.throwOOD : P (Nat × β) α).alone = M.throwOOD := rfl
theorem alone_doB (m : M β α) : (P.doB m).alone = doB m := rfl
theorem alone_tick : (P.tick : P (Nat × β) Unit).alone = tickW := rfl

theorem alone_bind (m : P (Nat × β) α) (f : α → P (Nat × β) γ) : (m >>= f).alone = m.alone >>= fun a => (f a).alone := by
  funext w
  rw [M.bind_apply]
  show (let r := (P.bind m f (w.1, w.2.2)).run w.2.1; (r.1.1, (r.1.2.1, (r.2, r.1.2.2)))) = _
  unfold P.bind
  rw [Prog.run_bind]
  unfold P.alone
  rcases (m (w.1, w.2.2)).run w.2.1 with ⟨⟨o, b⟩, fl⟩
  cases o <;> rfl

theorem alone_ite {c : Prop} [Decidable c] (x y : P (Nat × β) α) :
    (if c then x else y).alone = if c then x.alone else y.alone := by
  split <;> rfl

theorem askW_pure (a : α) : askW (β := β) (pure a : CM α) = pure a := rfl
theorem askW_lift (o : Out α) : askW (β := β) (M.lift o : CM α) = M.lift o := rfl
theorem askW_ub (r : UB) : askW (β := β) (M.ub r : CM α) = M.ub r := rfl
theorem askW_out (o : Out α) : askW (β := β) (M.out o : CM α) = M.out o := rfl
theorem askW_tick : askW (β := β) tick = tickW := rfl

theorem askW_bind' (m : CM α) (f : α → CM γ) : askW (β := β) (m >>= f) = askW m >>= fun a => askW (f a) := by
  funext w
  rw [M.bind_apply]
  unfold askW
  simp only [M.bind_apply]
  rcases m (w.2.1, w.1) with ⟨o, s⟩
  cases o <;> rfl

theorem askW_ite {c : Prop} [Decidable c] (x y : CM α) : askW (β := β) (if c then x else y) = if c then askW x else askW y := by
  split <;> rfl

theorem alone_writeIn (i : Id) (v : Bool) : (P.write (σ := Nat × β) i .inRec v).alone = askW (modFlagsC (·.setIn i v)) := rfl

theorem alone_readIn (i : Id) (f : Bool → P (Nat × β) γ) (w : Nat × (Flags × β)) :
    (P.read i .inRec >>= f).alone w = (f (w.2.1 i).inRec).alone w := rfl

theorem alone_readRec (i : Id) (f : Bool → P (Nat × β) γ) (w : Nat × (Flags × β)) :
    (P.read i .isRec >>= f).alone w = (f (w.2.1 i).isRec).alone w := rfl

theorem askW_get (f : Flags × Nat → CM γ) (w : Nat × (Flags × β)) : askW (β := β) (M.get >>= f) w = askW (f (w.2.1, w.1)) w := rfl

variable {qp : Sel → Id → P (Nat × β) Int} {q : Sel → Id → CM Int}

theorem askFixed_alone (h : ∀ sel i, (qp sel i).alone = askW (q sel i)) (i : Id) :
    (askFixedP qp i).alone = askW (askFixed q i) := by
  unfold askFixedP askFixed
  simp only [alone_bind, askW_bind', h, alone_pure, askW_pure]

theorem askUnb_alone (h : ∀ sel i, (qp sel i).alone = askW (q sel i)) (i : Id) :
    (askUnbP qp i).alone = askW (askUnb q i) := by
  unfold askUnbP askUnb
  simp only [alone_bind, askW_bind', h, alone_pure, askW_pure]

theorem askVar_alone (h : ∀ sel i, (qp sel i).alone = askW (q sel i)) (i : Id) :
    (askVarP qp i).alone = askW (askVar q i) := by
  unfold askVarP askVar
  simp only [alone_bind, askW_bind', askFixed_alone h, askUnb_alone h, alone_pure, askW_pure, alone_ite, askW_ite]

theorem vecMin_alone (h : ∀ sel i, (qp sel i).alone = askW (q sel i)) (i : Id) :
    (vecMinP qp i).alone = askW (vecMinC q i) := by
  unfold vecMinP vecMinC
  simp only [alone_bind, askW_bind', askFixed_alone h, askUnb_alone h, h, alone_pure, askW_pure, alone_ite, askW_ite]

theorem setMin_alone (h : ∀ sel i, (qp sel i).alone = askW (q sel i)) :
    ∀ l a b c, (setMinP qp l a b c).alone = askW (setMinC q l a b c)
  | [], _, _, _ => rfl
  | i :: l, a, b, c => by
    unfold setMinP setMinC
    simp only [alone_bind, askW_bind', askVar_alone h, askUnb_alone h, h, alone_lift, askW_lift, setMin_alone h l]

theorem setMax_alone (h : ∀ sel i, (qp sel i).alone = askW (q sel i)) :
    ∀ l a, (setMaxP qp l a).alone = askW (setMaxC q l a)
  | [], _ => rfl
  | i :: l, a => by
    unfold setMaxP setMaxC
    simp only [alone_bind, askW_bind', askVar_alone h, askUnb_alone h, h, alone_lift, askW_lift, setMax_alone h l, alone_ite,
      askW_ite, alone_pure, askW_pure]

theorem sum_alone (h : ∀ sel i, (qp sel i).alone = askW (q sel i)) (sel : Sel) :
    ∀ l a, (sumP qp sel l a).alone = askW (sumC q sel l a)
  | [], _ => rfl
  | i :: l, a => by
    unfold sumP sumC
    simp only [alone_bind, askW_bind', h, alone_lift, askW_lift, sum_alone h sel l]

theorem pickMin_alone (h : ∀ sel i, (qp sel i).alone = askW (q sel i)) :
    ∀ l a, (pickMinP qp l a).alone = askW (pickMinC q l a)
  | [], _ => rfl
  | i :: l, a => by
    unfold pickMinP pickMinC
    simp only [alone_bind, askW_bind', h, pickMin_alone h l]

theorem pickMax_alone (h : ∀ sel i, (qp sel i).alone = askW (q sel i)) :
    ∀ l a, (pickMaxP qp l a).alone = askW (pickMaxC q l a)
  | [], _ => rfl
  | i :: l, a => by
    unfold pickMaxP pickMaxC
    simp only [alone_bind, askW_bind', h, pickMax_alone h l, alone_ite, askW_ite, alone_pure, askW_pure]

theorem sizeP_alone (G : Graph) : ∀ (n : Nat) (sel : Sel) (i : Id),
    (sizeP (β := β) G n sel i).alone = askW (sizeC G n sel i)
  | 0, _, _ => rfl
  | n + 1, sel, i => by
    have ih := sizeP_alone G n
    unfold sizeP sizeC
    rw [alone_bind, askW_bind', alone_tick, askW_tick]
    refine congrArg _ (funext fun _ => ?_)
    cases hG : G i with
    | none => rfl
    | some nd =>
      cases nd with
      | arith t => rfl
      | dict ws => rfl
      | jsonStr => rfl
      | latin1 => rfl
      | ascii => rfl
      | user u => rfl
      | vec c join =>
        cases sel
        · exact vecMin_alone ih c
        · rfl
      | set cs join unb =>
        cases sel <;> cases unb
        · exact setMin_alone ih ..
        · exact setMin_alone ih ..
        · exact setMax_alone ih ..
        · rfl
      | seq cs join unb =>
        cases sel <;> cases unb
        · exact sum_alone ih ..
        · exact sum_alone ih ..
        · exact sum_alone ih ..
        · rfl
      | unary op c =>
        cases sel
        · exact ih _ _
        · rfl
      | lottery rec4 l w smin smax =>
        cases sel
        · rfl
        · simp only [alone_ite, askW_ite, alone_pure, askW_pure, alone_lift, askW_lift]
      | picker pool =>
        cases sel
        · funext s
          simp only [alone_readIn, askW_get]
          by_cases hin : (s.2.1 i).inRec = true
          · rw [if_pos hin, if_pos hin]; rfl
          · rw [if_neg hin, if_neg hin]
            simp only [alone_bind, askW_bind', alone_writeIn, pickMin_alone ih, alone_ite, askW_ite, alone_pure, askW_pure]
        · funext s
          simp only [alone_readRec, askW_get]
          by_cases hr : (s.2.1 i).isRec = true
          · rw [if_pos hr, hr, Bool.true_or, if_pos rfl]; rfl
          · rw [if_neg hr, Bool.eq_false_iff.2 hr, Bool.false_or]
            simp only [alone_readIn]
            by_cases hin : (s.2.1 i).inRec = true
            · rw [if_pos hin, if_pos hin]; rfl
            · rw [if_neg hin, if_neg hin]
              simp only [alone_bind, askW_bind', alone_writeIn, pickMax_alone ih]
              refine congrFun ?_ s
              congr 1
              funext _
              congr 1
              funext r
              congr 1
              funext _
              cases r <;> rfl

/-- `isRecursive()` has no calls to count. -/
def askRec {α : Type} (m : M Flags α) : WM β α := fun w =>
  let r := m w.2.1
  (r.1, (w.1, (r.2, w.2.2)))

theorem askRec_bind (m : M Flags α) (f : α → M Flags γ) : askRec (β := β) (m >>= f) = askRec m >>= fun a => askRec (f a) := by
  funext w
  rw [M.bind_apply]
  unfold askRec
  simp only [M.bind_apply]
  rcases m w.2.1 with ⟨o, s⟩
  cases o <;> rfl

theorem askRec_ite {c : Prop} [Decidable c] (x y : M Flags α) :
    askRec (β := β) (if c then x else y) = if c then askRec x else askRec y := by
  split <;> rfl

theorem askRec_get (f : Flags → M Flags γ) (w : Nat × (Flags × β)) : askRec (β := β) (M.get >>= f) w = askRec (f w.2.1) w := rfl
theorem askRec_pure (a : α) : askRec (β := β) (pure a : M Flags α) = pure a := rfl
theorem alone_writeIn' (i : Id) (v : Bool) : (P.write (σ := Nat × β) i .inRec v).alone = askRec (modFlags (·.setIn i v)) := rfl

theorem isRecLoop_alone {qp : Id → P (Nat × β) Bool} {q : Id → M Flags Bool} (h : ∀ i, (qp i).alone = askRec (q i)) :
    ∀ l, (isRecLoopP qp l).alone = askRec (isRecLoop q l)
  | [] => rfl
  | i :: l => by
    unfold isRecLoopP isRecLoop
    simp only [alone_bind, askRec_bind, h, isRecLoop_alone h l, alone_ite, askRec_ite, alone_pure, askRec_pure]

theorem isRecP_alone (G : Graph) : ∀ (n : Nat) (i : Id), (isRecP (β := β) G n i).alone = askRec (isRecQ G n i)
  | 0, _ => rfl
  | n + 1, i => by
    have ih := isRecP_alone G n
    unfold isRecP isRecQ
    cases hG : G i with
    | none => rfl
    | some nd =>
      cases nd with
      | picker pool =>
        funext s
        simp only [alone_readRec, askRec_get]
        by_cases hr : (s.2.1 i).isRec = true
        · rw [if_pos hr, hr, Bool.true_or, if_pos rfl]; rfl
        · rw [if_neg hr, Bool.eq_false_iff.2 hr, Bool.false_or]
          simp only [alone_readIn]
          by_cases hin : (s.2.1 i).inRec = true
          · rw [if_pos hin, if_pos hin]; rfl
          · rw [if_neg hin, if_neg hin]
            simp only [alone_bind, askRec_bind, alone_writeIn', isRecLoop_alone ih]
            refine congrFun ?_ s
            congr 1
            funext _
            congr 1
            funext r
            cases r <;> rfl
      | _ => rfl

/-! ### Extraction -/

theorem unbChopLoop_alone (h : ∀ sel i, (qp sel i).alone = askW (q sel i)) (c : Id) (t v : Int) :
    ∀ l r, (unbChopLoopP qp c t v l r).alone = unbChopLoopA q c t v l r
  | [], _ => rfl
  | o :: l, r => by
    unfold unbChopLoopP unbChopLoopA
    simp only [alone_bind, h, alone_lift, alone_doB, unbChopLoop_alone h c t v l, alone_pure]

theorem vecUnbounded_alone (h : ∀ sel i, (qp sel i).alone = askW (q sel i)) (c : Id) :
    (vecUnboundedP qp c).alone = vecUnboundedA q c := by
  unfold vecUnboundedP vecUnboundedA
  simp only [alone_bind, h, alone_lift, alone_doB, unbChopLoop_alone h, alone_ite, alone_ub]

theorem variatedLoop_alone (h : ∀ sel i, (qp sel i).alone = askW (q sel i)) (c : Id) :
    ∀ n, (variatedLoopP qp c n).alone = variatedLoopA q c n
  | 0 => rfl
  | n + 1 => by
    unfold variatedLoopP variatedLoopA
    simp only [alone_bind, h, alone_lift, alone_doB, alone_ite, variatedLoop_alone h c n, alone_pure]

theorem vecSplit_alone (h : ∀ sel i, (qp sel i).alone = askW (q sel i)) (n : Nat) (c : Id) :
    (vecSplitP n qp c).alone = vecSplitA n q c := by
  unfold vecSplitP vecSplitA
  simp only [alone_bind, h, alone_lift, alone_doB, alone_ite, variatedLoop_alone h, vecUnbounded_alone h, alone_throw,
    askFixed_alone h, askUnb_alone h]

theorem setAddVar_alone (h : ∀ sel i, (qp sel i).alone = askW (q sel i)) (i : Id) (v : Bool) (s : Int) :
    (setAddVarP qp i v s).alone = setAddVarA q i v s := by
  unfold setAddVarP setAddVarA
  simp only [alone_bind, h, alone_lift, alone_ite, alone_pure]

theorem setTotals_alone (h : ∀ sel i, (qp sel i).alone = askW (q sel i)) :
    ∀ l t, (setTotalsP qp l t).alone = setTotalsA q l t
  | [], _ => rfl
  | i :: l, t => by
    unfold setTotalsP setTotalsA
    simp only [alone_bind, h, alone_lift, askVar_alone h, askUnb_alone h, setAddVar_alone h, setTotals_alone h l]

theorem setModifier_alone (n : Nat) (u : Bool) : (setModifierP (β := β) n u).alone = setModifierA n u := by
  unfold setModifierP setModifierA
  simp only [alone_bind, alone_ite, alone_doB, alone_pure]

theorem setModLoop_alone (h : ∀ sel i, (qp sel i).alone = askW (q sel i)) (n : Nat) :
    ∀ l a b, (setModLoopP qp n l a b).alone = setModLoopA q n l a b
  | [], _, _ => rfl
  | i :: l, a, b => by
    unfold setModLoopP setModLoopA
    simp only [alone_bind, h, alone_lift, askFixed_alone h, askUnb_alone h, setModifier_alone, setModLoop_alone h n l,
      alone_ite, alone_pure]

theorem setModFix_alone (h : ∀ sel i, (qp sel i).alone = askW (q sel i)) :
    ∀ l ms a, (setModFixP qp l ms a).alone = setModFixA q l ms a
  | [], _, _ => rfl
  | _ :: _, [], _ => rfl
  | i :: l, m :: ms, a => by
    unfold setModFixP setModFixA
    simp only [alone_bind, askUnb_alone h, setModFix_alone h l, alone_ite, alone_pure]

theorem setElFixed_alone (h : ∀ sel i, (qp sel i).alone = askW (q sel i)) (i : Id) :
    (setElFixedP qp i).alone = setElFixedA q i := by
  unfold setElFixedP setElFixedA
  simp only [alone_bind, h, askFixed_alone h, alone_ite, alone_pure]

theorem setElVar_alone (h : ∀ sel i, (qp sel i).alone = askW (q sel i)) (i : Id) (m k v : FV) (e : Int) :
    (setElVarP qp i m k v e).alone = setElVarA q i m k v e := by
  unfold setElVarP setElVarA
  simp only [alone_bind, h, askVar_alone h, alone_ite, alone_pure, alone_lift]

theorem setElUnb_alone (h : ∀ sel i, (qp sel i).alone = askW (q sel i)) (i : Id) (m k v : FV) (e : Int) :
    (setElUnbP qp i m k v e).alone = setElUnbA q i m k v e := by
  unfold setElUnbP setElUnbA
  simp only [alone_bind, h, askUnb_alone h, alone_ite, alone_pure, alone_lift]

theorem setChopLoop_alone (h : ∀ sel i, (qp sel i).alone = askW (q sel i)) (k u : FV) :
    ∀ l ms a b, (setChopLoopP qp k u l ms a b).alone = setChopLoopA q k u l ms a b
  | [], _, _, _ => rfl
  | _ :: _, [], _, _ => rfl
  | i :: l, m :: ms, a, b => by
    unfold setChopLoopP setChopLoopA
    simp only [alone_bind, setElFixed_alone h, setElVar_alone h, setElUnb_alone h, setChopLoop_alone h k u l, alone_doB,
      alone_pure]

theorem setMods_alone (h : ∀ sel i, (qp sel i).alone = askW (q sel i)) (cs : List Id) (r : SetMods) :
    (setModsP qp cs r).alone = setModsA q cs r := by
  unfold setModsP setModsA
  simp only [alone_ite, setModFix_alone h, alone_pure]

theorem setSplit_alone (h : ∀ sel i, (qp sel i).alone = askW (q sel i)) (cs : List Id) :
    (setSplitP qp cs).alone = setSplitA q cs := by
  unfold setSplitP setSplitA
  simp only [alone_bind, setTotals_alone h, setModLoop_alone h, setMods_alone h, setChopLoop_alone h, alone_doB, alone_lift,
    alone_ite, alone_throw]

theorem takesAll_alone (h : ∀ sel i, (qp sel i).alone = askW (q sel i)) (i : Id) (z : Nat) :
    (takesAllP qp i z).alone = takesAllA q i z := by
  unfold takesAllP takesAllA
  simp only [alone_bind, askUnb_alone h, h, alone_ite, alone_pure]

theorem pickFilter_alone (h : ∀ sel i, (qp sel i).alone = askW (q sel i)) : ∀ l, (pickFilterP qp l).alone = pickFilterA q l
  | [] => rfl
  | i :: l => by
    unfold pickFilterP pickFilterA
    simp only [alone_bind, h, takesAll_alone h, alone_doB, alone_ite, pickFilter_alone h l, alone_pure]

theorem softFilter_alone (h : ∀ sel i, (qp sel i).alone = askW (q sel i)) (rec4 : Bool) (i : Id) (d : Int) :
    (softFilterP rec4 qp i d).alone = softFilterA rec4 q i d := by
  unfold softFilterP softFilterA
  simp only [alone_bind, askUnb_alone h, h, alone_ite, alone_pure, alone_lift]

theorem lotFilter_alone (h : ∀ sel i, (qp sel i).alone = askW (q sel i)) (rec4 : Bool) :
    ∀ l, (lotFilterP rec4 qp l).alone = lotFilterA rec4 q l
  | [] => rfl
  | i :: l => by
    unfold lotFilterP lotFilterA
    simp only [alone_bind, h, softFilter_alone h, alone_doB, alone_ite, lotFilter_alone h rec4 l, alone_pure]

theorem lotAgain_alone (h : ∀ sel i, (qp sel i).alone = askW (q sel i)) (l l' : List Id) :
    (lotAgainP qp l l').alone = lotAgainA q l l' := by
  unfold lotAgainP lotAgainA
  simp only [alone_ite, lotFilter_alone h, alone_pure]

theorem alone_on (c : β) (m : P (Nat × β) α) : (P.onBlob c m).alone = onBlobW c m.alone := by
  funext s
  show (let r := ((m (s.1, c)).bind fun r => Prog.ret (r.1, (r.2.1, s.2.2))).run s.2.1; (r.1.1, (r.1.2.1, (r.2, r.1.2.2)))) = _
  rw [Prog.run_bind]
  rfl

theorem extractEach_alone {ep : Id → P (Nat × β) Bytes} {e : Id → WM β Bytes} (h : ∀ i, (ep i).alone = e i) :
    ∀ (l : List (Id × β)) k, (extractEachP ep k l).alone = extractEachW e k l
  | [], _ => rfl
  | (i, c) :: l, k => by
    unfold extractEachP extractEachW
    simp only [alone_bind, alone_on, h, extractEach_alone h l, alone_lift, alone_pure]

theorem extractSeq_alone {ep : Id → P (Nat × β) Bytes} {e : Id → WM β Bytes} (h : ∀ i, (ep i).alone = e i) :
    ∀ l, (extractSeqP ep l).alone = extractSeqW e l
  | [] => rfl
  | i :: l => by
    unfold extractSeqP extractSeqW
    simp only [alone_bind, h, extractSeq_alone h l, alone_pure]

theorem liftB_bind' (m : M β α) (f : α → M β γ) : liftB (m >>= f) = liftB m >>= fun a => liftB (f a) := by
  funext s
  rw [M.bind_apply]
  unfold liftB
  simp only [M.bind_apply]
  rcases m s.2 with ⟨o, b⟩
  cases o <;> rfl

/-- What a thread does with its own blob in a client's stamp. -/
def viewOwn : M β Bytes := fun b => (view b, b)
def blobSize : M β Nat := fun b => (.ok (size b), b)
def userOwn (u : UserStamp) : M β Bytes := do
  let v ← viewOwn
  let sz ← blobSize
  let _ ← chop (min (u.behave v).2 sz)
  M.lift (u.behave v).1

theorem userOwn_lift (u : UserStamp) : liftB (β := β) (userOwn u) = (do
    let v ← liftB viewOwn
    let sz ← curSize
    let _ ← liftB (chop (min (u.behave v).2 sz))
    M.lift (u.behave v).1) := by
  unfold userOwn
  simp only [liftB_bind']
  rfl

/-- Something done with the blob alone has nothing to do with the members. -/
theorem alone_plain {m : XM β α} {m' : M β α} (h : m = liftB m') : (P.plain m).alone = liftW m := by
  subst h
  rfl

theorem extractP_alone (G : Graph) : ∀ (n : Nat) (i : Id), (extractP (β := β) G n i).alone = extractA G n i
  | 0, _ => rfl
  | n + 1, i => by
    have ih := extractP_alone G n
    have hs := sizeP_alone (β := β) G n
    unfold extractP extractA
    rw [alone_bind, alone_tick]
    refine congrArg _ (funext fun _ => ?_)
    cases hG : G i with
    | none => rfl
    | some nd =>
      cases nd with
      | arith t => exact alone_plain (m' := extractArithStr t) (by unfold extract; rw [hG])
      | dict ws => exact alone_plain (m' := extractDict ws) (by unfold extract; rw [hG])
      | jsonStr => exact alone_plain (m' := extractJsonStr) (by unfold extract; rw [hG])
      | latin1 => exact alone_plain (m' := extractText latin1Char) (by unfold extract; rw [hG])
      | ascii => exact alone_plain (m' := extractText asciiChar) (by unfold extract; rw [hG])
      | user u =>
        refine alone_plain (m' := userOwn u) ?_
        unfold extract
        rw [hG]
        refine Eq.trans ?_ (userOwn_lift u).symm
        rfl
      | vec c join => simp only [alone_bind, vecSplit_alone hs, extractEach_alone ih, alone_pure]
      | set cs join unb => simp only [alone_bind, setSplit_alone hs, extractEach_alone ih, alone_pure]
      | seq cs join unb => simp only [alone_bind, extractSeq_alone ih, alone_pure]
      | unary op c => simp only [alone_bind, ih, alone_pure]
      | lottery rec4 l w smin smax =>
        simp only [alone_bind, alone_doB, lotFilter_alone hs, lotAgain_alone hs, alone_ite, alone_throw, alone_lift, ih]
      | picker pool =>
        simp only [alone_bind, alone_doB, pickFilter_alone hs, alone_ite, alone_throw, alone_lift, ih,
          sizeP_alone G (n + 1), alone_out]

end

/-! ## What a thread has access to -/

/-- All accesses are to objects in `A`, and the result meets `Q`. -/
inductive Prog.Within {α : Type} (A : Id → Prop) (Q : α → Prop) : Prog α → Prop where
  | ret {a : α} (h : Q a) : Within A Q (.ret a)
  | read {i : Id} {m : Member} {k : Bool → Prog α} (hi : A i) (h : ∀ v, Within A Q (k v)) : Within A Q (.read i m k)
  | write {i : Id} {m : Member} {v : Bool} {k : Prog α} (hi : A i) (h : Within A Q k) : Within A Q (.write i m v k)

theorem Prog.Within.bind {α γ : Type} {A : Id → Prop} {Q : α → Prop} {R : γ → Prop} {p : Prog α} {f : α → Prog γ}
    (h : p.Within A Q) (hf : ∀ a, Q a → (f a).Within A R) : (p.bind f).Within A R := by
  induction h with
  | ret h => exact hf _ h
  | read hi _ ih => exact .read hi ih
  | write hi _ ih => exact .write hi ih

/-- The same for what a thread does; a normal result meets `Q`. -/
def P.Within {σ α : Type} (A : Id → Prop) (Q : α → Prop) (p : P σ α) : Prop :=
  ∀ s, (p s).Within A fun r => ∀ a, r.1 = .ok a → Q a

section
variable {σ α γ : Type} {A : Id → Prop} {Q : α → Prop} {R : γ → Prop}

theorem P.Within.bind {p : P σ α} {f : α → P σ γ} (h : p.Within A Q) (hf : ∀ a, Q a → (f a).Within A R) :
    (p >>= f).Within A R := by
  intro s
  refine (h s).bind fun r hr => ?_
  obtain ⟨o, s'⟩ := r
  cases o with
  | ok a => exact hf a (hr a rfl) s'
  | outOfData => exact .ret fun a h => nomatch h
  | ub r => exact .ret fun a h => nomatch h
  | abort => exact .ret fun a h => nomatch h
  | fuel => exact .ret fun a h => nomatch h

theorem Prog.Within.mono {p : Prog α} {Q' : α → Prop} (h : p.Within A Q) (hq : ∀ a, Q a → Q' a) : p.Within A Q' := by
  induction h with
  | ret h => exact .ret (hq _ h)
  | read hi _ ih => exact .read hi ih
  | write hi _ ih => exact .write hi ih

theorem P.Within.mono {p : P σ α} {Q' : α → Prop} (h : p.Within A Q) (hq : ∀ a, Q a → Q' a) : p.Within A Q' :=
  fun s => (h s).mono fun _ hr a ha => hq a (hr a ha)

theorem P.within_pure {a : α} (h : Q a) : (pure a : P σ α).Within A Q :=
  fun _ => .ret fun b hb => by cases hb; exact h

theorem P.within_own {m : M σ α} (h : ∀ s a, (m s).1 = .ok a → Q a) : (P.own m).Within A Q := fun s => .ret (h s)

theorem P.within_own' {m : M σ α} : (P.own m).Within A fun _ => True := fun _ => .ret fun _ _ => trivial

theorem P.within_read {i : Id} {m : Member} (h : A i) : (P.read (σ := σ) i m).Within A fun _ => True :=
  fun _ => .read h fun _ => .ret fun _ _ => trivial

theorem P.within_write {i : Id} {m : Member} {v : Bool} (h : A i) : (P.write (σ := σ) i m v).Within A fun _ => True :=
  fun _ => .write h (.ret fun _ _ => trivial)

theorem P.within_on {β : Type} {c : β} {m : P (Nat × β) α} (h : m.Within A Q) : (P.onBlob c m).Within A Q :=
  fun s => (h (s.1, c)).bind fun _ hr => .ret hr

theorem P.within_ite {c : Prop} [Decidable c] {x y : P σ α} (h : x.Within A Q) (h' : y.Within A Q) :
    (if c then x else y).Within A Q := by
  split
  · exact h
  · exact h'

end

section
variable {σ : Type} {A : Id → Prop}

/-- Access to objects in `A` only, whatever comes out. -/
abbrev P.In {α : Type} (A : Id → Prop) (p : P σ α) : Prop := p.Within A fun _ => True

theorem P.In.then {α γ : Type} {R : γ → Prop} {p : P σ α} {f : α → P σ γ} (h : p.In A) (hf : ∀ a, (f a).Within A R) :
    (p >>= f).Within A R := P.Within.bind h fun a _ => hf a

/-- The steps that every such proof is made of. -/
macro "inside" : tactic => `(tactic|
  repeat' first
  | assumption
  | exact P.within_pure trivial
  | exact P.within_own'
  | refine P.within_ite ?_ ?_
  | refine P.In.then ?_ fun _ => ?_)

variable {β : Type} {q : Sel → Id → P (Nat × β) Int}

theorem askFixed_in {i : Id} (h : ∀ sel, (q sel i).In A) : (askFixedP q i).In A := by
  have h1 := h .min
  have h2 := h .max
  unfold askFixedP
  inside

theorem askUnb_in {i : Id} (h : ∀ sel, (q sel i).In A) : (askUnbP q i).In A := by
  have h2 := h .max
  unfold askUnbP
  inside

theorem askVar_in {i : Id} (h : ∀ sel, (q sel i).In A) : (askVarP q i).In A := by
  have h1 := askFixed_in h
  have h2 := askUnb_in h
  unfold askVarP
  inside

theorem vecMin_in {i : Id} (h : ∀ sel, (q sel i).In A) : (vecMinP q i).In A := by
  have h1 := askFixed_in h
  have h2 := askUnb_in h
  have h3 := h .min
  unfold vecMinP
  inside

theorem setMin_in : ∀ (l : List Id) (a : Int) (b c : Nat), (∀ i ∈ l, ∀ sel, (q sel i).In A) → (setMinP q l a b c).In A
  | [], _, _, _, _ => P.within_pure trivial
  | i :: l, a, b, c, h => by
    have h1 := askVar_in (h i (by simp))
    have h2 := askUnb_in (h i (by simp))
    have h3 := h i (by simp) .min
    have ih := fun a b c => setMin_in l a b c fun j hj => h j (by simp [hj])
    unfold setMinP
    refine h3.then fun _ => P.In.then P.within_own' fun _ => h1.then fun _ => h2.then fun _ => ih _ _ _

theorem setMax_in : ∀ (l : List Id) (a : Int), (∀ i ∈ l, ∀ sel, (q sel i).In A) → (setMaxP q l a).In A
  | [], _, _ => P.within_pure trivial
  | i :: l, a, h => by
    have h1 := askVar_in (h i (by simp))
    have h2 := askUnb_in (h i (by simp))
    have h3 := h i (by simp) .max
    have ih := fun a => setMax_in l a fun j hj => h j (by simp [hj])
    unfold setMaxP
    exact h3.then fun _ => P.In.then P.within_own' fun _ => h1.then fun _ => h2.then fun _ =>
      P.within_ite (P.within_pure trivial) (ih _)

theorem sum_in (sel : Sel) : ∀ (l : List Id) (a : Int), (∀ i ∈ l, ∀ sel, (q sel i).In A) → (sumP q sel l a).In A
  | [], _, _ => P.within_pure trivial
  | i :: l, a, h => (h i (by simp) sel).then fun _ => P.In.then P.within_own' fun _ =>
    sum_in sel l _ fun j hj => h j (by simp [hj])

theorem pickMin_in : ∀ (l : List Id) (r : Int), (∀ i ∈ l, ∀ sel, (q sel i).In A) → (pickMinP q l r).In A
  | [], _, _ => P.within_pure trivial
  | i :: l, r, h => (h i (by simp) _).then fun _ => pickMin_in l _ fun j hj => h j (by simp [hj])

theorem pickMax_in : ∀ (l : List Id) (r : Int), (∀ i ∈ l, ∀ sel, (q sel i).In A) → (pickMaxP q l r).In A
  | [], _, _ => P.within_pure trivial
  | i :: l, r, h => (h i (by simp) _).then fun _ =>
    P.within_ite (P.within_pure trivial) (pickMax_in l _ fun j hj => h j (by simp [hj]))

theorem isRecLoop_in {q : Id → P (Nat × β) Bool} : ∀ (l : List Id), (∀ i ∈ l, (q i).In A) → (isRecLoopP q l).In A
  | [], _ => P.within_pure trivial
  | i :: l, h => (h i (by simp)).then fun _ =>
    P.within_ite (P.within_pure trivial) (isRecLoop_in l fun j hj => h j (by simp [hj]))

/-- `A` contains every pool picker that can be reached from `i`. -/
def PickerCover (G : Graph) (A : Id → Prop) (i : Id) : Prop := ∀ k, PickerBelow G i k → A k

theorem PickerCover.kid {G : Graph} {i j : Id} {nd : Node} (h : PickerCover G A i) (hG : G i = some nd)
    (hj : j ∈ nd.plainKids ∨ j ∈ nd.choices) : PickerCover G A j :=
  fun k hk => h k ⟨.head ⟨nd, hG, hj⟩ hk.1, hk.2⟩

theorem PickerCover.self {G : Graph} {i : Id} {pool : List Id} (h : PickerCover G A i) (hG : G i = some (.picker pool)) : A i :=
  h i ⟨.refl, pool, hG⟩

theorem sizeP_in (G : Graph) : ∀ (n : Nat) (sel : Sel) (i : Id), PickerCover G A i → (sizeP (β := β) G n sel i).In A
  | 0, _, _, _ => P.within_own'
  | n + 1, sel, i, hc => by
    have ih := sizeP_in G n
    unfold sizeP
    refine P.In.then P.within_own' fun _ => ?_
    cases hG : G i with
    | none => exact P.within_own'
    | some nd =>
      cases nd with
      | arith t => exact P.within_pure trivial
      | dict ws => exact P.within_pure trivial
      | jsonStr => exact P.within_pure trivial
      | latin1 => exact P.within_pure trivial
      | ascii => exact P.within_pure trivial
      | user u => exact P.within_pure trivial
      | vec c join =>
        have hk := hc.kid hG (.inl (List.mem_singleton.2 rfl) : c ∈ [c] ∨ _)
        cases sel
        · exact vecMin_in fun sel => ih sel _ hk
        · exact P.within_pure trivial
      | set cs join unb =>
        have hk : ∀ j ∈ cs, ∀ sel, (sizeP (β := β) G n sel j).In A := fun j hj sel => ih _ _ (hc.kid hG (.inl hj))
        cases sel <;> cases unb
        · exact setMin_in _ _ _ _ hk
        · exact setMin_in _ _ _ _ hk
        · exact setMax_in _ _ hk
        · exact P.within_pure trivial
      | seq cs join unb =>
        have hk : ∀ j ∈ cs, ∀ sel, (sizeP (β := β) G n sel j).In A := fun j hj sel => ih _ _ (hc.kid hG (.inl hj))
        cases sel <;> cases unb
        · exact sum_in _ _ _ hk
        · exact sum_in _ _ _ hk
        · exact sum_in _ _ _ hk
        · exact P.within_pure trivial
      | unary op c =>
        have hk := hc.kid hG (.inl (List.mem_singleton.2 rfl) : c ∈ [c] ∨ _)
        cases sel
        · exact ih _ _ hk
        · exact P.within_pure trivial
      | lottery rec4 l w smin smax =>
        cases sel
        · exact P.within_own'
        · exact P.within_ite (P.within_pure trivial) P.within_own'
      | picker pool =>
        have hi := hc.self hG
        have hk : ∀ j ∈ pool, ∀ sel, (sizeP (β := β) G n sel j).In A := fun j hj sel => ih _ _ (hc.kid hG (.inr hj))
        cases sel
        · refine P.In.then (P.within_read hi) fun _ => P.within_ite (P.within_pure trivial) ?_
          refine P.In.then (P.within_write hi) fun _ => ?_
          refine (pickMin_in pool _ hk).then fun _ => ?_
          exact P.In.then (P.within_write hi) fun _ => P.within_ite (P.within_pure trivial) (P.within_pure trivial)
        · refine P.In.then (P.within_read hi) fun _ => P.within_ite (P.within_pure trivial) ?_
          refine P.In.then (P.within_read hi) fun _ => P.within_ite (P.within_pure trivial) ?_
          refine P.In.then (P.within_write hi) fun _ => ?_
          refine (pickMax_in pool _ hk).then fun r => ?_
          refine P.In.then (P.within_write hi) fun _ => ?_
          cases r
          · exact P.within_pure trivial
          · exact P.within_pure trivial

theorem isRecP_in (G : Graph) : ∀ (n : Nat) (i : Id), PickerCover G A i → (isRecP (β := β) G n i).In A
  | 0, _, _ => P.within_own'
  | n + 1, i, hc => by
    have ih := isRecP_in G n
    unfold isRecP
    cases hG : G i with
    | none => exact P.within_own'
    | some nd =>
      cases nd with
      | picker pool =>
        have hi := hc.self hG
        refine P.In.then (P.within_read hi) fun _ => P.within_ite (P.within_pure trivial) ?_
        refine P.In.then (P.within_read hi) fun _ => P.within_ite (P.within_pure trivial) ?_
        refine P.In.then (P.within_write hi) fun _ => ?_
        refine (isRecLoop_in pool fun j hj => ih _ (hc.kid hG (.inr hj))).then fun r => ?_
        refine P.within_ite ?_ ?_
        · exact P.In.then (P.within_write hi) fun _ => P.In.then (P.within_write hi) fun _ => P.within_pure trivial
        · exact P.In.then (P.within_write hi) fun _ => P.within_pure trivial
      | _ => exact P.within_pure trivial

end

section
variable {β : Type} [BlobLike β] {A : Id → Prop} {q : Sel → Id → P (Nat × β) Int}

theorem unbChopLoop_in {c : Id} (h : ∀ sel, (q sel c).In A) (t v : Int) : ∀ l r, (unbChopLoopP q c t v l r).In A
  | [], _ => P.within_pure trivial
  | o :: l, r => by
    have h1 := h .min
    have ih := unbChopLoop_in h t v l
    unfold unbChopLoopP
    exact h1.then fun _ => P.In.then P.within_own' fun _ => P.In.then P.within_own' fun _ => (ih _).then fun _ =>
      P.within_pure trivial

theorem vecUnbounded_in {c : Id} (h : ∀ sel, (q sel c).In A) : (vecUnboundedP q c).In A := by
  have h1 := h .min
  have h2 := unbChopLoop_in h
  unfold vecUnboundedP
  refine P.In.then P.within_own' fun _ => h1.then fun _ => P.within_ite P.within_own' ?_
  refine P.In.then P.within_own' fun _ => P.In.then P.within_own' fun x => ?_
  refine P.In.then P.within_own' fun _ => h1.then fun _ => P.In.then P.within_own' fun _ => P.In.then P.within_own' fun _ => ?_
  exact h2 _ _ _ _

theorem variatedLoop_in {c : Id} (h : ∀ sel, (q sel c).In A) : ∀ n, (variatedLoopP q c n).In A
  | 0 => P.within_own'
  | n + 1 => by
    have h1 := h .min
    have h2 := h .max
    have ih := variatedLoop_in h n
    unfold variatedLoopP
    inside

theorem vecSplit_in {c : Id} (h : ∀ sel, (q sel c).In A) (n : Nat) : (vecSplitP n q c).In A := by
  have h1 := h .min
  have h2 := h .max
  have h3 := askFixed_in h
  have h4 := askUnb_in h
  have h5 := vecUnbounded_in h
  have h6 := variatedLoop_in h n
  unfold vecSplitP
  inside

theorem setAddVar_in {i : Id} (h : ∀ sel, (q sel i).In A) (v : Bool) (s : Int) : (setAddVarP q i v s).In A := by
  have h1 := h .min
  have h2 := h .max
  unfold setAddVarP
  inside

theorem setTotals_in : ∀ (l : List Id) (t : SetTotals), (∀ i ∈ l, ∀ sel, (q sel i).In A) → (setTotalsP q l t).In A
  | [], _, _ => P.within_pure trivial
  | i :: l, t, h => by
    have h0 := h i (by simp)
    have ih := fun t => setTotals_in l t fun j hj => h j (by simp [hj])
    unfold setTotalsP
    exact (h0 .min).then fun _ => P.In.then P.within_own' fun _ => (askVar_in h0).then fun _ =>
      (setAddVar_in h0 _ _).then fun _ => (askUnb_in h0).then fun _ => ih _

theorem setModifier_in (n : Nat) (u : Bool) : (setModifierP (β := β) n u).In A := by
  unfold setModifierP
  inside

theorem setModLoop_in (n : Nat) : ∀ (l : List Id) (a b : FV), (∀ i ∈ l, ∀ sel, (q sel i).In A) → (setModLoopP q n l a b).In A
  | [], _, _, _ => P.within_pure trivial
  | i :: l, a, b, h => by
    have h0 := h i (by simp)
    have ih := fun a b => setModLoop_in n l a b fun j hj => h j (by simp [hj])
    unfold setModLoopP
    refine (askFixed_in h0).then fun _ => P.within_ite ((ih _ _).then fun _ => P.within_pure trivial) ?_
    refine (askUnb_in h0).then fun _ => (setModifier_in _ _).then fun _ => (askUnb_in h0).then fun _ => ?_
    refine P.within_ite ((ih _ _).then fun _ => P.within_pure trivial) ?_
    exact (h0 .max).then fun _ => (h0 .min).then fun _ => P.In.then P.within_own' fun _ =>
      (ih _ _).then fun _ => P.within_pure trivial

theorem setModFix_in : ∀ (l : List Id) (ms : List FV) (a : FV), (∀ i ∈ l, ∀ sel, (q sel i).In A) → (setModFixP q l ms a).In A
  | [], _, _, _ => P.within_pure trivial
  | _ :: _, [], _, _ => P.within_pure trivial
  | i :: l, m :: ms, a, h => by
    have ih := fun a => setModFix_in l ms a fun j hj => h j (by simp [hj])
    unfold setModFixP
    exact (askUnb_in (h i (by simp))).then fun _ => P.within_ite ((ih _).then fun _ => P.within_pure trivial)
      ((ih _).then fun _ => P.within_pure trivial)

theorem setElFixed_in {i : Id} (h : ∀ sel, (q sel i).In A) : (setElFixedP q i).In A := by
  have h1 := h .min
  have h2 := askFixed_in h
  unfold setElFixedP
  inside

theorem setElVar_in {i : Id} (h : ∀ sel, (q sel i).In A) (m k v : FV) (e : Int) : (setElVarP q i m k v e).In A := by
  have h1 := h .min
  have h2 := h .max
  have h3 := askVar_in h
  unfold setElVarP
  inside

theorem setElUnb_in {i : Id} (h : ∀ sel, (q sel i).In A) (m k v : FV) (e : Int) : (setElUnbP q i m k v e).In A := by
  have h1 := h .min
  have h3 := askUnb_in h
  unfold setElUnbP
  inside

theorem setChopLoop_in (k u : FV) : ∀ (l : List Id) (ms : List FV) (a b : FV), (∀ i ∈ l, ∀ sel, (q sel i).In A) →
    (setChopLoopP q k u l ms a b).In A
  | [], _, _, _, _ => P.within_pure trivial
  | _ :: _, [], _, _, _ => P.within_pure trivial
  | i :: l, m :: ms, a, b, h => by
    have h0 := h i (by simp)
    have ih := fun a b => setChopLoop_in k u l ms a b fun j hj => h j (by simp [hj])
    unfold setChopLoopP
    exact (setElFixed_in h0).then fun _ => (setElVar_in h0 _ _ _ _).then fun _ => (setElUnb_in h0 _ _ _ _).then fun _ =>
      P.In.then P.within_own' fun _ => (ih _ _).then fun _ => P.within_pure trivial

theorem setSplit_in {cs : List Id} (h : ∀ i ∈ cs, ∀ sel, (q sel i).In A) : (setSplitP q cs).In A := by
  unfold setSplitP
  refine (setTotals_in _ _ h).then fun _ => P.In.then P.within_own' fun _ => P.within_ite P.within_own' ?_
  refine P.In.then P.within_own' fun _ => (setModLoop_in _ _ _ _ h).then fun _ => ?_
  refine P.In.then (P.within_ite (setModFix_in _ _ _ h) (P.within_pure trivial)) fun _ => ?_
  exact P.In.then P.within_own' fun _ => P.In.then P.within_own' fun _ => setChopLoop_in _ _ _ _ _ _ h

theorem takesAll_in {i : Id} (h : ∀ sel, (q sel i).In A) (z : Nat) : (takesAllP q i z).In A := by
  have h1 := askUnb_in h
  have h2 := h .max
  unfold takesAllP
  inside

theorem extractEach_in {ex : Id → P (Nat × β) Bytes} : ∀ (l : List (Id × β)) (k : Int), (∀ x ∈ l, (ex x.1).In A) →
    (extractEachP ex k l).In A
  | [], _, _ => P.within_pure trivial
  | (i, c) :: l, k, h => P.In.then (P.within_on (h (i, c) (by simp))) fun _ => P.In.then P.within_own' fun _ =>
    (extractEach_in l _ fun x hx => h x (by simp [hx])).then fun _ => P.within_pure trivial

theorem extractSeq_in {ex : Id → P (Nat × β) Bytes} : ∀ (l : List Id), (∀ x ∈ l, (ex x).In A) → (extractSeqP ex l).In A
  | [], _ => P.within_pure trivial
  | i :: l, h => (h i (by simp)).then fun _ =>
    (extractSeq_in l fun x hx => h x (by simp [hx])).then fun _ => P.within_pure trivial

theorem pickFilter_in : ∀ (l : List Id), (∀ i ∈ l, ∀ sel, (q sel i).In A) →
    (pickFilterP q l).Within A fun r => (∀ j ∈ r.1, j ∈ l) ∧ ∀ j ∈ r.2, j ∈ l
  | [], _ => P.within_pure ⟨fun _ h => h, fun _ h => h⟩
  | i :: l, h => by
    have ih := pickFilter_in l fun j hj => h j (by simp [hj])
    unfold pickFilterP
    refine (h i (by simp) _).then fun mn => P.In.then P.within_own' fun sz => ?_
    refine P.within_ite ((takesAll_in (h i (by simp)) _).then fun all => P.Within.bind ih fun r hr => ?_) ?_
    · obtain ⟨h1, h2⟩ := hr
      have hc : ∀ {m : List Id}, (∀ j ∈ m, j ∈ l) → ∀ j ∈ i :: m, j ∈ i :: l := by
        intro m hm j hj
        rcases List.mem_cons.1 hj with rfl | hj
        · simp
        · exact List.mem_cons_of_mem _ (hm j hj)
      cases all
      · exact P.within_pure ⟨hc h1, fun j hj => List.mem_cons_of_mem _ (h2 j hj)⟩
      · exact P.within_pure ⟨hc h1, hc h2⟩
    · exact P.Within.mono ih fun r hr => ⟨fun j hj => List.mem_cons_of_mem _ (hr.1 j hj),
        fun j hj => List.mem_cons_of_mem _ (hr.2 j hj)⟩

theorem softFilter_in {i : Id} (h : ∀ sel, (q sel i).In A) (rec4 : Bool) (d : Int) : (softFilterP rec4 q i d).In A := by
  have h1 := askUnb_in h
  have h2 := h .max
  have h3 := h .min
  unfold softFilterP
  inside

theorem lotFilter_in (rec4 : Bool) : ∀ (l : List Id), (∀ i ∈ l, ∀ sel, (q sel i).In A) →
    (lotFilterP rec4 q l).Within A fun r => ∀ j ∈ r, j ∈ l
  | [], _ => P.within_pure fun _ h => h
  | i :: l, h => by
    have ih := lotFilter_in rec4 l fun j hj => h j (by simp [hj])
    unfold lotFilterP
    refine (h i (by simp) _).then fun mn => P.In.then P.within_own' fun sz => ?_
    refine P.within_ite (P.Within.mono ih fun r hr j hj => List.mem_cons_of_mem _ (hr j hj)) ?_
    refine (softFilter_in (h i (by simp)) rec4 _).then fun ok => P.Within.bind ih fun r hr => ?_
    refine P.within_pure fun j hj => ?_
    split at hj
    · rcases List.mem_cons.1 hj with rfl | hj
      · simp
      · exact List.mem_cons_of_mem _ (hr j hj)
    · exact List.mem_cons_of_mem _ (hr j hj)

theorem extractP_in (G : Graph) : ∀ (n : Nat) (i : Id), PickerCover G A i → (extractP (β := β) G n i).In A
  | 0, _, _ => P.within_own'
  | n + 1, i, hc => by
    have ih := extractP_in G n
    have hs := sizeP_in (β := β) (A := A) G n
    unfold extractP
    refine P.In.then P.within_own' fun _ => ?_
    cases hG : G i with
    | none => exact P.within_own'
    | some nd =>
      cases nd with
      | arith t => exact P.within_own'
      | dict ws => exact P.within_own'
      | jsonStr => exact P.within_own'
      | latin1 => exact P.within_own'
      | ascii => exact P.within_own'
      | user u => exact P.within_own'
      | vec c join =>
        have hk := hc.kid hG (.inl (List.mem_singleton.2 rfl) : c ∈ [c] ∨ _)
        refine (vecSplit_in (fun sel => hs sel _ hk) n).then fun bl => ?_
        refine (extractEach_in _ _ fun x hx => ?_).then fun _ => P.within_pure trivial
        obtain ⟨b, _, rfl⟩ := List.mem_map.1 hx
        exact ih _ hk
      | set cs join unb =>
        refine (setSplit_in fun j hj sel => hs sel _ (hc.kid hG (.inl hj))).then fun bl => ?_
        refine (extractEach_in _ _ fun x hx => ?_).then fun _ => P.within_pure trivial
        exact ih _ (hc.kid hG (.inl (List.of_mem_zip hx).1))
      | seq cs join unb =>
        exact (extractSeq_in cs fun x hx => ih _ (hc.kid hG (.inl hx))).then fun _ => P.within_pure trivial
      | unary op c =>
        have hk := hc.kid hG (.inl (List.mem_singleton.2 rfl) : c ∈ [c] ∨ _)
        exact (ih _ hk).then fun _ => P.within_pure trivial
      | lottery rec4 l w smin smax =>
        have hk : ∀ j ∈ l, ∀ sel, (sizeP (β := β) G n sel j).In A := fun j hj sel => hs _ _ (hc.kid hG (.inr hj))
        refine P.In.then P.within_own' fun o => P.Within.bind (lotFilter_in rec4 l hk) fun l1 h1 => ?_
        refine P.Within.bind (Q := fun r => ∀ j ∈ r, j ∈ l)
          (P.within_ite (lotFilter_in false l hk) (P.within_pure h1)) fun l2 h2 => ?_
        refine P.within_ite P.within_own' (P.In.then P.within_own' fun k => ?_)
        refine P.Within.bind (Q := fun j => j ∈ l2) (P.within_own fun _ a ha => vecGet_ok ha) fun j hj => ?_
        exact ih _ (hc.kid hG (.inr (h2 j hj)))
      | picker pool =>
        have hk : ∀ j ∈ pool, ∀ sel, (sizeP (β := β) G n sel j).In A := fun j hj sel => hs _ _ (hc.kid hG (.inr hj))
        refine P.In.then P.within_own' fun o => P.Within.bind (pickFilter_in pool hk) fun r hr => ?_
        refine P.within_ite ?_ ?_
        · exact (sizeP_in G (n + 1) _ _ hc).then fun _ => P.In.then P.within_own' fun _ =>
            P.within_ite P.within_own' P.within_own'
        · refine P.In.then P.within_own' fun k => ?_
          refine P.Within.bind (Q := fun j => j ∈ if r.2.isEmpty then r.1 else r.2)
            (P.within_own fun _ a ha => vecGet_ok ha) fun j hj => ?_
          refine ih _ (hc.kid hG (.inr ?_))
          split at hj
          · exact hr.1 j hj
          · exact hr.2 j hj

end

/-! ## Clients -/

theorem Prog.run_map {α γ : Type} (p : Prog α) (f : α → γ) (fl : Flags) :
    (p.bind fun a => .ret (f a)).run fl = (f (p.run fl).1, (p.run fl).2) := Prog.run_bind p _ fl

theorem alone_run {β α : Type} {p : P (Nat × β) α} {m : WM β α} (h : p.alone = m) (fl : Flags) (b : β) :
    ((p (0, b)).run fl).1.1 = (m (0, (fl, b))).1 ∧ ((p (0, b)).run fl).1.2.2 = (m (0, (fl, b))).2.2.2 ∧
    ((p (0, b)).run fl).2 = (m (0, (fl, b))).2.2.1 := by
  subst h
  exact ⟨rfl, rfl, rfl⟩

theorem job_run (G : Graph) (n : Nat) (j : Job) (fl : Flags) : (j.prog G n).run fl = j.alone G n fl := by
  cases j with
  | extract i b =>
    obtain ⟨h1, h2, h3⟩ := alone_run (extractP_alone (β := Blob) G n i) fl b
    refine (Prog.run_map _ _ _).trans ?_
    show _ = (Answer.text (extractA G n i (0, (fl, b))).1 (extractA G n i (0, (fl, b))).2.2.2, _)
    rw [h1, h2, h3]
  | size sel i =>
    obtain ⟨h1, _, h3⟩ := alone_run (sizeP_alone (β := ABlob) G n sel i) fl []
    refine (Prog.run_map _ _ _).trans ?_
    rw [h1, h3]
    rfl
  | isRec i =>
    obtain ⟨h1, _, h3⟩ := alone_run (isRecP_alone (β := ABlob) G n i) fl []
    refine (Prog.run_map _ _ _).trans ?_
    rw [h1, h3]
    rfl

theorem client_run (G : Graph) (n : Nat) (c : Client) (fl : Flags) : (c.prog G n).run fl = c.alone G n fl := by
  induction c generalizing fl with
  | done => rfl
  | call j next ih =>
    unfold Client.prog Client.alone
    rw [Prog.run_bind, Prog.run_map, job_run, ih]

/-- The pool pickers that can be reached from what a thread calls. -/
def Client.Reaches (G : Graph) (c : Client) (k : Id) : Prop := ∃ i, c.Calls i ∧ PickerBelow G i k

theorem job_in (G : Graph) (n : Nat) {j : Job} {A : Id → Prop} (h : PickerCover G A j.stamp) :
    (j.prog G n).Within A fun _ => True := by
  cases j with
  | extract i b => exact (extractP_in G n i h (0, b)).bind fun _ _ => .ret trivial
  | size sel i => exact (sizeP_in G n sel i h _).bind fun _ _ => .ret trivial
  | isRec i => exact (isRecP_in G n i h _).bind fun _ _ => .ret trivial

theorem client_in (G : Graph) (n : Nat) {A : Id → Prop} (c : Client) (h : ∀ i, c.Calls i → PickerCover G A i) :
    (c.prog G n).Within A fun _ => True := by
  induction c with
  | done => exact .ret trivial
  | call j next ih =>
    refine (job_in G n (h _ (.now j next))).bind fun a _ => ?_
    exact (ih a fun i hi => h i (.later hi)).bind fun _ _ => .ret trivial

/-! ## Schedules -/

section
variable {α : Type}

/-- `k` steps of a program with nobody else taking steps. -/
def Prog.solo : Nat → Prog α → Flags → Prog α × Flags
  | 0, p, fl => (p, fl)
  | k + 1, p, fl => Prog.solo k (p.step fl).1 (p.step fl).2

theorem Prog.run_step (p : Prog α) (fl : Flags) : (p.step fl).1.run (p.step fl).2 = p.run fl := by cases p <;> rfl

theorem Prog.run_solo (k : Nat) (p : Prog α) (fl : Flags) : (Prog.solo k p fl).1.run (Prog.solo k p fl).2 = p.run fl := by
  induction k generalizing p fl with
  | zero => rfl
  | succ k ih => unfold Prog.solo; rw [ih, Prog.run_step]

theorem Prog.solo_ret (k : Nat) (a : α) (fl : Flags) : Prog.solo k (.ret a) fl = (.ret a, fl) := by
  induction k with
  | zero => rfl
  | succ k ih => exact ih

theorem Prog.solo_ends (p : Prog α) (fl : Flags) : ∃ K, ∀ k, K ≤ k → Prog.solo k p fl = (.ret (p.run fl).1, (p.run fl).2) := by
  induction p generalizing fl with
  | ret a => exact ⟨0, fun k _ => Prog.solo_ret k a fl⟩
  | read i m f ih =>
    obtain ⟨K, h⟩ := ih ((fl i).get m) fl
    refine ⟨K + 1, fun k hk => ?_⟩
    obtain ⟨k, rfl⟩ : ∃ k', k = k' + 1 := ⟨k - 1, by omega⟩
    exact h k (by omega)
  | write i m v q ih =>
    obtain ⟨K, h⟩ := ih (fl.put i m v)
    refine ⟨K + 1, fun k hk => ?_⟩
    obtain ⟨k, rfl⟩ : ∃ k', k = k' + 1 := ⟨k - 1, by omega⟩
    exact h k (by omega)

/-- A step looks only at objects it has access to, and changes no others. -/
theorem Prog.Within.step {A : Id → Prop} {Q : α → Prop} {p : Prog α} (h : p.Within A Q) {fl fl' : Flags}
    (he : ∀ i, A i → fl i = fl' i) : (p.step fl).1 = (p.step fl').1 ∧ (∀ i, A i → (p.step fl).2 i = (p.step fl').2 i) ∧
    (p.step fl).1.Within A Q ∧ ∀ i, ¬ A i → (p.step fl).2 i = fl i := by
  cases h with
  | ret h => exact ⟨rfl, he, .ret h, fun _ _ => rfl⟩
  | @read j m k hi h =>
    refine ⟨?_, he, h _, fun _ _ => rfl⟩
    show k _ = k _
    rw [he j hi]
  | @write j m v k hi h =>
    refine ⟨rfl, fun i hA => ?_, h, fun i hA => ?_⟩
    · show (if i = j then _ else _) = (if i = j then _ else _)
      rw [he j hi, he i hA]
    · show (if i = j then _ else _) = _
      rw [if_neg]
      rintro rfl
      exact hA hi

/-- Whatever the schedule: a thread that shares nothing with the others is as far as it would be alone. -/
theorem run_solo {A : Nat → Id → Prop} {Q : α → Prop} (hd : ∀ t u, t ≠ u → ∀ i, A t i → ¬ A u i) (t : Nat) :
    ∀ (sched : List Nat) (c : Threads α) (fl : Flags), (∀ u, (c.todo u).Within (A u) Q) → (∀ i, A t i → c.flags i = fl i) →
      (c.run sched).todo t = (Prog.solo (sched.count t) (c.todo t) fl).1 ∧
      ∀ i, A t i → (c.run sched).flags i = (Prog.solo (sched.count t) (c.todo t) fl).2 i
  | [], c, fl, _, he => ⟨rfl, he⟩
  | u :: sched, c, fl, hw, he => by
    have hw' : ∀ v, ((c.step u).todo v).Within (A v) Q := by
      intro v
      show (if v = u then _ else _ : Prog α).Within _ _
      split
      · next h => subst h; exact ((hw v).step (fun _ _ => rfl)).2.2.1
      · exact hw v
    unfold Threads.run
    by_cases h : u = t
    · subst h
      obtain ⟨h1, h2, _, _⟩ := (hw u).step he
      have := run_solo hd u sched (c.step u) ((c.todo u).step fl).2 hw' h2
      rw [List.count_cons_self]
      unfold Prog.solo
      rw [← h1]
      have e : (c.step u).todo u = ((c.todo u).step c.flags).1 := if_pos rfl
      rw [e] at this
      exact this
    · have h2 : ∀ i, A t i → (c.step u).flags i = fl i := fun i hi => by
        rw [← he i hi]
        exact ((hw u).step (fun _ _ => rfl)).2.2.2 i (hd t u (fun e => h e.symm) i hi)
      have := run_solo hd t sched (c.step u) fl hw' h2
      rw [List.count_cons_of_ne h]
      have e : (c.step u).todo t = c.todo t := if_neg fun e => h e.symm
      rw [e] at this
      exact this

end
end BS
