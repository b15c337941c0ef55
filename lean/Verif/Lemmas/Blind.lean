import Verif.Spec.Swap
import Verif.Lemmas.Returns
import Verif.Record
import Verif.Experiment
import Verif.Lemmas.GalleyVec

/-!
# Bytes that are left over have no influence
-/

namespace BS
open BlobLike

/-- Whatever the outcome, other bytes in the place of those that are left, as many, change nothing. -/
def Blind {α : Type} (m : M ABlob α) : Prop := ∀ a o a', m a = (o, a') → ∃ p, a = p ++ a' ∧
  ∀ r : ABlob, List.length r = List.length a' → m (p ++ r) = (o, r)

namespace Blind
variable {α γ : Type}

theorem out (o : Out α) : Blind (M.out o) := by
  intro a o' a' h; cases h; exact ⟨[], rfl, fun _ _ => rfl⟩
theorem pure (x : α) : Blind (Pure.pure x) := out (.ok x)
theorem lift (o : Out α) : Blind (M.lift o) := out o

theorem bind {m : M ABlob α} {f : α → M ABlob γ} (h : Blind m) (hf : ∀ x, Blind (f x)) : Blind (m >>= f) := by
  intro a o a' e
  rcases e1 : m a with ⟨o1, a1⟩
  obtain ⟨p, rfl, hp⟩ := h _ _ _ e1
  rw [M.bind_apply, e1] at e
  cases o1 with
  | ok x =>
    obtain ⟨q, rfl, hq⟩ := hf x _ _ _ e
    refine ⟨p ++ q, by rw [List.append_assoc], fun r hr => ?_⟩
    rw [List.append_assoc, M.bind_ok (hp (q ++ r) (by rw [List.length_append, List.length_append, hr]))]
    exact hq r hr
  | _ =>
    cases e
    refine ⟨p, rfl, fun r hr => ?_⟩
    rw [M.bind_apply, hp r hr]

theorem ite {c : Prop} [Decidable c] {m n : M ABlob α} (h : Blind m) (h' : Blind n) : Blind (if c then m else n) := by
  split <;> assumption

theorem get {f : ABlob → M ABlob γ} (h : ∀ b, Blind (f b)) (hf : ∀ b b' : ABlob, List.length b = List.length b' → f b = f b') :
    Blind (M.get >>= f) := by
  intro a o a' e
  change f a a = _ at e
  obtain ⟨p, rfl, hp⟩ := h _ _ _ _ e
  refine ⟨p, rfl, fun r hr => ?_⟩
  show f (p ++ r) (p ++ r) = _
  rw [hf (p ++ r) (p ++ a') (by rw [List.length_append, List.length_append, hr])]
  exact hp r hr

theorem chop (k : Nat) : Blind (BlobLike.chop k : M ABlob ABlob) := by
  intro a o a' h
  rw [chop_abs] at h
  split at h
  · rename_i hl
    cases h
    refine ⟨[], rfl, fun r hr => ?_⟩
    rw [List.nil_append, chop_abs, if_pos (by omega)]
  · rename_i hl
    cases h
    refine ⟨List.take k a, (List.take_append_drop _ _).symm, fun r hr => ?_⟩
    have hk : List.length (List.take k a) = k := by rw [List.length_take]; omega
    have e1 : List.take k (List.take k a ++ r) = List.take k a := by
      conv_lhs => rw [← hk]
      rw [hk, List.take_append_of_le_length (by omega), List.take_take, Nat.min_self]
    have e2 : List.drop k (List.take k a ++ r) = r := by
      conv_lhs => rw [List.drop_append_of_le_length (by omega)]
      rw [List.drop_eq_nil_of_le (by omega), List.nil_append]
    rw [chop_abs, if_neg (by rw [List.length_append]; omega), e1, e2]

theorem chop2 (mn mx : Nat) : Blind (BS.chop2 mn mx : M ABlob ABlob) := by
  have h : (BS.chop2 mn mx : M ABlob ABlob) = (M.get >>= fun b => if size b < mn then M.throwOOD else
      if mx ≤ size b then BlobLike.chop mx else BlobLike.chop (size b)) := by
    funext b
    show (if size b < mn then (Out.outOfData, b) else if mx ≤ size b then BlobLike.chop mx b
      else BlobLike.chop (size b) b) = (if size b < mn then M.throwOOD else
      if mx ≤ size b then BlobLike.chop mx else BlobLike.chop (size b) : M ABlob ABlob) b
    split
    · rfl
    · split <;> rfl
  rw [h]
  refine .get (fun b => .ite (.out _) (.ite (.chop _) (.chop _))) ?_
  intro b b' h
  have : size b = size b' := h
  simp only [this]

theorem value (t : ArithTy) : Blind (extractValue t : M ABlob AVal) :=
  .bind (.chop _) fun _ => .bind (.lift _) fun _ => .pure _
theorem oracle : Blind (BS.oracle : M ABlob Nat) := by
  refine .bind (.value _) fun v => ?_
  cases v <;> exact .pure _
theorem uOracle (k : Nat) : Blind (BS.uOracle k : M ABlob Nat) := by
  unfold BS.uOracle
  cases uOracleTy k with
  | none => exact .out _
  | some ty =>
    refine .bind (.value _) fun v => ?_
    cases v <;> exact .pure _
theorem arith (t : ArithTy) : Blind (extractArithStr t : M ABlob Bytes) := .bind (.value t) fun _ => .lift _
theorem bin (t : ArithTy) : Blind (extractArithBin t : M ABlob Bytes) := .bind (.value t) fun _ => .pure _
theorem dict (ws : List Bytes) : Blind (extractDict ws : M ABlob Bytes) :=
  .bind (.uOracle _) fun _ => .bind (.lift _) fun _ => .lift _
theorem jsonStr : Blind (extractJsonStr : M ABlob Bytes) := .bind (.dict _) fun _ => .pure _
theorem text (f : UInt8 → UInt8) : Blind (extractText f : M ABlob Bytes) :=
  .bind (.chop2 _ _) fun _ => .bind (.lift _) fun _ => .pure _

/-! ## Galleys -/

theorem fixedLoop (n : Nat) (mn : Int) : Blind (BS.fixedLoop n mn : M ABlob (List ABlob)) := by
  induction n with
  | zero => exact .out _
  | succ n ih =>
    refine .get (fun b => .ite (.bind (.chop _) fun _ => .bind ih fun _ => .pure _) (.pure _)) ?_
    intro b b' h
    have : size b = size b' := h
    simp only [this]

theorem sizeOracles (n : Nat) (t : Int) : Blind (BS.sizeOracles n t : M ABlob (List Nat × Int)) := by
  induction n generalizing t with
  | zero => exact .pure _
  | succ n ih => exact .bind .oracle fun _ => .bind (.lift _) fun _ => .bind (ih _) fun _ => .pure _

theorem unbChopLoop (mn total var : Int) (os : List Nat) (rem : FV) :
    Blind (BS.unbChopLoop mn total var os rem : M ABlob (List ABlob)) := by
  induction os generalizing rem with
  | nil => exact .pure _
  | cons o os ih => exact .bind (.lift _) fun _ => .bind (.chop _) fun _ => .bind (ih _) fun _ => .pure _

theorem vecUnbounded (mn : Int) : Blind (BS.vecUnbounded mn : M ABlob (List ABlob)) := by
  refine .get (fun b => .ite (.out _) (.bind .oracle fun _ => .bind (.sizeOracles _ _) fun _ => .get (fun b' => ?_) ?_)) ?_
  · exact .bind (.lift _) fun _ => .bind (.lift _) fun _ => .unbChopLoop _ _ _ _ _
  · intro b b' h
    have : size b = size b' := h
    simp only [this]
  · intro b b' h
    have : size b = size b' := h
    simp only [this]

theorem variatedLoop (n : Nat) (mn mx : Int) : Blind (BS.variatedLoop n mn mx : M ABlob (List ABlob)) := by
  induction n with
  | zero => exact .out _
  | succ n ih =>
    refine .bind (.lift _) fun _ => .get (fun b => .ite (.pure _) (.bind .oracle fun _ => .bind (.lift _) fun _ =>
      .get (fun b' => .bind (.chop _) fun _ => .bind ih fun _ => .pure _) ?_)) ?_
    · intro b b' h
      have : size b = size b' := h
      simp only [this]
    · intro b b' h
      have : size b = size b' := h
      simp only [this]

theorem vecSplit (n : Nat) (mn mx : Int) : Blind (BS.vecSplit n mn mx : M ABlob (List ABlob)) := by
  refine .get (fun b => .ite (.out _) (.ite (.fixedLoop _ _) (.ite (.vecUnbounded _) (.bind (.lift _) fun _ =>
    .variatedLoop _ _ _)))) ?_
  intro b b' h
  have : size b = size b' := h
  simp only [this]

theorem setModLoop (nUnb : Nat) (ss : List SizePair) (p u : FV) : Blind (BS.setModLoop nUnb ss p u : M ABlob SetMods) := by
  induction ss generalizing p u with
  | nil => exact .pure _
  | cons s ss ih =>
    exact .ite (.bind (ih _ _) fun _ => .pure _) (.ite (.ite (.bind (ih _ _) fun _ => .pure _)
      (.bind .oracle fun _ => .bind (ih _ _) fun _ => .pure _))
      (.bind .oracle fun _ => .bind (.lift _) fun _ => .bind (ih _ _) fun _ => .pure _))

theorem setChopLoop (kvar kunb : FV) (ss : List SizePair) (ms : List FV) (vr ur : FV) :
    Blind (BS.setChopLoop kvar kunb ss ms vr ur : M ABlob (List ABlob)) := by
  induction ss generalizing ms vr ur with
  | nil => cases ms <;> exact .pure _
  | cons s ss ih =>
    cases ms with
    | nil => exact .pure _
    | cons m ms =>
      exact .ite (.bind (.lift _) fun _ => .bind (.lift _) fun _ => .bind (.chop _) fun _ => .bind (ih _ _ _) fun _ => .pure _)
        (.ite (.bind (.chop _) fun _ => .bind (ih _ _ _) fun _ => .pure _)
          (.bind (.lift _) fun _ => .bind (.lift _) fun _ => .bind (.lift _) fun _ => .bind (.chop _) fun _ =>
            .bind (ih _ _ _) fun _ => .pure _))

theorem setLimit (t : SetTotals) (avail : Int) : Blind (BS.setLimit t avail : M ABlob Int) :=
  .ite (.bind .oracle fun _ => .bind (.lift _) fun _ => .pure _) (.pure _)

theorem setSplit (ss : List SizePair) : Blind (BS.setSplit ss : M ABlob (List ABlob)) := by
  refine .bind (.lift _) fun _ => .get (fun b => .ite (.out _) (.bind (.setLimit _ _) fun _ => .bind (.setModLoop _ _ _ _) fun _ =>
    .bind (.lift _) fun _ => .bind (.lift _) fun _ => .setChopLoop _ _ _ _ _ _)) ?_
  intro b b' h
  have : size b = size b' := h
  simp only [this]

theorem vectorBin (n : Nat) (s : BinStamp) : Blind (BS.vectorBin n s : M ABlob (List Bytes)) :=
  .bind (.vecSplit _ _ _) fun _ => .lift _
theorem vectorV (n : Nat) (t : ArithTy) : Blind (BS.vectorV n t : M ABlob (List AVal)) :=
  .bind (.vecSplit _ _ _) fun _ => .lift _
theorem setBin (ss : List BinStamp) : Blind (BS.setBin ss : M ABlob (List Bytes)) :=
  .bind (.setSplit _) fun _ => .lift _
theorem vectorRecord (n : Nat) (ts : List ArithTy) : Blind (BS.vectorRecord n ts : M ABlob (List (List AVal))) :=
  .bind (.vecSplit _ _ _) fun _ => .lift _

theorem recordV (ts : List ArithTy) : Blind (BS.recordV ts : M ABlob (List AVal)) := by
  induction ts with
  | nil => exact .pure _
  | cons t ts ih => exact .bind (.value _) fun _ => .bind ih fun _ => .pure _

theorem catchOOD {m h : M ABlob α} (hm : Blind m) (hh : Blind h) : Blind (M.catchOOD m h) := by
  intro a o a' e
  rcases e1 : m a with ⟨o1, a1⟩
  obtain ⟨p, rfl, hp⟩ := hm _ _ _ e1
  unfold M.catchOOD at e ⊢
  rw [e1] at e
  cases o1 with
  | outOfData =>
    obtain ⟨q, rfl, hq⟩ := hh _ _ _ e
    refine ⟨p ++ q, by rw [List.append_assoc], fun r hr => ?_⟩
    rw [List.append_assoc, hp (q ++ r) (by rw [List.length_append, List.length_append, hr])]
    exact hq r hr
  | _ =>
    cases e
    refine ⟨p, rfl, fun r hr => ?_⟩
    rw [hp r hr]

theorem onOther (c : ABlob) (m : M ABlob α) : Blind (M.onOther c m) := out _

theorem unsignedV (t : ArithTy) : Blind (BS.unsignedV t : M ABlob Nat) := by
  refine .bind (.value _) fun v => ?_
  cases v <;> exact .pure _

theorem experiment (n : Nat) : Blind (BS.experiment n : M ABlob Bytes) := by
  induction n with
  | zero => exact .out _
  | succ n ih =>
    refine .bind (.catchOOD (.bind (.unsignedV _) fun _ => .pure _) (.pure _)) fun c => ?_
    cases c with
    | none => exact .pure _
    | some c =>
      refine .bind (.lift _) fun p => .get (fun b => .ite (.catchOOD (.arith _) (.pure _)) (.bind
        (.catchOOD (.bind (.unsignedV _) fun _ => .pure _) (.pure _)) fun spl => ?_)) ?_
      · cases spl with
        | none => exact .pure _
        | some spl =>
          refine .get (fun b => .bind (.lift _) fun _ => .bind (.lift _) fun _ => .bind (.chop _) fun _ => .bind (.lift _) fun _ =>
            .bind (.onOther _ _) fun _ => .bind ih fun _ => .pure _) ?_
          intro b b' h
          have : size b = size b' := h
          simp only [this]
      · intro b b' h
        have : size b = size b' := h
        simp only [this]

end Blind

/-! ## Stamps -/

/-- The same with the flags of the stamps. -/
def BlindX {α : Type} (m : XM ABlob α) : Prop := ∀ fl a o fl' a', m (fl, a) = (o, (fl', a')) → ∃ p, a = p ++ a' ∧
  ∀ r : ABlob, List.length r = List.length a' → m (fl, p ++ r) = (o, (fl', r))

namespace BlindX
variable {α γ : Type}

theorem out (o : Out α) : BlindX (M.out o) := by
  intro fl a o' fl' a' h; cases h; exact ⟨[], rfl, fun _ _ => rfl⟩
theorem pure (x : α) : BlindX (Pure.pure x) := out (.ok x)
theorem lift (o : Out α) : BlindX (M.lift o) := out o

theorem bind {m : XM ABlob α} {f : α → XM ABlob γ} (h : BlindX m) (hf : ∀ x, BlindX (f x)) : BlindX (m >>= f) := by
  intro fl a o fl' a' e
  rcases e1 : m (fl, a) with ⟨o1, fl1, a1⟩
  obtain ⟨p, rfl, hp⟩ := h _ _ _ _ _ e1
  rw [M.bind_apply, e1] at e
  cases o1 with
  | ok x =>
    obtain ⟨q, rfl, hq⟩ := hf x _ _ _ _ _ e
    refine ⟨p ++ q, by rw [List.append_assoc], fun r hr => ?_⟩
    rw [List.append_assoc, M.bind_ok (hp (q ++ r) (by rw [List.length_append, List.length_append, hr]))]
    exact hq r hr
  | _ =>
    cases e
    refine ⟨p, rfl, fun r hr => ?_⟩
    rw [M.bind_apply, hp r hr]

theorem ite {c : Prop} [Decidable c] {m n : XM ABlob α} (h : BlindX m) (h' : BlindX n) : BlindX (if c then m else n) := by
  split <;> assumption

theorem liftB {m : M ABlob α} (h : Blind m) : BlindX (BS.liftB m) := by
  intro fl a o fl' a' e
  rcases e1 : m a with ⟨o1, a1⟩
  obtain ⟨p, rfl, hp⟩ := h _ _ _ e1
  unfold BS.liftB at e ⊢
  dsimp only at e ⊢
  rw [e1] at e
  cases e
  exact ⟨p, rfl, fun r hr => by rw [hp r hr]⟩

theorem liftF (m : M Flags α) : BlindX (BS.liftF m) := by
  intro fl a o fl' a' e
  cases e
  exact ⟨[], rfl, fun _ _ => rfl⟩

theorem onBlob (c : ABlob) (m : XM ABlob α) : BlindX (BS.onBlob c m) := by
  intro fl a o fl' a' e
  cases e
  exact ⟨[], rfl, fun _ _ => rfl⟩

theorem curSize : BlindX (BS.curSize : XM ABlob Nat) := by
  intro fl a o fl' a' e
  cases e
  refine ⟨[], rfl, fun r hr => ?_⟩
  show (Out.ok (List.length r), (fl, r)) = (Out.ok (List.length a), (fl, r))
  rw [hr]

theorem each (ex : Id → XM ABlob Bytes) (k : Int) (l : List (Id × ABlob)) : BlindX (extractEach ex k l) := by
  induction l generalizing k with
  | nil => exact .pure _
  | cons x l ih => exact .bind (.onBlob _ _) fun _ => .bind (.lift _) fun _ => .bind (ih _) fun _ => .pure _

theorem seq {ex : Id → XM ABlob Bytes} (h : ∀ i, BlindX (ex i)) (l : List Id) : BlindX (extractSeq ex l) := by
  induction l with
  | nil => exact .pure _
  | cons i l ih => exact .bind (h i) fun _ => .bind ih fun _ => .pure _

theorem pickFilter (qmin qmax : Id → M Flags Int) (l : List Id) : BlindX (BS.pickFilter qmin qmax l : XM ABlob _) := by
  induction l with
  | nil => exact .pure _
  | cons i l ih =>
    exact .bind (.liftF _) fun _ => .bind .curSize fun _ => .ite (.bind (.liftF _) fun _ => .bind ih fun _ =>
      .ite (.pure _) (.pure _)) ih

theorem lotFilter (rec4 : Bool) (qmin qmax : Id → M Flags Int) (l : List Id) :
    BlindX (BS.lotFilter rec4 qmin qmax l : XM ABlob _) := by
  induction l with
  | nil => exact .pure _
  | cons i l ih =>
    exact .bind (.liftF _) fun _ => .bind .curSize fun _ => .ite ih (.bind (.liftF _) fun _ => .bind ih fun _ => .pure _)

theorem user {u : UserStamp} (hu : ∀ v w : Bytes, v.length = w.length → v.take (u.behave v).2 = w.take (u.behave v).2 →
    u.behave w = u.behave v) {m : XM ABlob Bytes}
    (he : ∀ fl (a : ABlob), m (fl, a) = ((u.behave a).1, (fl, List.drop (u.behave a).2 a))) : BlindX m := by
  intro fl a o fl' a' e
  rw [he] at e
  cases e
  refine ⟨List.take (u.behave a).2 a, (List.take_append_drop _ _).symm, fun r hr => ?_⟩
  have hl : List.length a = List.length (List.take (u.behave a).2 a ++ r) := by
    rw [List.length_append, hr, ← List.length_append, List.take_append_drop]
  have ht : List.take (u.behave a).2 a = List.take (u.behave a).2 (List.take (u.behave a).2 a ++ r) := by
    rw [List.length_drop] at hr
    rcases Nat.le_total (u.behave a).2 (List.length a) with h | h
    · rw [List.take_append_of_le_length (by rw [List.length_take]; omega), List.take_take, Nat.min_self]
    · have : r = [] := List.eq_nil_of_length_eq_zero (by omega)
      subst this
      rw [List.append_nil, List.take_take, Nat.min_self]
  have hb := hu a (List.take (u.behave a).2 a ++ r) hl ht
  rw [he, hb]
  congr 2
  rw [List.length_drop] at hr
  rcases Nat.le_total (u.behave a).2 (List.length a) with h | h
  · rw [List.drop_append_of_le_length (by rw [List.length_take]; omega),
      List.drop_eq_nil_of_le (by rw [List.length_take]; omega), List.nil_append]
  · have : r = [] := List.eq_nil_of_length_eq_zero (by omega)
    subst this
    rw [List.append_nil, List.drop_eq_nil_of_le (by rw [List.length_take]; omega)]

end BlindX

theorem user_takes {G : Graph} {i : Id} {u : UserStamp} (hG : G i = some (.user u)) (n : Nat) (fl : Flags) (a : ABlob) :
    extract G (n + 1) i (fl, a) = ((u.behave a).1, (fl, List.drop (u.behave a).2 a)) := by
  have e3 : (BlobLike.chop (min (u.behave a).2 (List.length a)) : M ABlob ABlob) a =
      (.ok (List.take (min (u.behave a).2 (List.length a)) a), List.drop (min (u.behave a).2 (List.length a)) a) := by
    rw [chop_abs, if_neg (by omega)]
  have e4 : List.drop (min (u.behave a).2 (List.length a)) a = List.drop (u.behave a).2 a := by
    rcases Nat.le_total (u.behave a).2 (List.length a) with hl | hl
    · rw [Nat.min_eq_left hl]
    · rw [Nat.min_eq_right hl, List.drop_eq_nil_of_le hl, List.drop_length]
  unfold extract
  rw [hG]
  show (liftB (BlobLike.chop (min (u.behave a).2 (List.length a))) >>= fun _ => M.lift (u.behave a).1) (fl, a) = _
  have e5 : (liftB (BlobLike.chop (min (u.behave a).2 (List.length a))) : XM ABlob ABlob) (fl, a) =
      (.ok (List.take (min (u.behave a).2 (List.length a)) a), (fl, List.drop (u.behave a).2 a)) := by
    unfold liftB
    dsimp only
    rw [e3, e4]
  rw [M.bind_ok e5]
  rfl

theorem blind_extract {G : Graph} (hu : LocalUsers G) (n : Nat) (i : Id) : BlindX (extract G n i) := by
  induction n generalizing i with
  | zero => exact .out _
  | succ n ih =>
    cases hG : G i with
    | none => unfold extract; rw [hG]; exact .out _
    | some nd =>
      cases nd with
      | user u => exact .user (hu i u hG) (user_takes hG n)
      | arith t => unfold extract; rw [hG]; exact .liftB (.arith t)
      | dict ws => unfold extract; rw [hG]; exact .liftB (.dict ws)
      | jsonStr => unfold extract; rw [hG]; exact .liftB .jsonStr
      | latin1 => unfold extract; rw [hG]; exact .liftB (.text _)
      | ascii => unfold extract; rw [hG]; exact .liftB (.text _)
      | vec c join =>
        unfold extract; rw [hG]
        exact .bind (.liftF _) fun _ => .bind (.liftF _) fun _ => .bind (.liftB (.vecSplit _ _ _)) fun _ => .bind (.each _ _ _) fun _ => .pure _
      | set cs join unb =>
        unfold extract; rw [hG]
        exact .bind (.liftF _) fun _ => .bind (.liftF _) fun _ => .bind (.liftB (.setSplit _)) fun _ => .bind (.each _ _ _) fun _ => .pure _
      | seq cs join unb => unfold extract; rw [hG]; exact .bind (.seq ih _) fun _ => .pure _
      | unary op c => unfold extract; rw [hG]; exact .bind (ih _) fun _ => .pure _
      | lottery rec4 stamps osz smin smax =>
        unfold extract; rw [hG]
        exact .bind (.liftB (.uOracle _)) fun _ => .bind (.lotFilter _ _ _ _) fun _ => .bind (.ite (.lotFilter _ _ _ _) (.pure _)) fun _ =>
          .ite (.out _) (.bind (.lift _) fun _ => .bind (.lift _) fun _ => ih _)
      | picker pool =>
        unfold extract; rw [hG]
        exact .bind (.liftB .oracle) fun _ => .bind (.pickFilter _ _ _) fun _ => .ite
          (.bind (.liftF _) fun _ => .bind .curSize fun _ => .ite (.out _) (.out _))
          (.bind (.lift _) fun _ => .bind (.lift _) fun _ => ih _)

end BS
