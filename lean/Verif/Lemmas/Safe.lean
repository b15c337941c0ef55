import Verif.Spec.Wiring
import Verif.Lemmas.GalleyVec
import Verif.Lemmas.Invert
import Verif.Lemmas.Dict
import Verif.Props.Oracle

/-!
# What extraction leaves of the blob, how long the pieces are, and which undefined behaviour it avoids
-/

namespace BS
open BlobLike

/-- Not an access outside an object, nor pointer arithmetic outside an array. -/
def Out.Safe {α : Type} (o : Out α) : Prop := o ≠ .ub .oob ∧ o ≠ .ub .ptrArith

/-- From state `s`, `m` ends in a state satisfying `R`, does not touch memory outside its objects, and
a result satisfies `Q`. -/
def Tri {σ α : Type} (m : M σ α) (s : σ) (R : σ → Prop) (Q : α → σ → Prop) : Prop :=
  R (m s).2 ∧ (m s).1.Safe ∧ ∀ v, (m s).1 = .ok v → Q v (m s).2

namespace Tri
variable {σ α γ : Type} {R : σ → Prop} {s : σ}

theorem pure {a : α} {Q : α → σ → Prop} (hR : R s) (h : Q a s) : Tri (pure a) s R Q :=
  ⟨hR, ⟨by rintro ⟨⟩, by rintro ⟨⟩⟩, fun v hv => by cases hv; exact h⟩

theorem out {o : Out α} {Q : α → σ → Prop} (hR : R s) (ho : o.Safe) (h : ∀ v, o = .ok v → Q v s) :
    Tri (M.out o) s R Q := ⟨hR, ho, h⟩

theorem lift {o : Out α} {Q : α → σ → Prop} (hR : R s) (ho : o.Safe) (h : ∀ v, o = .ok v → Q v s) :
    Tri (M.lift o) s R Q := ⟨hR, ho, h⟩

theorem throwOOD {Q : α → σ → Prop} (hR : R s) : Tri (M.throwOOD) s R Q :=
  ⟨hR, ⟨by rintro ⟨⟩, by rintro ⟨⟩⟩, fun v hv => by cases hv⟩

theorem bind {m : M σ α} {f : α → M σ γ} {Q : α → σ → Prop} {P : γ → σ → Prop}
    (h : Tri m s R Q) (hf : ∀ a s', R s' → Q a s' → Tri (f a) s' R P) : Tri (m >>= f) s R P := by
  obtain ⟨h1, h2, h3⟩ := h
  unfold Tri
  rw [M.bind_apply]
  rcases hm : m s with ⟨o, s'⟩
  rw [hm] at h1 h2 h3
  cases o with
  | ok a => exact hf a s' h1 (h3 a rfl)
  | outOfData => exact ⟨h1, ⟨by rintro ⟨⟩, by rintro ⟨⟩⟩, fun v hv => by cases hv⟩
  | abort => exact ⟨h1, ⟨by rintro ⟨⟩, by rintro ⟨⟩⟩, fun v hv => by cases hv⟩
  | fuel => exact ⟨h1, ⟨by rintro ⟨⟩, by rintro ⟨⟩⟩, fun v hv => by cases hv⟩
  | ub r =>
    refine ⟨h1, ⟨?_, ?_⟩, fun v hv => by cases hv⟩
    · rintro ⟨⟩; exact h2.1 rfl
    · rintro ⟨⟩; exact h2.2 rfl

theorem mono {m : M σ α} {Q Q' : α → σ → Prop} {R' : σ → Prop} (h : Tri m s R Q)
    (hR : ∀ s, R s → R' s) (hQ : ∀ v s, Q v s → Q' v s) : Tri m s R' Q' :=
  ⟨hR _ h.1, h.2.1, fun v hv => hQ _ _ (h.2.2 v hv)⟩

theorem get {Q : σ → σ → Prop} (hR : R s) (h : Q s s) : Tri M.get s R Q :=
  ⟨hR, ⟨by rintro ⟨⟩, by rintro ⟨⟩⟩, fun v hv => by cases hv; exact h⟩

theorem ite {c : Prop} [Decidable c] {m n : M σ α} {Q : α → σ → Prop} (h1 : c → Tri m s R Q)
    (h2 : ¬ c → Tri n s R Q) : Tri (if c then m else n) s R Q := by
  split
  · exact h1 ‹_›
  · exact h2 ‹_›

end Tri

theorem ckInt_safe (i : Int) : (ckInt i).Safe := by
  rcases ckInt_cases i with h | h <;> rw [h] <;> exact ⟨by rintro ⟨⟩, by rintro ⟨⟩⟩

theorem Out.Safe.ok {α : Type} (a : α) : (Out.ok a).Safe := ⟨by rintro ⟨⟩, by rintro ⟨⟩⟩

theorem toIntRange_safe (a b : Int) (x : FV) : (FV.toIntRange a b x).Safe := by
  unfold FV.toIntRange
  cases x <;> dsimp only <;> (try split) <;> exact ⟨by rintro ⟨⟩, by rintro ⟨⟩⟩

theorem Out.Safe.bind {α γ : Type} {o : Out α} {f : α → Out γ} (h : o.Safe) (hf : ∀ a, (f a).Safe) :
    (o.bind f).Safe := by
  cases o with
  | ok a => exact hf a
  | ub r =>
    refine ⟨?_, ?_⟩
    · intro e; cases e; exact h.1 rfl
    · intro e; cases e; exact h.2 rfl
  | _ => exact ⟨by rintro ⟨⟩, by rintro ⟨⟩⟩

/-! ## Chopping -/

/-- The rest of the blob: what is left is a suffix. -/
abbrev Suf (a0 : ABlob) : ABlob → Prop := fun a => a <:+ a0

theorem tri_chop {a0 a : ABlob} (n : Nat) (h : a <:+ a0) :
    Tri (chop n : M ABlob ABlob) a (Suf a0)
      (fun c a' => c.length = n ∧ c.length + a'.length = a.length ∧ c ++ a' = a) := by
  unfold Tri
  rw [chop_abs]
  split
  · exact ⟨h, ⟨by rintro ⟨⟩, by rintro ⟨⟩⟩, fun v hv => by cases hv⟩
  · refine ⟨(List.drop_suffix n a).trans h, ⟨by rintro ⟨⟩, by rintro ⟨⟩⟩, fun v hv => ?_⟩
    cases hv
    refine ⟨by rw [List.length_take]; omega, ?_, List.take_append_drop _ _⟩
    show (a.take n).length + (a.drop n).length = a.length
    rw [List.length_take, List.length_drop]; omega

theorem bytes_safe {c : ABlob} (h : c.length ≠ 0) : (bytes c : Out Bytes).Safe := by
  show (if List.length c = 0 then (.ub .ptrArith : Out Bytes) else .ok c).Safe
  rw [if_neg h]; exact .ok _

theorem bytes_ok {c : ABlob} {v : Bytes} (h : (bytes c : Out Bytes) = .ok v) : v = c := by
  change (if List.length c = 0 then (.ub .ptrArith : Out Bytes) else .ok c) = _ at h
  split at h <;> cases h
  rfl

theorem Tri.of_eq {σ α : Type} {m : M σ α} {s s' : σ} {o : Out α} {R : σ → Prop} {Q : α → σ → Prop}
    (h : m s = (o, s')) (hR : R s') (ho : o.Safe) (hQ : ∀ v, o = .ok v → Q v s') : Tri m s R Q := by
  unfold Tri; rw [h]; exact ⟨hR, ho, hQ⟩

theorem Out.Safe.ood {α : Type} : (Out.outOfData : Out α).Safe := ⟨by rintro ⟨⟩, by rintro ⟨⟩⟩
theorem Out.Safe.abort {α : Type} : (Out.abort : Out α).Safe := ⟨by rintro ⟨⟩, by rintro ⟨⟩⟩
theorem Out.Safe.fuel {α : Type} : (Out.fuel : Out α).Safe := ⟨by rintro ⟨⟩, by rintro ⟨⟩⟩

theorem i8_text_ok : ∀ k : Fin 256, ∃ l, toStringPrecise .i8 (decode .i8 [UInt8.ofNat k.val]) = .ok l := by
  intro k
  have h : ∀ k : Fin 256, (match toStringPrecise .i8 (decode .i8 [UInt8.ofNat k.val]) with
    | .ok _ => true | _ => false) = true := by decide +kernel
  have := h k
  split at this
  · next l hl => exact ⟨l, hl⟩
  · cases this

/-- Printing a value never fails. -/
theorem toString_ok (t : ArithTy) {bs : Bytes} (h : bs.length = t.size) :
    ∃ l, toStringPrecise t (decode t bs) = .ok l := by
  cases t
  case i8 =>
    match bs, h with
    | [x], _ =>
      have := i8_text_ok ⟨x.toNat, x.toNat_lt⟩
      simpa using this
  case float => exact ⟨_, toString_float _⟩
  case double => exact ⟨_, toString_double _⟩
  all_goals
    generalize decode _ bs = v
    cases v <;> exact ⟨_, rfl⟩

theorem tri_arith {a0 a : ABlob} (t : ArithTy) (h : a <:+ a0) :
    Tri (extractArithStr t : M ABlob Bytes) a (Suf a0) (fun _ a' => a'.length + t.size = a.length) := by
  have e := extractArithStr_abs t a
  by_cases hl : a.length < t.size
  · rw [if_pos hl] at e
    exact .of_eq e h .ood (by simp)
  · rw [if_neg hl] at e
    obtain ⟨l, hl'⟩ := toString_ok t (bs := a.take t.size) (by rw [List.length_take]; omega)
    rw [hl'] at e
    exact .of_eq e ((List.drop_suffix _ _).trans h) (.ok _)
      (fun _ _ => by rw [List.length_drop]; omega)

theorem tri_oracle {a0 a : ABlob} (h : a <:+ a0) :
    Tri (oracle : M ABlob Nat) a (Suf a0) (fun o a' => o ≤ 65535 ∧ a'.length + 2 = a.length) := by
  have e := oracle_abs a
  by_cases hl : a.length < 2
  · rw [if_pos hl] at e
    exact .of_eq e h .ood (by simp)
  · rw [if_neg hl] at e
    refine .of_eq e ((List.drop_suffix _ _).trans h) (.ok _) fun v hv => ?_
    cases hv
    have := leNat_take_lt a 2
    exact ⟨by omega, by rw [List.length_drop]; omega⟩

theorem tri_uOracle {a0 a : ABlob} (w : Nat) (h : a <:+ a0) :
    Tri (uOracle w : M ABlob Nat) a (Suf a0) (fun o a' => o ≤ uMax w ∧ 1 ≤ uMax w ∧ uMax w < W64 ∧
      1 ≤ w ∧ a'.length + w = a.length) := by
  cases ht : uOracleTy w with
  | none =>
    have e : (uOracle w : M ABlob Nat) a = (.abort, a) := by unfold uOracle; rw [ht]; rfl
    exact .of_eq e h .abort (by simp)
  | some ty =>
    have e := uOracle_abs ht a
    by_cases hl : a.length < w
    · rw [if_pos hl] at e
      exact .of_eq e h .ood (by simp)
    · rw [if_neg hl] at e
      refine .of_eq e ((List.drop_suffix _ _).trans h) (.ok _) fun v hv => ?_
      cases hv
      have := leNat_take_lt a w
      have hw : w = 1 ∨ w = 2 ∨ w = 4 ∨ w = 8 := by
        unfold uOracleTy at ht
        split at ht <;> simp_all
      have hm : 1 ≤ uMax w ∧ uMax w < W64 := by
        rcases hw with rfl | rfl | rfl | rfl <;> decide
      refine ⟨by unfold uMax; omega, hm.1, hm.2, by omega, by rw [List.length_drop]; omega⟩

theorem tri_dict {a0 a : ABlob} {ws : List Bytes} (hn : 1 ≤ ws.length) (hb : ws.length ≤ 2 ^ 53)
    (h : a <:+ a0) : Tri (extractDict ws : M ABlob Bytes) a (Suf a0)
      (fun _ a' => a'.length + (chooseStampSize ws.length).1 = a.length) := by
  obtain ⟨h1, h2⟩ := extractDict_abs ws hn hb a
  by_cases hl : a.length < (chooseStampSize ws.length).1
  · exact .of_eq (h1 hl) h .ood (by simp)
  · obtain ⟨i, hi, _, e⟩ := h2 (by omega)
    exact .of_eq e ((List.drop_suffix _ _).trans h) (.ok _)
      (fun _ _ => by rw [List.length_drop]; omega)

theorem tri_jsonStr {a0 a : ABlob} (h : a <:+ a0) :
    Tri (extractJsonStr : M ABlob Bytes) a (Suf a0) (fun _ a' => a'.length + 1 = a.length) := by
  unfold extractJsonStr
  refine .bind (tri_dict (by decide +kernel) (by decide +kernel) h) fun w a' hR hQ => .pure hR ?_
  have : (chooseStampSize lcAlphaSmall.length).1 = 1 := by decide +kernel
  rw [this] at hQ; exact hQ

theorem tri_chop2 {a0 a : ABlob} {mn mx : Nat} (hle : mn ≤ mx) (h : a <:+ a0) :
    Tri (chop2 mn mx : M ABlob ABlob) a (Suf a0) (fun c a' => mn ≤ c.length ∧ c.length + a'.length = a.length) := by
  by_cases h1 : a.length < mn
  · have e : (chop2 mn mx : M ABlob ABlob) a = (.outOfData, a) := by
      unfold chop2; rw [if_pos (show BlobLike.size a < mn from h1)]
    exact .of_eq e h .ood (by simp)
  · by_cases h2 : mx ≤ a.length
    · have e : (chop2 mn mx : M ABlob ABlob) a = chop mx a := by
        unfold chop2
        rw [if_neg (show ¬ BlobLike.size a < mn from h1), if_pos (show mx ≤ BlobLike.size a from h2)]
      have := tri_chop mx h
      unfold Tri at this ⊢
      rw [e]
      exact ⟨this.1, this.2.1, fun v hv => ⟨by rw [(this.2.2 v hv).1]; exact hle, (this.2.2 v hv).2.1⟩⟩
    · have e : (chop2 mn mx : M ABlob ABlob) a = chop a.length a := by
        unfold chop2
        rw [if_neg (show ¬ BlobLike.size a < mn from h1), if_neg (show ¬ mx ≤ BlobLike.size a from h2)]
        rfl
      have := tri_chop a.length h
      unfold Tri at this ⊢
      rw [e]
      exact ⟨this.1, this.2.1, fun v hv => ⟨by rw [(this.2.2 v hv).1]; omega, (this.2.2 v hv).2.1⟩⟩

theorem tri_text {a0 a : ABlob} (f : UInt8 → UInt8) (h : a <:+ a0) :
    Tri (extractText f : M ABlob Bytes) a (Suf a0) (fun _ a' => a'.length + 1 ≤ a.length) := by
  unfold extractText
  refine .bind (tri_chop2 (by decide) h) fun c a' hR hQ => ?_
  refine .bind (Q := fun _ a'' => a'' = a') (.lift hR (bytes_safe (by omega)) fun _ _ => rfl)
    fun v a'' hR hv => .pure hR ?_
  subst hv
  omega

/-! ## Galleys -/

/-- Total length of pieces. -/
def totalLen (l : List ABlob) : Nat := (l.map List.length).sum

@[simp] theorem totalLen_nil : totalLen [] = 0 := rfl
@[simp] theorem totalLen_cons (c : ABlob) (l : List ABlob) : totalLen (c :: l) = List.length c + totalLen l := by
  simp [totalLen]

theorem mem_le_totalLen {c : ABlob} {l : List ABlob} (h : c ∈ l) : List.length c ≤ totalLen l := by
  induction l with
  | nil => cases h
  | cons x xs ih =>
    rw [totalLen_cons]
    rcases List.mem_cons.1 h with rfl | h
    · omega
    · have := ih h; omega

/-- Pieces cut from `a`. -/
abbrev Cut (a : ABlob) (k : Nat) : List ABlob → ABlob → Prop := fun l a' => totalLen l + a'.length + k ≤ a.length

theorem tri_fixedLoop {a0 : ABlob} (n : Nat) (mn : Int) : ∀ {a : ABlob}, a <:+ a0 →
    Tri (fixedLoop n mn : M ABlob (List ABlob)) a (Suf a0) (Cut a 0) := by
  induction n with
  | zero => exact fun h => .out h .fuel (by simp)
  | succ n ih =>
    intro a h
    unfold fixedLoop
    refine .bind (.get (Q := fun b a' => b = a ∧ a' = a) h ⟨rfl, rfl⟩) ?_
    rintro b a' hR ⟨rfl, rfl⟩
    refine .ite (fun _ => ?_) fun _ => .pure hR (by simp)
    refine .bind (tri_chop _ hR) fun c a1 hR1 ⟨_, h2, _⟩ => ?_
    refine .bind (ih hR1) fun r a2 hR2 hr => .pure hR2 ?_
    unfold Cut at hr ⊢; rw [totalLen_cons]; omega

theorem tri_sizeOracles {a0 : ABlob} (n : Nat) (tot : Int) : ∀ {a : ABlob}, a <:+ a0 →
    Tri (sizeOracles n tot : M ABlob _) a (Suf a0) (fun _ a' => a'.length + 2 * n = a.length) := by
  induction n generalizing tot with
  | zero => exact fun h => .pure h (by simp)
  | succ n ih =>
    intro a h
    unfold sizeOracles
    refine .bind (tri_oracle h) fun o a1 hR ⟨_, h2⟩ => ?_
    refine .bind (Q := fun _ a' => a' = a1) (.lift hR (ckInt_safe _) fun _ _ => rfl) ?_
    rintro t a' hR' rfl
    refine .bind (ih _ hR) fun r a2 hR2 hr => .pure hR2 ?_
    omega

theorem tri_unbChopLoop {a0 : ABlob} (mn total var : Int) (os : List Nat) (rem : FV) :
    ∀ {a : ABlob}, a <:+ a0 →
    Tri (unbChopLoop mn total var os rem : M ABlob (List ABlob)) a (Suf a0) (Cut a 0) := by
  induction os generalizing rem with
  | nil => exact fun h => .pure h (by simp)
  | cons o os ih =>
    intro a h
    unfold unbChopLoop
    dsimp only
    refine .bind (Q := fun _ a' => a' = a) (.lift h (toIntRange_safe _ _ _) fun _ _ => rfl) ?_
    rintro t a' hR rfl
    refine .bind (tri_chop _ hR) fun c a1 hR1 ⟨_, h2, _⟩ => ?_
    refine .bind (ih _ hR1) fun r a2 hR2 hr => .pure hR2 ?_
    unfold Cut at hr ⊢; rw [totalLen_cons]; omega

theorem Tri.lift' {σ α γ : Type} {o : Out α} {s : σ} {R : σ → Prop} {f : α → M σ γ} {P : γ → σ → Prop}
    (ho : o.Safe) (hR : R s) (h : ∀ v, o = .ok v → Tri (f v) s R P) : Tri (M.lift o >>= f) s R P := by
  refine .bind (Q := fun v s' => s' = s ∧ o = .ok v) (.lift hR ho fun v hv => ⟨rfl, hv⟩) ?_
  rintro v s' _ ⟨rfl, hv⟩
  exact h v hv

theorem Tri.get' {σ γ : Type} {s : σ} {R : σ → Prop} {f : σ → M σ γ} {P : γ → σ → Prop}
    (h : Tri (f s) s R P) : Tri (M.get >>= f) s R P := h

theorem tri_vecUnbounded {a0 a : ABlob} (mn : Int) (h : a <:+ a0) :
    Tri (vecUnbounded mn : M ABlob (List ABlob)) a (Suf a0) (Cut a 2) := by
  unfold vecUnbounded
  refine .get' (.ite (fun _ => .out h ⟨by rintro ⟨⟩, by rintro ⟨⟩⟩ (by simp)) fun _ => ?_)
  dsimp only
  refine .bind (tri_oracle h) fun co a1 hR ⟨_, h2⟩ => ?_
  refine .bind (tri_sizeOracles _ _ hR) fun r a2 hR2 hr => ?_
  refine .get' ?_
  refine .lift' (ckInt_safe _) hR2 fun fs _ => .lift' (ckInt_safe _) hR2 fun v _ => ?_
  refine (tri_unbChopLoop _ _ _ _ _ hR2).mono (fun _ h => h) fun l a3 h3 => ?_
  unfold Cut at h3 ⊢; omega

theorem tri_variatedLoop {a0 : ABlob} (n : Nat) (mn mx : Int) : ∀ {a : ABlob}, a <:+ a0 →
    Tri (variatedLoop n mn mx : M ABlob (List ABlob)) a (Suf a0)
      (fun l a' => totalLen l + a'.length + 2 * l.length ≤ a.length) := by
  induction n with
  | zero => exact fun h => .out h .fuel (by simp)
  | succ n ih =>
    intro a h
    unfold variatedLoop
    refine .lift' (ckInt_safe _) h fun need _ => .get' (.ite (fun _ => .pure h (by simp)) fun _ => ?_)
    refine .bind (tri_oracle h) fun co a1 hR ⟨_, h2⟩ => ?_
    refine .lift' ?_ hR fun sz _ => .get' ?_
    · unfold oracleProportion
      exact .bind (toIntRange_safe _ _ _) fun _ => .ok _
    dsimp only
    refine .bind (tri_chop _ hR) fun c a2 hR2 ⟨_, h3, _⟩ => ?_
    refine .bind (ih hR2) fun r a3 hR3 hr => .pure hR3 ?_
    simp only [totalLen_cons, List.length_cons] at hr ⊢; omega

theorem tri_vecSplit {a0 a : ABlob} (n : Nat) (mn mx : Int) (h : a <:+ a0) :
    Tri (vecSplit n mn mx : M ABlob (List ABlob)) a (Suf a0) (fun l a' => totalLen l + a'.length ≤ a.length ∧
      (mn ≠ mx → l ≠ [] → totalLen l + 2 ≤ a.length)) := by
  unfold vecSplit
  refine .get' (.ite (fun _ => .throwOOD h) fun _ => .ite (fun hm => ?_) fun hm => .ite (fun _ => ?_) fun _ =>
    .lift' (ckInt_safe _) h fun _ _ => ?_)
  · exact (tri_fixedLoop _ _ h).mono (fun _ h => h) fun l a' h' => ⟨by unfold Cut at h'; omega, fun c => absurd hm c⟩
  · exact (tri_vecUnbounded _ h).mono (fun _ h => h) fun l a' h' => by unfold Cut at h'; exact ⟨by omega, fun _ _ => by omega⟩
  · refine (tri_variatedLoop _ _ _ h).mono (fun _ h => h) fun l a' h' => ⟨by omega, fun _ hn => ?_⟩
    have := List.length_pos_iff.2 hn
    omega

theorem tri_setModLoop {a0 : ABlob} (nUnb : Nat) (ss : List SizePair) (p u : FV) :
    ∀ {a : ABlob}, a <:+ a0 →
    Tri (setModLoop nUnb ss p u : M ABlob SetMods) a (Suf a0) (fun _ a' => a'.length ≤ a.length) := by
  induction ss generalizing p u with
  | nil => exact fun h => .pure h (by simp)
  | cons s ss ih =>
    intro a h
    unfold setModLoop
    refine .ite (fun _ => ?_) fun _ => .ite (fun _ => .ite (fun _ => ?_) fun _ => ?_) fun _ => ?_
    · exact .bind (ih _ _ h) fun r a1 hR hr => .pure hR hr
    · exact .bind (ih _ _ h) fun r a1 hR hr => .pure hR hr
    · refine .bind (tri_oracle h) fun o a1 hR ⟨_, h2⟩ => ?_
      exact .bind (ih _ _ hR) fun r a2 hR hr => .pure hR (by omega)
    · refine .bind (tri_oracle h) fun o a1 hR ⟨_, h2⟩ => ?_
      refine .lift' (ckInt_safe _) hR fun d _ => ?_
      exact .bind (ih _ _ hR) fun r a2 hR hr => .pure hR (by omega)

theorem tri_setChopLoop {a0 : ABlob} (kv ku : FV) (ss : List SizePair) (ms : List FV) (vr ur : FV) :
    ∀ {a : ABlob}, a <:+ a0 →
    Tri (setChopLoop kv ku ss ms vr ur : M ABlob (List ABlob)) a (Suf a0) (Cut a 0) := by
  induction ss generalizing ms vr ur with
  | nil => intro a h; unfold setChopLoop; exact .pure h (by simp)
  | cons s ss ih =>
    intro a h
    cases ms with
    | nil => unfold setChopLoop; exact .pure h (by simp)
    | cons m ms =>
      unfold setChopLoop
      dsimp only
      refine .ite (fun _ => ?_) fun _ => .ite (fun _ => ?_) fun _ => ?_
      · refine .lift' (toIntRange_safe _ _ _) h fun el _ => .lift' (ckInt_safe _) h fun el' _ => ?_
        refine .bind (tri_chop _ h) fun c a1 hR1 ⟨_, h2, _⟩ => ?_
        refine .bind (ih _ _ _ hR1) fun r a2 hR2 hr => .pure hR2 ?_
        unfold Cut at hr ⊢; rw [totalLen_cons]; omega
      · refine .bind (tri_chop _ h) fun c a1 hR1 ⟨_, h2, _⟩ => ?_
        refine .bind (ih _ _ _ hR1) fun r a2 hR2 hr => .pure hR2 ?_
        unfold Cut at hr ⊢; rw [totalLen_cons]; omega
      · refine .lift' (ckInt_safe _) h fun d _ => ?_
        refine .lift' (toIntRange_safe _ _ _) h fun el _ => .lift' (ckInt_safe _) h fun el' _ => ?_
        refine .bind (tri_chop _ h) fun c a1 hR1 ⟨_, h2, _⟩ => ?_
        refine .bind (ih _ _ _ hR1) fun r a2 hR2 hr => .pure hR2 ?_
        unfold Cut at hr ⊢; rw [totalLen_cons]; omega

theorem setTotals_safe (ss : List SizePair) (t : SetTotals) : (setTotals ss t).Safe := by
  induction ss generalizing t with
  | nil => exact .ok _
  | cons s ss ih =>
    unfold setTotals
    refine .bind (ckInt_safe _) fun f => ?_
    split
    · exact .bind (ckInt_safe _) fun _ => .bind (ckInt_safe _) fun _ => ih _
    · split <;> exact ih _

theorem tri_setSplit {a0 a : ABlob} (ss : List SizePair) (h : a <:+ a0) :
    Tri (setSplit ss : M ABlob (List ABlob)) a (Suf a0) (Cut a 0) := by
  unfold setSplit
  refine .lift' (setTotals_safe _ _) h fun t _ => .get' (.ite (fun _ => .throwOOD h) fun _ => ?_)
  dsimp only
  refine .bind (Q := fun _ a' => a'.length ≤ a.length) ?_ fun lim a1 hR1 h1 => ?_
  · unfold setLimit
    refine .ite (fun _ => ?_) fun _ => .pure h (le_refl _)
    refine .bind (tri_oracle h) fun o a1 hR ⟨_, h2⟩ => ?_
    exact .lift' (toIntRange_safe _ _ _) hR fun p _ => .pure hR (by omega)
  refine .bind (tri_setModLoop _ _ _ _ hR1) fun r a2 hR2 h2 => ?_
  refine .lift' ?_ hR2 fun fv _ => .lift' (ckInt_safe _) hR2 fun fu _ => ?_
  · split
    · exact toIntRange_safe _ _ _
    · exact .ok _
  refine (tri_setChopLoop _ _ _ _ _ _ hR2).mono (fun _ h => h) fun l a3 h3 => ?_
  unfold Cut at h3 ⊢; omega

/-! ## Size queries -/

/-- Size queries touch no memory outside objects. -/
def SafeF {α : Type} (m : M Flags α) : Prop := ∀ fl, (m fl).1.Safe

namespace SafeF
variable {α γ : Type}
theorem pure (a : α) : SafeF (pure a : M Flags α) := fun _ => .ok _
theorem lift {o : Out α} (h : o.Safe) : SafeF (M.lift o : M Flags α) := fun _ => h
theorem bind {m : M Flags α} {f : α → M Flags γ} (h : SafeF m) (hf : ∀ a, SafeF (f a)) : SafeF (m >>= f) := by
  intro fl
  have h := h fl
  rw [M.bind_apply]
  rcases hm : m fl with ⟨o, fl'⟩
  rw [hm] at h
  cases o with
  | ok a => exact hf a fl'
  | ub r =>
    refine ⟨?_, ?_⟩
    · intro e; cases e; exact h.1 rfl
    · intro e; cases e; exact h.2 rfl
  | _ => exact ⟨by rintro ⟨⟩, by rintro ⟨⟩⟩
theorem ite {c : Prop} [Decidable c] {m n : M Flags α} (h : SafeF m) (h' : SafeF n) :
    SafeF (if c then m else n) := by split <;> assumption
end SafeF

theorem sumInts_safe (l : List Int) (a : Int) : (sumInts l a).Safe := by
  induction l generalizing a with
  | nil => exact .ok _
  | cons x xs ih => exact .bind (ckInt_safe _) fun _ => ih _

theorem foldlM_safe (ss : List SizePair) (a : Int) :
    (ss.foldlM (fun (a : Int) (s : SizePair) => ckInt (a + s.1)) a : Out Int).Safe := by
  induction ss generalizing a with
  | nil => exact .ok _
  | cons x xs ih => rw [List.foldlM_cons]; exact .bind (ckInt_safe _) fun _ => ih _

theorem setMaxSize_safe (ss : List SizePair) (a : Int) : (setMaxSize ss a).Safe := by
  induction ss generalizing a with
  | nil => exact .ok _
  | cons x xs ih =>
    unfold setMaxSize
    refine .bind (ckInt_safe _) fun _ => ?_
    dsimp only
    split
    · exact .ok _
    · exact ih _

theorem safe_queryAll {q : Id → M Flags Int} (h : ∀ i, SafeF (q i)) (l : List Id) : SafeF (queryAll q l) := by
  induction l with
  | nil => exact .pure _
  | cons x xs ih => exact .bind (h _) fun _ => .bind ih fun _ => .pure _

theorem safe_pickMin {q : Id → M Flags Int} (h : ∀ i, SafeF (q i)) (l : List Id) (r : Int) :
    SafeF (pickMinLoop q l r) := by
  induction l generalizing r with
  | nil => exact .pure _
  | cons x xs ih => exact .bind (h _) fun _ => ih _

theorem safe_pickMax {q : Id → M Flags Int} (h : ∀ i, SafeF (q i)) (l : List Id) (r : Int) :
    SafeF (pickMaxLoop q l r) := by
  induction l generalizing r with
  | nil => exact .pure _
  | cons x xs ih => exact .bind (h _) fun _ => .ite (.pure _) (ih _)

theorem safe_sizeQ (G : Graph) (n : Nat) (sel : Sel) (i : Id) : SafeF (sizeQ G n sel i) := by
  induction n generalizing sel i with
  | zero => exact fun _ => .fuel
  | succ n ih =>
    unfold sizeQ
    cases hG : G i with
    | none => exact fun _ => ⟨by rintro ⟨⟩, by rintro ⟨⟩⟩
    | some nd =>
      cases nd with
      | vec c j =>
        cases sel
        · exact .bind (ih _ _) fun _ => .bind (ih _ _) fun _ => .pure _
        · exact .pure _
      | set cs j unb =>
        cases sel
        · exact .bind (safe_queryAll (ih _) cs) fun _ => .bind (safe_queryAll (ih _) cs) fun _ =>
            .lift (.bind (foldlM_safe _ _) fun _ => .ok _)
        · cases unb
          · exact .bind (safe_queryAll (ih _) cs) fun _ => .bind (safe_queryAll (ih _) cs) fun _ =>
              .lift (setMaxSize_safe _ _)
          · exact .pure _
      | seq cs j unb =>
        cases sel
        · cases unb <;> exact .bind (safe_queryAll (ih _) cs) fun _ => .lift (sumInts_safe _ _)
        · cases unb
          · exact .bind (safe_queryAll (ih _) cs) fun _ => .lift (sumInts_safe _ _)
          · exact .pure _
      | unary op c =>
        cases sel
        · exact ih _ _
        · exact .pure _
      | lottery r st osz mn mx =>
        cases sel
        · exact .lift (ckInt_safe _)
        · exact .ite (.pure _) (.lift (ckInt_safe _))
      | picker pool =>
        cases sel
        · exact .bind (fun _ => .ok _) fun fl => .ite (.pure _)
            (.bind (fun _ => .ok _) fun _ => .bind (safe_pickMin (ih _) _ _) fun _ =>
              .bind (fun _ => .ok _) fun _ => .ite (.pure _) (.pure _))
        · refine .bind (fun _ => .ok _) fun fl => .ite (.pure _)
            (.bind (fun _ => .ok _) fun _ => .bind (safe_pickMax (ih _) _ _) fun r =>
              .bind (fun _ => .ok _) fun _ => ?_)
          cases r <;> exact .pure _
      | _ => exact .pure _

/-! ## Extraction -/

/-- What extraction leaves of the current blob. -/
abbrev XSuf (a0 : ABlob) : Flags × ABlob → Prop := fun s => s.2 <:+ a0

theorem tri_liftB {α : Type} {m : M ABlob α} {a0 : ABlob} {s : Flags × ABlob} {Q : α → ABlob → Prop}
    (h : Tri m s.2 (Suf a0) Q) : Tri (liftB m) s (XSuf a0) (fun v s' => Q v s'.2) := h

theorem tri_liftF {α : Type} {m : M Flags α} {a0 : ABlob} {s : Flags × ABlob} (h : SafeF m)
    (hR : s.2 <:+ a0) : Tri (liftF m : XM ABlob α) s (XSuf a0) (fun _ s' => s'.2 = s.2) :=
  ⟨hR, h s.1, fun _ _ => rfl⟩

theorem tri_curSize {a0 : ABlob} {s : Flags × ABlob} (hR : s.2 <:+ a0) :
    Tri (curSize : XM ABlob Nat) s (XSuf a0) (fun v s' => v = s.2.length ∧ s' = s) :=
  ⟨hR, .ok _, fun v hv => by cases hv; exact ⟨rfl, rfl⟩⟩

theorem tri_onBlob {α : Type} {m : XM ABlob α} {a0 c c0 : ABlob} {s : Flags × ABlob} {Q : α → Prop}
    (hR : s.2 <:+ a0) (h : ∀ fl, Tri m (fl, c) (XSuf c0) (fun v _ => Q v)) :
    Tri (onBlob c m) s (XSuf a0) (fun v s' => Q v ∧ s'.2 = s.2) :=
  ⟨hR, (h s.1).2.1, fun v hv => ⟨(h s.1).2.2 v hv, rfl⟩⟩

theorem tri_extractEach {a0 : ABlob} {ex : Id → XM ABlob Bytes}
    (h : ∀ i s, Tri (ex i) s (XSuf s.2) (fun _ _ => True)) (l : List (Id × ABlob)) :
    ∀ (k : Int) {s : Flags × ABlob}, s.2 <:+ a0 → Tri (extractEach ex k l) s (XSuf a0) (fun _ s' => s'.2 = s.2) := by
  induction l with
  | nil => exact fun k s hR => .pure hR rfl
  | cons p r ih =>
    obtain ⟨i, c⟩ := p
    intro k s hR
    unfold extractEach
    refine .bind (tri_onBlob hR fun fl => h i (fl, c)) fun v s1 hR1 ⟨_, h1⟩ => ?_
    refine .lift' (ckInt_safe _) hR1 fun k' _ => ?_
    refine .bind (ih k' hR1) fun vs s2 hR2 h2 => .pure hR2 (h2.trans h1)

theorem tri_extractSeq {a0 : ABlob} {ex : Id → XM ABlob Bytes}
    (h : ∀ i s, Tri (ex i) s (XSuf s.2) (fun _ _ => True)) (l : List Id) :
    ∀ {s : Flags × ABlob}, s.2 <:+ a0 → Tri (extractSeq ex l) s (XSuf a0) (fun _ _ => True) := by
  induction l with
  | nil => exact fun hR => .pure hR trivial
  | cons i r ih =>
    intro s hR
    unfold extractSeq
    refine .bind ((h i s).mono (fun s' h' => h'.trans hR) fun _ _ h => h) fun v s1 hR1 _ => ?_
    exact .bind (ih hR1) fun vs s2 hR2 h2 => .pure hR2 trivial

theorem tri_pickFilter {a0 : ABlob} {qmin qmax : Id → M Flags Int} (h1 : ∀ i, SafeF (qmin i))
    (h2 : ∀ i, SafeF (qmax i)) (l : List Id) : ∀ {s : Flags × ABlob}, s.2 <:+ a0 →
    Tri (pickFilter qmin qmax l : XM ABlob _) s (XSuf a0)
      (fun r s' => s'.2 = s.2 ∧ r.1.length ≤ l.length ∧ r.2.length ≤ l.length) := by
  induction l with
  | nil => exact fun hR => .pure hR ⟨rfl, by simp, by simp⟩
  | cons i is ih =>
    intro s hR
    unfold pickFilter
    refine .bind (tri_liftF (h1 i) hR) fun mn s1 hR1 e1 => ?_
    refine .bind (tri_curSize hR1) ?_
    rintro sz s2 hR2 ⟨_, rfl⟩
    refine .ite (fun _ => ?_) fun _ => ?_
    · refine .bind (tri_liftF (h2 i) hR1) fun mx s3 hR3 e3 => ?_
      refine .bind (ih hR3) fun r s4 hR4 h4 => .ite (fun _ => .pure hR4 ?_) fun _ => .pure hR4 ?_
      · exact ⟨by rw [h4.1, e3, e1], by simp only [List.length_cons]; omega, by simp only [List.length_cons]; omega⟩
      · exact ⟨by rw [h4.1, e3, e1], by simp only [List.length_cons]; omega, by simp only [List.length_cons]; omega⟩
    · refine (ih hR1).mono (fun _ h => h) fun r s4 h4 => ⟨by rw [h4.1, e1], ?_, ?_⟩ <;>
      simp only [List.length_cons] <;> omega

theorem safe_softFilter (rec4 : Bool) {qmin qmax : Id → M Flags Int} (h1 : ∀ i, SafeF (qmin i))
    (h2 : ∀ i, SafeF (qmax i)) (i : Id) (d : Int) : SafeF (softFilter rec4 qmin qmax i d) := by
  unfold softFilter
  exact .ite (.pure _) (.bind (h2 i) fun _ => .ite (.pure _) (.bind (h1 i) fun _ =>
    .bind (.lift (ckInt_safe _)) fun _ => .pure _))

theorem tri_lotFilter {a0 : ABlob} (rec4 : Bool) {qmin qmax : Id → M Flags Int} (h1 : ∀ i, SafeF (qmin i))
    (h2 : ∀ i, SafeF (qmax i)) (l : List Id) : ∀ {s : Flags × ABlob}, s.2 <:+ a0 →
    Tri (lotFilter rec4 qmin qmax l : XM ABlob _) s (XSuf a0)
      (fun r s' => s'.2 = s.2 ∧ r.length ≤ l.length) := by
  induction l with
  | nil => exact fun hR => .pure hR ⟨rfl, by simp⟩
  | cons i is ih =>
    intro s hR
    unfold lotFilter
    refine .bind (tri_liftF (h1 i) hR) fun mn s1 hR1 e1 => ?_
    refine .bind (tri_curSize hR1) ?_
    rintro sz s2 hR2 ⟨_, rfl⟩
    refine .ite (fun _ => ?_) fun _ => ?_
    · refine (ih hR1).mono (fun _ h => h) fun r s4 h4 => ⟨by rw [h4.1, e1], ?_⟩
      simp only [List.length_cons]; omega
    · refine .bind (tri_liftF (safe_softFilter rec4 h1 h2 i _) hR1) fun ok s3 hR3 e3 => ?_
      refine .bind (ih hR3) fun r s4 hR4 h4 => .pure hR4 ⟨by rw [h4.1, e3, e1], ?_⟩
      split <;> simp only [List.length_cons] <;> omega

theorem tri_extract {G : Graph} (hg : WellBuilt G) (n : Nat) (i : Id) (s : Flags × ABlob) :
    Tri (extract G n i : XM ABlob Bytes) s (XSuf s.2) (fun _ _ => True) := by
  induction n generalizing i s with
  | zero => exact .out (List.suffix_refl _) .fuel (by simp)
  | succ n ih =>
    unfold extract
    have h0 : s.2 <:+ s.2 := List.suffix_refl _
    cases hG : G i with
    | none => exact .out h0 ⟨by rintro ⟨⟩, by rintro ⟨⟩⟩ (by simp)
    | some nd =>
      have weaken : ∀ {m : XM ABlob Bytes} {Q}, Tri m s (XSuf s.2) Q → Tri m s (XSuf s.2) (fun _ _ => True) :=
        fun h => h.mono (fun _ h => h) fun _ _ _ => trivial
      cases nd with
      | arith t => exact weaken (tri_liftB (tri_arith t h0))
      | dict ws =>
        obtain ⟨h1, h2⟩ := hg.dict i ws hG
        exact weaken (tri_liftB (tri_dict (List.length_pos_iff.2 h1) h2 h0))
      | jsonStr => exact weaken (tri_liftB (tri_jsonStr h0))
      | latin1 => exact weaken (tri_liftB (tri_text _ h0))
      | ascii => exact weaken (tri_liftB (tri_text _ h0))
      | user u =>
        refine .bind (Q := fun _ _ => True) ⟨h0, .ok _, fun _ _ => trivial⟩ fun v s1 hR1 _ => ?_
        dsimp only
        refine .bind (tri_curSize hR1) ?_
        rintro sz s2 hR2 ⟨_, rfl⟩
        refine .bind (tri_liftB (tri_chop _ hR1)) fun _ s3 hR3 _ => ?_
        exact .lift hR3 (hg.user i u hG v) fun _ _ => trivial
      | vec c join =>
        refine .bind (tri_liftF (safe_sizeQ _ _ _ _) h0) fun mn s1 hR1 _ => ?_
        refine .bind (tri_liftF (safe_sizeQ _ _ _ _) hR1) fun mx s2 hR2 _ => ?_
        refine .bind (tri_liftB (tri_vecSplit _ _ _ hR2)) fun bs s3 hR3 _ => ?_
        exact .bind (tri_extractEach ih _ _ hR3) fun xs s4 hR4 _ => .pure hR4 trivial
      | set cs join unb =>
        refine .bind (tri_liftF (safe_queryAll (fun i => safe_sizeQ _ _ _ i) _) h0) fun mn s1 hR1 _ => ?_
        refine .bind (tri_liftF (safe_queryAll (fun i => safe_sizeQ _ _ _ i) _) hR1) fun mx s2 hR2 _ => ?_
        refine .bind (tri_liftB (tri_setSplit _ hR2)) fun bs s3 hR3 _ => ?_
        exact .bind (tri_extractEach ih _ _ hR3) fun xs s4 hR4 _ => .pure hR4 trivial
      | seq cs join unb =>
        exact .bind (tri_extractSeq ih cs h0) fun xs s1 hR1 _ => .pure hR1 trivial
      | unary op c => exact .bind (ih c s) fun x s1 hR1 _ => .pure hR1 trivial
      | lottery rec4 stamps w smin smax =>
        have hlen := hg.lottery _ _ _ _ _ _ hG
        refine .bind (tri_liftB (tri_uOracle w h0)) fun o s1 hR1 ho => ?_
        refine .bind (tri_lotFilter _ (fun i => safe_sizeQ _ _ _ i) (fun i => safe_sizeQ _ _ _ i) _ hR1)
          fun l1 s2 hR2 hl1 => ?_
        refine .bind (Q := fun l _ => l.length ≤ stamps.length) (.ite (fun _ => ?_) fun _ => .pure hR2 hl1.2)
          fun l s3 hR3 hl => ?_
        · exact (tri_lotFilter _ (fun i => safe_sizeQ _ _ _ i) (fun i => safe_sizeQ _ _ _ i) _ hR2).mono
            (fun _ h => h) fun _ _ h => h.2
        refine .ite (fun _ => .throwOOD hR3) fun hne => ?_
        have hpos : 1 ≤ l.length := by
          rw [List.isEmpty_iff] at hne
          exact List.length_pos_iff.2 hne
        obtain ⟨k, e, hk⟩ := scaledIndex_lt ho.2.1 ho.1 ho.2.2.1 hpos (by omega)
        refine .lift' (by rw [e]; exact .ok _) hR3 fun k' hk' => ?_
        rw [e] at hk'
        cases hk'
        refine .lift' (by rw [vecGet_nat hk (by omega)]; exact .ok _) hR3 fun j _ => ?_
        exact (ih j s3).mono (fun _ h => h.trans hR3) fun _ _ h => h
      | picker pool =>
        have hlen := hg.picker _ _ hG
        refine .bind (tri_liftB (tri_oracle h0)) fun o s1 hR1 ho => ?_
        refine .bind (tri_pickFilter (fun i => safe_sizeQ _ _ _ i) (fun i => safe_sizeQ _ _ _ i) _ hR1)
          fun r s2 hR2 hr => ?_
        dsimp only
        have hl : (if r.2.isEmpty then r.1 else r.2).length ≤ 2 ^ 53 := by split <;> omega
        generalize (if r.2.isEmpty then r.1 else r.2) = l at hl ⊢
        refine .ite (fun _ => ?_) fun hne => ?_
        · refine .bind (tri_liftF (safe_sizeQ _ _ _ _) hR2) fun mn s3 hR3 _ => ?_
          refine .bind (tri_curSize hR3) ?_
          rintro sz s4 hR4 ⟨_, rfl⟩
          exact .ite (fun _ => .throwOOD hR3) fun _ => .out hR3 .abort (by simp)
        · have hpos : 1 ≤ l.length := by
            rw [List.isEmpty_iff] at hne
            exact List.length_pos_iff.2 hne
          have hm : toSz ((l.length : Int) - 1) = l.length - 1 := by
            rw [toSz_of_nonneg (by omega) (by omega)]; omega
          obtain ⟨k, e, _, hk⟩ := C09_proportion_in_range (o := o) (mn := 0) (mx := l.length - 1) ho.1
            (by omega) (by omega)
          refine .lift' (by rw [hm, e]; exact .ok _) hR2 fun k' hk' => ?_
          rw [hm, e] at hk'
          cases hk'
          refine .lift' (by rw [vecGet_nat (show k < l.length by omega) hl]; exact .ok _) hR2 fun j _ => ?_
          exact (ih j s2).mono (fun _ h => h.trans hR2) fun _ _ h => h

/-! ## What is left, for every graph -/

/-- Ends with a suffix of the current blob. -/
def SufX {α : Type} (m : XM ABlob α) : Prop := ∀ s, (m s).2.2 <:+ s.2

namespace SufX
variable {α γ : Type}
theorem id {m : XM ABlob α} (h : ∀ s, (m s).2.2 = s.2) : SufX m := fun s => by rw [h]
theorem bind {m : XM ABlob α} {f : α → XM ABlob γ} (h : SufX m) (hf : ∀ a, SufX (f a)) : SufX (m >>= f) := by
  intro s
  have h := h s
  rw [M.bind_apply]
  rcases hm : m s with ⟨o, s'⟩
  rw [hm] at h
  cases o with
  | ok a => exact (hf a s').trans h
  | _ => exact h
theorem ite {c : Prop} [Decidable c] {m n : XM ABlob α} (h : SufX m) (h' : SufX n) :
    SufX (if c then m else n) := by split <;> assumption
theorem pure (a : α) : SufX (Pure.pure a : XM ABlob α) := .id fun _ => rfl
theorem liftF (m : M Flags α) : SufX (BS.liftF m : XM ABlob α) := .id fun _ => rfl
theorem lift (o : Out α) : SufX (M.lift o : XM ABlob α) := .id fun _ => rfl
theorem out (o : Out α) : SufX (M.out o : XM ABlob α) := .id fun _ => rfl
theorem size : SufX (curSize : XM ABlob Nat) := .id fun _ => rfl
theorem onBlob (c : ABlob) (m : XM ABlob α) : SufX (BS.onBlob c m) := .id fun _ => rfl
theorem liftB {m : M ABlob α} (h : ∀ a, (m a).2 <:+ a) : SufX (BS.liftB m) := fun s => h s.2
end SufX

theorem suf_uOracle (w : Nat) (a : ABlob) : (uOracle w a).2 <:+ a := (tri_uOracle w (List.suffix_refl a)).1

theorem suf_dict (ws : List Bytes) (a : ABlob) : ((extractDict ws : M ABlob Bytes) a).2 <:+ a := by
  have h := suf_uOracle (chooseStampSize ws.length).1 a
  unfold extractDict
  rw [M.bind_apply]
  rcases hm : uOracle (chooseStampSize ws.length).1 a with ⟨o, a'⟩
  rw [hm] at h
  cases o with
  | ok v =>
    dsimp only
    rw [M.bind_apply]
    cases hx : scaledIndex v (chooseStampSize ws.length).2 ws.length <;>
      exact h
  | _ => exact h

theorem suf_extractEach (ex : Id → XM ABlob Bytes) (k : Int) (l : List (Id × ABlob)) :
    SufX (extractEach ex k l) := by
  induction l generalizing k with
  | nil => exact .pure _
  | cons p l ih =>
    obtain ⟨i, c⟩ := p
    exact .bind (.onBlob _ _) fun _ => .bind (.lift _) fun _ => .bind (ih _) fun _ => .pure _

theorem suf_extractSeq {ex : Id → XM ABlob Bytes} (h : ∀ i, SufX (ex i)) (l : List Id) : SufX (extractSeq ex l) := by
  induction l with
  | nil => exact .pure _
  | cons i l ih => exact .bind (h i) fun _ => .bind ih fun _ => .pure _

theorem suf_pickFilter (q q' : Id → M Flags Int) (l : List Id) : SufX (pickFilter q q' l) := by
  induction l with
  | nil => exact .pure _
  | cons i l ih => exact .bind (.liftF _) fun _ => .bind .size fun _ => .ite (.bind (.liftF _) fun _ =>
      .bind ih fun _ => .ite (.pure _) (.pure _)) ih

theorem suf_lotFilter (r : Bool) (q q' : Id → M Flags Int) (l : List Id) : SufX (lotFilter r q q' l) := by
  induction l with
  | nil => exact .pure _
  | cons i l ih => exact .bind (.liftF _) fun _ => .bind .size fun _ => .ite ih (.bind (.liftF _) fun _ =>
      .bind ih fun _ => .pure _)

theorem suf_extract (G : Graph) (n : Nat) (i : Id) : SufX (extract G n i : XM ABlob Bytes) := by
  induction n generalizing i with
  | zero => exact .out _
  | succ n ih =>
    unfold extract
    cases hG : G i with
    | none => exact .out _
    | some nd =>
      cases nd with
      | arith t => exact .liftB fun a => (tri_arith t (List.suffix_refl a)).1
      | dict ws => exact .liftB (suf_dict ws)
      | jsonStr => exact .liftB fun a => (tri_jsonStr (List.suffix_refl a)).1
      | latin1 => exact .liftB fun a => (tri_text _ (List.suffix_refl a)).1
      | ascii => exact .liftB fun a => (tri_text _ (List.suffix_refl a)).1
      | user u =>
        exact .bind (.liftB fun a => List.suffix_refl a) fun _ => .bind .size fun _ =>
          .bind (.liftB fun a => (tri_chop _ (List.suffix_refl a)).1) fun _ => .lift _
      | vec c join =>
        exact .bind (.liftF _) fun _ => .bind (.liftF _) fun _ => .bind (.liftB fun a =>
          (tri_vecSplit _ _ _ (List.suffix_refl a)).1) fun _ => .bind (suf_extractEach _ _ _) fun _ => .pure _
      | set cs join unb =>
        exact .bind (.liftF _) fun _ => .bind (.liftF _) fun _ => .bind (.liftB fun a =>
          (tri_setSplit _ (List.suffix_refl a)).1) fun _ => .bind (suf_extractEach _ _ _) fun _ => .pure _
      | seq cs join unb => exact .bind (suf_extractSeq ih cs) fun _ => .pure _
      | unary op c => exact .bind (ih c) fun _ => .pure _
      | lottery rec4 stamps w smin smax =>
        exact .bind (.liftB (suf_uOracle w)) fun _ => .bind (suf_lotFilter _ _ _ _) fun _ =>
          .bind (.ite (suf_lotFilter _ _ _ _) (.pure _)) fun _ => .ite (.out _) (.bind (.lift _) fun _ =>
            .bind (.lift _) fun j => ih j)
      | picker pool =>
        exact .bind (.liftB fun a => (tri_oracle (List.suffix_refl a)).1) fun _ =>
          .bind (suf_pickFilter _ _ _) fun _ => .ite (.bind (.liftF _) fun _ => .bind .size fun _ =>
            .ite (.out _) (.out _)) (.bind (.lift _) fun _ => .bind (.lift _) fun j => ih j)

end BS
