import Verif.Lemmas.Blob
import Mathlib.Data.List.Forall2
import Verif.Graph

/-!
# The concrete blob behaves like the list of its remaining bytes

A simulation between every generic function at `Blob` and at `ABlob`.
-/

namespace BS
open BlobLike

/-- Relate outcomes: values by `Q`, every other outcome equal. -/
inductive SimOut {α α' : Type} (Q : α → α' → Prop) : Out α → Out α' → Prop where
  | ok {a a'} (h : Q a a') : SimOut Q (.ok a) (.ok a')
  | outOfData : SimOut Q .outOfData .outOfData
  | ub (r) : SimOut Q (.ub r) (.ub r)
  | abort : SimOut Q .abort .abort
  | fuel : SimOut Q .fuel .fuel

theorem SimOut.refl {α : Type} (o : Out α) : SimOut Eq o o := by
  cases o
  · exact .ok rfl
  · exact .outOfData
  · exact .ub _
  · exact .abort
  · exact .fuel

theorem SimOut.eq {α : Type} {o o' : Out α} (h : SimOut Eq o o') : o = o' := by
  cases h
  · next h => rw [h]
  all_goals rfl

/-- Relate computations. -/
def Sim {σ σ' α α' : Type} (S : σ → σ' → Prop) (Q : α → α' → Prop) (m : M σ α) (m' : M σ' α') :
    Prop :=
  ∀ s s', S s s' → SimOut Q (m s).1 (m' s').1 ∧ S (m s).2 (m' s').2

namespace Sim
variable {σ σ' α α' γ γ' : Type} {S : σ → σ' → Prop} {Q : α → α' → Prop} {P : γ → γ' → Prop}

theorem pure {a : α} {a' : α'} (h : Q a a') : Sim S Q (pure a) (pure a') :=
  fun _ _ hs => ⟨.ok h, hs⟩

theorem out {o : Out α} {o' : Out α'} (h : SimOut Q o o') : Sim S Q (M.out o) (M.out o') :=
  fun _ _ hs => ⟨h, hs⟩

theorem lift {o : Out α} : Sim S Eq (M.lift o) (M.lift o) :=
  fun _ _ hs => ⟨.refl o, hs⟩

theorem throwOOD : Sim S Q (M.throwOOD) (M.throwOOD) := out .outOfData
theorem ub {r : UB} : Sim S Q (M.ub r) (M.ub r) := out (.ub r)

theorem get : Sim S S M.get M.get := fun _ _ hs => ⟨.ok hs, hs⟩

theorem bind {m : M σ α} {m' : M σ' α'} {f : α → M σ γ} {f' : α' → M σ' γ'}
    (h : Sim S Q m m') (hf : ∀ a a', Q a a' → Sim S P (f a) (f' a')) :
    Sim S P (m >>= f) (m' >>= f') := by
  intro s s' hs
  have h1 := h s s' hs
  rw [M.bind_apply, M.bind_apply]
  rcases hm : m s with ⟨o, t⟩
  rcases hm' : m' s' with ⟨o', t'⟩
  rw [hm, hm'] at h1
  obtain ⟨ho, ht⟩ := h1
  simp only at ho ht
  cases ho with
  | ok hq => exact hf _ _ hq t t' ht
  | outOfData => exact ⟨.outOfData, ht⟩
  | ub r => exact ⟨.ub r, ht⟩
  | abort => exact ⟨.abort, ht⟩
  | fuel => exact ⟨.fuel, ht⟩

theorem ite {c c' : Prop} [Decidable c] [Decidable c'] {m n : M σ α} {m' n' : M σ' α'}
    (hc : c ↔ c') (h1 : c → Sim S Q m m') (h2 : ¬ c → Sim S Q n n') :
    Sim S Q (if c then m else n) (if c' then m' else n') := by
  by_cases h : c
  · rw [if_pos h, if_pos (hc.1 h)]; exact h1 h
  · rw [if_neg h, if_neg (fun h' => h (hc.2 h'))]; exact h2 h

end Sim

/-- A valid blob and its remaining bytes. -/
def BR (b : Blob) (a : ABlob) : Prop := b.Valid ∧ b.abs = a

theorem BR.size {b : Blob} {a : ABlob} (h : BR b a) : BlobLike.size b = BlobLike.size a := by
  obtain ⟨h1, h2⟩ := h
  show b.size = List.length a
  rw [← h2, h1.abs_length]

theorem sim_chop (n : Nat) : Sim BR BR (chop n : M Blob Blob) (chop n : M ABlob ABlob) := by
  intro b a h
  have hs := h.size
  obtain ⟨h1, h2⟩ := h
  have hs' : b.size = List.length a := hs
  show SimOut BR (Blob.chop n b).1 _ ∧ BR (Blob.chop n b).2 _
  by_cases hn : n ≤ b.size
  · obtain ⟨c, b', he, hc, hb', hca, hba, _⟩ := Blob.chop_ok h1 hn
    rw [he]
    simp only [BlobLike.chop]
    rw [if_neg (by omega)]
    exact ⟨.ok ⟨hc, by rw [hca, h2]⟩, hb', by rw [hba, h2]⟩
  · rw [Blob.chop_fail (by omega)]
    simp only [BlobLike.chop]
    rw [if_pos (by omega)]
    exact ⟨.outOfData, h1, h2⟩

theorem sim_bytes {b : Blob} {a : ABlob} (h : BR b a) (hn : BlobLike.size b ≠ 0) :
    bytes b = bytes a := by
  have hs := h.size
  obtain ⟨h1, h2⟩ := h
  show b.asByteVector = if List.length a = 0 then .ub .ptrArith else .ok a
  rw [Blob.asByteVector_eq h1 hn, h2, if_neg]
  intro h0
  exact hn (by rw [hs]; exact h0)

theorem sim_view {b : Blob} {a : ABlob} (h : BR b a) : view b = view a := by
  obtain ⟨h1, h2⟩ := h
  show b.asVector = .ok a
  rw [Blob.asVector_eq h1, h2]

/-- Size of a chopped piece. -/
theorem chop_size {n : Nat} {b b' : Blob} {c : Blob} (hb : b.Valid)
    (h : (chop n : M Blob Blob) b = (.ok c, b')) : BlobLike.size c = n := by
  by_cases hn : n ≤ b.size
  · obtain ⟨c', b'', he, _, _, _, _, hc⟩ := Blob.chop_ok hb hn
    have h' : Blob.chop n b = (.ok c, b') := h
    rw [he] at h'
    simp only [Prod.mk.injEq, Out.ok.injEq] at h'
    rw [← h'.1]; exact hc
  · have h' : Blob.chop n b = (.ok c, b') := h
    rw [Blob.chop_fail (by omega)] at h'
    simp at h'

/-- Chop and remember the size. -/
theorem sim_chop_sz (n : Nat) :
    Sim BR (fun c c' => BR c c' ∧ BlobLike.size c = n) (chop n : M Blob Blob)
      (chop n : M ABlob ABlob) := by
  intro b a h
  have h1 := sim_chop n b a h
  rcases hm : (chop n : M Blob Blob) b with ⟨o, t⟩
  rw [hm] at h1
  refine ⟨?_, h1.2⟩
  have h2 := h1.1
  simp only at h2
  generalize ho' : ((chop n : M ABlob ABlob) a).1 = o' at h2
  simp only
  cases h2 with
  | ok hq => exact .ok ⟨hq, chop_size h.1 hm⟩
  | outOfData => exact .outOfData
  | ub r => exact .ub r
  | abort => exact .abort
  | fuel => exact .fuel

theorem ArithTy.size_pos (t : ArithTy) : t.size ≠ 0 := by cases t <;> decide

theorem sim_extractValue (t : ArithTy) : Sim BR Eq (extractValue t) (extractValue t) := by
  unfold extractValue
  refine .bind (sim_chop_sz t.size) ?_
  rintro c c' ⟨hc, hsz⟩
  have hb := sim_bytes hc (by rw [hsz]; exact t.size_pos)
  rw [hb]
  refine .bind .lift ?_
  rintro v _ rfl
  exact .pure rfl

theorem sim_extractArithStr (t : ArithTy) : Sim BR Eq (extractArithStr t) (extractArithStr t) := by
  refine .bind (sim_extractValue t) ?_
  rintro v _ rfl
  exact .lift

theorem sim_extractArithBin (t : ArithTy) : Sim BR Eq (extractArithBin t) (extractArithBin t) := by
  refine .bind (sim_extractValue t) ?_
  rintro v _ rfl
  exact .pure rfl

theorem sim_oracle : Sim BR Eq oracle oracle := by
  refine .bind (sim_extractValue .u16) ?_
  rintro v _ rfl
  cases v <;> exact .pure rfl

theorem sim_uOracle (w : Nat) : Sim BR Eq (uOracle w) (uOracle w) := by
  unfold uOracle
  generalize uOracleTy w = ty
  cases ty with
  | none => exact .out .abort
  | some ty =>
    refine .bind (sim_extractValue ty) ?_
    rintro v _ rfl
    cases v <;> exact .pure rfl

theorem sim_extractDict (ws : List Bytes) : Sim BR Eq (extractDict ws) (extractDict ws) := by
  refine .bind (sim_uOracle _) ?_
  rintro o _ rfl
  refine .bind .lift ?_
  rintro i _ rfl
  exact .lift

theorem sim_chop2_sz (mn mx : Nat) (h0 : 0 < mn) (h : mn ≤ mx) :
    Sim BR (fun c c' => BR c c' ∧ BlobLike.size c ≠ 0) (chop2 mn mx) (chop2 mn mx) := by
  intro b a hb
  unfold chop2
  rw [hb.size]
  have weaken : ∀ n, n ≠ 0 → Sim BR (fun c c' => BR c c' ∧ BlobLike.size c ≠ 0)
      (chop n : M Blob Blob) (chop n : M ABlob ABlob) := by
    intro n hn s s' hs
    have := sim_chop_sz n s s' hs
    refine ⟨?_, this.2⟩
    generalize ((chop n : M Blob Blob) s).1 = o at this
    generalize ((chop n : M ABlob ABlob) s').1 = o' at this
    obtain ⟨h2, _⟩ := this
    cases h2 with
    | ok hq => exact .ok ⟨hq.1, by rw [hq.2]; exact hn⟩
    | outOfData => exact .outOfData
    | ub r => exact .ub r
    | abort => exact .abort
    | fuel => exact .fuel
  by_cases h1 : BlobLike.size a < mn
  · rw [if_pos h1, if_pos h1]; exact ⟨.outOfData, hb⟩
  · rw [if_neg h1, if_neg h1]
    by_cases h2 : mx ≤ BlobLike.size a
    · rw [if_pos h2, if_pos h2]; exact weaken mx (by omega) b a hb
    · rw [if_neg h2, if_neg h2]; exact weaken _ (by omega) b a hb

theorem sim_extractText (f : UInt8 → UInt8) : Sim BR Eq (extractText f) (extractText f) := by
  refine .bind (sim_chop2_sz 1 _ (by decide) (by decide)) ?_
  rintro c c' ⟨hc, hn⟩
  rw [sim_bytes hc hn]
  refine .bind .lift ?_
  rintro v _ rfl
  exact .pure rfl

theorem sim_extractJsonStr : Sim BR Eq extractJsonStr extractJsonStr := by
  refine .bind (sim_extractDict _) ?_
  rintro v _ rfl
  exact .pure rfl

/-! ## Galleys -/

abbrev BRL := List.Forall₂ BR

theorem sim_fixedLoop (n : Nat) (mn : Int) : Sim BR BRL (fixedLoop n mn) (fixedLoop n mn) := by
  induction n with
  | zero => exact .out .fuel
  | succ n ih =>
    refine .bind .get ?_
    intro b a hb
    refine .ite (by rw [hb.size]) (fun _ => ?_) (fun _ => .pure .nil)
    refine .bind (sim_chop _) ?_
    intro c c' hc
    refine .bind ih ?_
    intro r r' hr
    exact .pure (.cons hc hr)

theorem sim_sizeOracles (n : Nat) (tot : Int) :
    Sim BR Eq (sizeOracles n tot) (sizeOracles n tot) := by
  induction n generalizing tot with
  | zero => exact .pure rfl
  | succ n ih =>
    refine .bind sim_oracle ?_
    rintro o _ rfl
    refine .bind .lift ?_
    rintro t _ rfl
    refine .bind (ih t) ?_
    rintro r _ rfl
    exact .pure rfl

theorem sim_unbChopLoop (mn total var : Int) (os : List Nat) (rem : FV) :
    Sim BR BRL (unbChopLoop mn total var os rem) (unbChopLoop mn total var os rem) := by
  induction os generalizing rem with
  | nil => exact .pure .nil
  | cons o os ih =>
    unfold unbChopLoop
    refine .bind .lift ?_
    rintro el _ rfl
    refine .bind (sim_chop _) ?_
    intro c c' hc
    refine .bind (ih _) ?_
    intro r r' hr
    exact .pure (.cons hc hr)

theorem sim_vecUnbounded (mn : Int) : Sim BR BRL (vecUnbounded mn) (vecUnbounded mn) := by
  unfold vecUnbounded
  refine .bind .get ?_
  intro b a hb
  rw [hb.size]
  refine .ite Iff.rfl (fun _ => .ub) (fun _ => ?_)
  refine .bind sim_oracle ?_
  rintro co _ rfl
  refine .bind (sim_sizeOracles _ _) ?_
  rintro ⟨os, tot⟩ _ rfl
  refine .bind .get ?_
  intro b' a' hb'
  simp only [hb'.size]
  refine .bind .lift ?_
  rintro fs _ rfl
  refine .bind .lift ?_
  rintro var _ rfl
  exact sim_unbChopLoop _ _ _ _ _

theorem sim_variatedLoop (n : Nat) (mn mx : Int) :
    Sim BR BRL (variatedLoop n mn mx) (variatedLoop n mn mx) := by
  induction n with
  | zero => exact .out .fuel
  | succ n ih =>
    unfold variatedLoop
    refine .bind .lift ?_
    rintro need _ rfl
    refine .bind .get ?_
    intro b a hb
    rw [hb.size]
    refine .ite Iff.rfl (fun _ => .pure .nil) (fun _ => ?_)
    refine .bind sim_oracle ?_
    rintro o _ rfl
    refine .bind .lift ?_
    rintro s _ rfl
    refine .bind .get ?_
    intro b' a' hb'
    simp only [hb'.size]
    refine .bind (sim_chop _) ?_
    intro c c' hc
    refine .bind ih ?_
    intro r r' hr
    exact .pure (.cons hc hr)

theorem sim_vecSplit (n : Nat) (mn mx : Int) : Sim BR BRL (vecSplit n mn mx) (vecSplit n mn mx) := by
  unfold vecSplit
  refine .bind .get ?_
  intro b a hb
  rw [hb.size]
  refine .ite Iff.rfl (fun _ => .throwOOD) (fun _ => ?_)
  refine .ite Iff.rfl (fun _ => sim_fixedLoop _ _) (fun _ => ?_)
  refine .ite Iff.rfl (fun _ => sim_vecUnbounded _) (fun _ => ?_)
  refine .bind .lift ?_
  rintro _ _ rfl
  exact sim_variatedLoop _ _ _

theorem sim_setModLoop (nUnb : Nat) (ss : List SizePair) (p u : FV) :
    Sim BR Eq (setModLoop nUnb ss p u) (setModLoop nUnb ss p u) := by
  induction ss generalizing p u with
  | nil => exact .pure rfl
  | cons s ss ih =>
    unfold setModLoop
    refine .ite Iff.rfl (fun _ => ?_) (fun _ => ?_)
    · refine .bind (ih _ _) ?_
      rintro r _ rfl
      exact .pure rfl
    refine .ite Iff.rfl (fun _ => ?_) (fun _ => ?_)
    · refine .ite Iff.rfl (fun _ => ?_) (fun _ => ?_)
      · refine .bind (ih _ _) ?_
        rintro r _ rfl
        exact .pure rfl
      · refine .bind sim_oracle ?_
        rintro o _ rfl
        refine .bind (ih _ _) ?_
        rintro r _ rfl
        exact .pure rfl
    · refine .bind sim_oracle ?_
      rintro o _ rfl
      refine .bind .lift ?_
      rintro d _ rfl
      refine .bind (ih _ _) ?_
      rintro r _ rfl
      exact .pure rfl

theorem sim_setLimit (t : SetTotals) (avail : Int) :
    Sim BR Eq (setLimit t avail) (setLimit t avail) := by
  unfold setLimit
  refine .ite Iff.rfl (fun _ => ?_) (fun _ => .pure rfl)
  refine .bind sim_oracle ?_
  rintro o _ rfl
  refine .bind .lift ?_
  rintro p _ rfl
  exact .pure rfl

theorem sim_setChopLoop (kv ku : FV) (ss : List SizePair) (ms : List FV) (vr ur : FV) :
    Sim BR BRL (setChopLoop kv ku ss ms vr ur) (setChopLoop kv ku ss ms vr ur) := by
  induction ss generalizing ms vr ur with
  | nil => unfold setChopLoop; exact .pure .nil
  | cons s ss ih =>
    cases ms with
    | nil => unfold setChopLoop; exact .pure .nil
    | cons m ms =>
      unfold setChopLoop
      refine .ite Iff.rfl (fun _ => ?_) (fun _ => ?_)
      · refine .bind .lift ?_
        rintro el _ rfl
        refine .bind .lift ?_
        rintro el' _ rfl
        refine .bind (sim_chop _) ?_
        intro c c' hc
        refine .bind (ih _ _ _) ?_
        intro r r' hr
        exact .pure (.cons hc hr)
      refine .ite Iff.rfl (fun _ => ?_) (fun _ => ?_)
      · refine .bind (sim_chop _) ?_
        intro c c' hc
        refine .bind (ih _ _ _) ?_
        intro r r' hr
        exact .pure (.cons hc hr)
      · refine .bind .lift ?_
        rintro d _ rfl
        refine .bind .lift ?_
        rintro el _ rfl
        refine .bind .lift ?_
        rintro el' _ rfl
        refine .bind (sim_chop _) ?_
        intro c c' hc
        refine .bind (ih _ _ _) ?_
        intro r r' hr
        exact .pure (.cons hc hr)

theorem sim_setSplit (ss : List SizePair) : Sim BR BRL (setSplit ss) (setSplit ss) := by
  unfold setSplit
  refine .bind .lift ?_
  rintro t _ rfl
  refine .bind .get ?_
  intro b a hb
  simp only [hb.size]
  refine .ite Iff.rfl (fun _ => .throwOOD) (fun _ => ?_)
  refine .bind (sim_setLimit _ _) ?_
  rintro lim _ rfl
  refine .bind (sim_setModLoop _ _ _ _) ?_
  rintro r _ rfl
  refine .bind .lift ?_
  rintro fv _ rfl
  refine .bind .lift ?_
  rintro fu _ rfl
  exact sim_setChopLoop _ _ _ _ _ _

/-! ## The graph -/

/-- States during extraction. -/
def XR (s : Flags × Blob) (s' : Flags × ABlob) : Prop := s.1 = s'.1 ∧ BR s.2 s'.2

theorem sim_liftB {α α' : Type} {Q : α → α' → Prop} {m : M Blob α} {m' : M ABlob α'}
    (h : Sim BR Q m m') : Sim XR Q (liftB m) (liftB m') := by
  intro s s' hs
  have := h s.2 s'.2 hs.2
  exact ⟨this.1, hs.1, this.2⟩

theorem sim_liftF {α : Type} (m : M Flags α) : Sim XR Eq (liftF m) (liftF m) := by
  intro s s' hs
  unfold liftF
  simp only [hs.1]
  exact ⟨.refl _, rfl, hs.2⟩

theorem sim_curSize : Sim XR Eq (curSize : XM Blob Nat) (curSize : XM ABlob Nat) := by
  intro s s' hs
  exact ⟨.ok hs.2.size, hs⟩

theorem sim_onBlob {α α' : Type} {Q : α → α' → Prop} {m : XM Blob α} {m' : XM ABlob α'}
    {c : Blob} {c' : ABlob} (hc : BR c c') (h : Sim XR Q m m') :
    Sim XR Q (onBlob c m) (onBlob c' m') := by
  intro s s' hs
  have := h (s.1, c) (s'.1, c') ⟨hs.1, hc⟩
  exact ⟨this.1, this.2.1, hs.2⟩

theorem sim_extractEach {ex : Id → XM Blob Bytes} {ex' : Id → XM ABlob Bytes}
    (h : ∀ i, Sim XR Eq (ex i) (ex' i)) {l : List (Id × Blob)} {l' : List (Id × ABlob)}
    (hl : List.Forall₂ (fun p p' => p.1 = p'.1 ∧ BR p.2 p'.2) l l') :
    ∀ k : Int, Sim XR Eq (extractEach ex k l) (extractEach ex' k l') := by
  induction hl with
  | nil => exact fun _ => .pure rfl
  | @cons p p' l l' hp _ ih =>
    intro k
    obtain ⟨i, c⟩ := p
    obtain ⟨i', c'⟩ := p'
    obtain ⟨rfl, hc⟩ := hp
    refine .bind (sim_onBlob hc (h _)) ?_
    rintro s _ rfl
    refine .bind .lift ?_
    rintro k' _ rfl
    refine .bind (ih k') ?_
    rintro ss _ rfl
    exact .pure rfl

theorem sim_extractSeq {ex : Id → XM Blob Bytes} {ex' : Id → XM ABlob Bytes}
    (h : ∀ i, Sim XR Eq (ex i) (ex' i)) (l : List Id) :
    Sim XR Eq (extractSeq ex l) (extractSeq ex' l) := by
  induction l with
  | nil => exact .pure rfl
  | cons i l ih =>
    refine .bind (h i) ?_
    rintro s _ rfl
    refine .bind ih ?_
    rintro ss _ rfl
    exact .pure rfl

theorem sim_pickFilter (qmin qmax : Id → M Flags Int) (l : List Id) :
    Sim XR Eq (pickFilter qmin qmax l : XM Blob _) (pickFilter qmin qmax l : XM ABlob _) := by
  induction l with
  | nil => exact .pure rfl
  | cons i l ih =>
    refine .bind (sim_liftF _) ?_
    rintro mn _ rfl
    refine .bind sim_curSize ?_
    rintro sz _ rfl
    refine .ite Iff.rfl (fun _ => ?_) (fun _ => ih)
    refine .bind (sim_liftF _) ?_
    rintro mx _ rfl
    refine .bind ih ?_
    rintro r _ rfl
    exact .ite Iff.rfl (fun _ => .pure rfl) (fun _ => .pure rfl)

theorem sim_lotFilter (rec4 : Bool) (qmin qmax : Id → M Flags Int) (l : List Id) :
    Sim XR Eq (lotFilter rec4 qmin qmax l : XM Blob _) (lotFilter rec4 qmin qmax l : XM ABlob _) := by
  induction l with
  | nil => exact .pure rfl
  | cons i l ih =>
    refine .bind (sim_liftF _) ?_
    rintro mn _ rfl
    refine .bind sim_curSize ?_
    rintro sz _ rfl
    refine .ite Iff.rfl (fun _ => ih) (fun _ => ?_)
    refine .bind (sim_liftF _) ?_
    rintro ok _ rfl
    refine .bind ih ?_
    rintro r _ rfl
    exact .pure rfl

theorem sim_viewB : Sim BR Eq (fun b : Blob => (view b, b)) (fun b : ABlob => (view b, b)) := by
  intro b a h
  simp only [sim_view h]
  exact ⟨.refl _, h⟩

theorem forall₂_pair {c : Id} {l : List Blob} {l' : List ABlob} (h : BRL l l') :
    List.Forall₂ (fun p p' => p.1 = p'.1 ∧ BR p.2 p'.2) (l.map fun b => (c, b))
      (l'.map fun b => (c, b)) := by
  induction h with
  | nil => exact .nil
  | cons hc _ ih => exact .cons ⟨rfl, hc⟩ ih

theorem forall₂_zip (cs : List Id) {l : List Blob} {l' : List ABlob} (h : BRL l l') :
    List.Forall₂ (fun p p' => p.1 = p'.1 ∧ BR p.2 p'.2) (cs.zip l) (cs.zip l') := by
  induction cs generalizing l l' with
  | nil => exact .nil
  | cons c cs ih =>
    cases h with
    | nil => exact .nil
    | cons hc hr => exact .cons ⟨rfl, hc⟩ (ih hr)

/-- Main simulation. -/
theorem sim_extract (G : Graph) (n : Nat) (i : Id) :
    Sim XR Eq (extract G n i : XM Blob Bytes) (extract G n i : XM ABlob Bytes) := by
  induction n generalizing i with
  | zero => exact .out .fuel
  | succ n ih =>
    unfold extract
    cases hG : G i with
    | none => exact .ub
    | some nd =>
      cases nd with
      | arith t => exact sim_liftB (sim_extractArithStr t)
      | dict ws => exact sim_liftB (sim_extractDict ws)
      | jsonStr => exact sim_liftB sim_extractJsonStr
      | latin1 => exact sim_liftB (sim_extractText _)
      | ascii => exact sim_liftB (sim_extractText _)
      | user u =>
        refine .bind (sim_liftB sim_viewB) ?_
        rintro v _ rfl
        refine .bind sim_curSize ?_
        rintro sz _ rfl
        refine .bind (sim_liftB (sim_chop _)) ?_
        rintro _ _ _
        exact .lift
      | vec c join =>
        refine .bind (sim_liftF _) ?_
        rintro mn _ rfl
        refine .bind (sim_liftF _) ?_
        rintro mx _ rfl
        refine .bind (sim_liftB (sim_vecSplit _ _ _)) ?_
        intro bs bs' hbs
        refine .bind (sim_extractEach ih (forall₂_pair hbs) 0) ?_
        rintro xs _ rfl
        exact .pure rfl
      | set cs join unb =>
        refine .bind (sim_liftF _) ?_
        rintro mn _ rfl
        refine .bind (sim_liftF _) ?_
        rintro mx _ rfl
        refine .bind (sim_liftB (sim_setSplit _)) ?_
        intro bs bs' hbs
        refine .bind (sim_extractEach ih (forall₂_zip cs hbs) 0) ?_
        rintro xs _ rfl
        exact .pure rfl
      | seq cs join unb =>
        refine .bind (sim_extractSeq ih cs) ?_
        rintro xs _ rfl
        exact .pure rfl
      | unary op c =>
        refine .bind (ih c) ?_
        rintro xs _ rfl
        exact .pure rfl
      | lottery rec4 stamps osz smin smax =>
        refine .bind (sim_liftB (sim_uOracle _)) ?_
        rintro o _ rfl
        refine .bind (sim_lotFilter _ _ _ _) ?_
        rintro l1 _ rfl
        refine .bind (Q := Eq) (.ite Iff.rfl (fun _ => sim_lotFilter _ _ _ _) (fun _ => .pure rfl)) ?_
        rintro l _ rfl
        refine .ite Iff.rfl (fun _ => .throwOOD) (fun _ => ?_)
        refine .bind .lift ?_
        rintro k _ rfl
        refine .bind .lift ?_
        rintro j _ rfl
        exact ih j
      | picker pool =>
        refine .bind (sim_liftB sim_oracle) ?_
        rintro o _ rfl
        refine .bind (sim_pickFilter _ _ _) ?_
        rintro r _ rfl
        refine .ite Iff.rfl (fun _ => ?_) (fun _ => ?_)
        · refine .bind (sim_liftF _) ?_
          rintro mn _ rfl
          refine .bind sim_curSize ?_
          rintro sz _ rfl
          exact .ite Iff.rfl (fun _ => .throwOOD) (fun _ => .out .abort)
        · refine .bind .lift ?_
          rintro k _ rfl
          refine .bind .lift ?_
          rintro j _ rfl
          exact ih j

/-- Running on a valid blob is running on its remaining bytes. -/
theorem extract_refines (G : Graph) (n : Nat) (i : Id) (fl : Flags) {b : Blob} (hb : b.Valid) :
    (extract G n i (fl, b)).1 = (extract G n i (fl, b.abs)).1 ∧
    (extract G n i (fl, b)).2.1 = (extract G n i (fl, b.abs)).2.1 ∧
    (extract G n i (fl, b)).2.2.Valid ∧
    (extract G n i (fl, b)).2.2.abs = (extract G n i (fl, b.abs)).2.2 := by
  have h := sim_extract G n i (fl, b) (fl, b.abs) ⟨rfl, hb, rfl⟩
  exact ⟨h.1.eq, h.2.1, h.2.2.1, h.2.2.2⟩

end BS
