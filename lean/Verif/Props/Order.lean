import Verif.Order
import Verif.Lemmas.Keep
import Verif.Spec.Stamp

/-!
# C64: the order in which the operands of an operator are evaluated does not matter
-/

namespace BS
open BlobLike

section
variable {β : Type}

/-- Neither a value nor `OutOfData`. -/
def Out.Bad {α : Type} (o : Out α) : Prop := (∀ a, o ≠ .ok a) ∧ o ≠ .outOfData

/-- Not a value. -/
def Out.NotOk {α : Type} (o : Out α) : Prop := ∀ a, o ≠ .ok a

theorem bad_ub {α : Type} (r : UB) : (Out.ub r : Out α).Bad :=
  ⟨(fun _ h => by cases h), (fun h => by cases h)⟩
theorem bad_abort {α : Type} : (Out.abort : Out α).Bad :=
  ⟨(fun _ h => by cases h), (fun h => by cases h)⟩
theorem bad_fuel {α : Type} : (Out.fuel : Out α).Bad :=
  ⟨(fun _ h => by cases h), (fun h => by cases h)⟩

/-- An outcome is a value, `OutOfData`, or bad. -/
theorem Out.cases3 {α : Type} (o : Out α) : (∃ a, o = .ok a) ∨ o = .outOfData ∨ o.Bad := by
  cases o with
  | ok a => exact .inl ⟨a, rfl⟩
  | outOfData => exact .inr (.inl rfl)
  | ub r => exact .inr (.inr (bad_ub r))
  | abort => exact .inr (.inr bad_abort)
  | fuel => exact .inr (.inr bad_fuel)

theorem Out.Bad.notOk {α : Type} {o : Out α} (h : o.Bad) : o.NotOk := h.1

/-- A bad outcome stays bad, whatever would come next. -/
theorem bind_bad {σ α γ : Type} {m : M σ α} {f : α → M σ γ} {s : σ} (h : (m s).1.Bad) :
    ((m >>= f) s).1.Bad := by
  rw [M.bind_apply]
  rcases hm : m s with ⟨o, s'⟩
  rw [hm] at h
  cases o with
  | ok a => exact absurd rfl (h.1 a)
  | outOfData => exact absurd rfl h.2
  | ub r => exact bad_ub r
  | abort => exact bad_abort
  | fuel => exact bad_fuel

/-- A value of the whole means a value of the first step. -/
theorem bind_notOk {σ α γ : Type} {m : M σ α} {f : α → M σ γ} {s : σ} (h : (m s).1.NotOk) :
    ((m >>= f) s).1.NotOk := by
  intro c e
  obtain ⟨a, s', h1, -⟩ := M.bind_eq_ok.1 (Prod.ext e rfl : (m >>= f) s = (.ok c, ((m >>= f) s).2))
  exact h a (by rw [h1])

/-- The two computations do the same, unless both fail and one of them in a way other than
`OutOfData`. -/
def SameButBad {σ α : Type} (m m' : M σ α) : Prop :=
  ∀ s, m s = m' s ∨ ((m s).1.NotOk ∧ (m' s).1.NotOk ∧ ((m s).1.Bad ∨ (m' s).1.Bad))

namespace SameButBad
variable {σ α γ : Type}

theorem refl (m : M σ α) : SameButBad m m := fun _ => .inl rfl

theorem bind {m m' : M σ α} {f f' : α → M σ γ} (h : SameButBad m m')
    (hf : ∀ a, SameButBad (f a) (f' a)) : SameButBad (m >>= f) (m' >>= f') := by
  intro s
  rw [M.bind_apply, M.bind_apply]
  rcases h s with e | ⟨h1, h2, h3⟩
  · rw [← e]
    rcases m s with ⟨o, s'⟩
    cases o with
    | ok a => exact hf a s'
    | _ => exact .inl rfl
  · refine .inr ⟨bind_notOk h1, bind_notOk h2, ?_⟩
    rcases h3 with h3 | h3
    · exact .inl (bind_bad h3)
    · exact .inr (bind_bad h3)

theorem ite {c : Prop} [Decidable c] {m m' n n' : M σ α} (h : SameButBad m m')
    (h' : SameButBad n n') : SameButBad (if c then m else n) (if c then m' else n') := by
  split <;> assumption

theorem onBlob (c : β) {m m' : XM β α} (h : SameButBad m m') :
    SameButBad (onBlob c m) (onBlob c m') := by
  intro s
  unfold BS.onBlob
  rcases h (s.1, c) with e | h
  · rw [e]; exact .inl rfl
  · exact .inr h

end SameButBad

/-- Returning or throwing leaves the whole state unchanged. -/
def KeepsAll {α : Type} (m : XM β α) : Prop :=
  ∀ s, ((∃ a, (m s).1 = .ok a) ∨ (m s).1 = .outOfData) → (m s).2 = s

theorem KeepsAll.bind {α γ : Type} {m : XM β α} {f : α → XM β γ} (h : KeepsAll m)
    (hf : ∀ a, KeepsAll (f a)) : KeepsAll (m >>= f) := by
  intro s hs
  rw [M.bind_apply] at hs ⊢
  have h1 := h s
  rcases hm : m s with ⟨o, s'⟩
  rw [hm] at h1 hs
  cases o with
  | ok a =>
    have e := h1 (.inl ⟨a, rfl⟩)
    dsimp only at e
    subst e
    exact hf a s' hs
  | outOfData => exact h1 (.inr rfl)
  | abort => rcases hs with ⟨a, e⟩ | e <;> cases e
  | ub r => rcases hs with ⟨a, e⟩ | e <;> cases e
  | fuel => rcases hs with ⟨a, e⟩ | e <;> cases e

theorem KeepsX.onBlobAll {α : Type} (c : β) {m : XM β α} (h : KeepsX m) :
    KeepsAll (BS.onBlob c m) := by
  intro s hs
  have := h (s.1, c) hs
  show ((m (s.1, c)).2.1, s.2) = s
  rw [this]

theorem keepsAll_each {ex : Id → XM β Bytes} (h : ∀ i, KeepsX (ex i)) (k : Int)
    (l : List (Id × β)) : KeepsAll (extractEach ex k l) := by
  induction l generalizing k with
  | nil => exact fun _ _ => rfl
  | cons p l ih =>
    obtain ⟨i, c⟩ := p
    exact .bind ((h i).onBlobAll c) fun _ => .bind (fun _ _ => rfl) fun _ =>
      .bind (ih _) fun _ _ _ => rfl

theorem keepsAll_rev {ex : Id → XM β Bytes} (h : ∀ i, KeepsX (ex i)) (k : Int)
    (l : List (Id × β)) : KeepsAll (extractEachRev ex k l) := by
  induction l generalizing k with
  | nil => exact fun _ _ => rfl
  | cons p l ih =>
    obtain ⟨i, c⟩ := p
    exact .bind (fun _ _ => rfl) fun _ => .bind (ih _) fun _ =>
      .bind ((h i).onBlobAll c) fun _ _ _ => rfl

theorem same_each {ex ex' : Id → XM β Bytes} (h : ∀ i, SameButBad (ex i) (ex' i)) (k : Int)
    (l : List (Id × β)) : SameButBad (extractEach ex k l) (extractEach ex' k l) := by
  induction l generalizing k with
  | nil => exact .refl _
  | cons p l ih =>
    obtain ⟨i, c⟩ := p
    exact .bind (.onBlob c (h i)) fun _ => .bind (.refl _) fun _ => .bind (ih _) fun _ => .refl _

theorem same_seq {ex ex' : Id → XM β Bytes} (h : ∀ i, SameButBad (ex i) (ex' i))
    (l : List Id) : SameButBad (extractSeq ex l) (extractSeq ex' l) := by
  induction l with
  | nil => exact .refl _
  | cons i l ih => exact .bind (h i) fun _ => .bind ih fun _ => .refl _

theorem rev_core {m m' : XM β Bytes} {e e' : XM β (List Bytes)} (s : Flags × β)
    (hm : SameButBad m m') (he : SameButBad e e') (km : KeepsAll m) (km' : KeepsAll m')
    (ke' : KeepsAll e') :
    (m >>= fun x => e >>= fun xs => pure (x :: xs)) s =
        (e' >>= fun xs => m' >>= fun x => pure (x :: xs)) s ∨
      (((m >>= fun x => e >>= fun xs => pure (x :: xs)) s).1.NotOk ∧
        ((e' >>= fun xs => m' >>= fun x => pure (x :: xs)) s).1.NotOk ∧
        (((m >>= fun x => e >>= fun xs => pure (x :: xs)) s).1.Bad ∨
          ((e' >>= fun xs => m' >>= fun x => pure (x :: xs)) s).1.Bad)) := by
  rcases (e' s).1.cases3 with ⟨xs, h⟩ | h | h
  · have hs := ke' s (.inl ⟨xs, h⟩)
    have e1 : e' s = (.ok xs, s) := Prod.ext h hs
    have e2 : e s = (.ok xs, s) := by
      rcases he s with q | ⟨-, q, -⟩
      · rw [q, e1]
      · exact absurd h (q xs)
    rw [M.bind_ok e1]
    rcases (m' s).1.cases3 with ⟨x, h'⟩ | h' | h'
    · have hs' := km' s (.inl ⟨x, h'⟩)
      have e3 : m' s = (.ok x, s) := Prod.ext h' hs'
      have e4 : m s = (.ok x, s) := by
        rcases hm s with q | ⟨-, q, -⟩
        · rw [q, e3]
        · exact absurd h' (q x)
      left
      rw [M.bind_ok e3, M.bind_ok e4, M.bind_ok e2]
    · have e3 : m' s = (.outOfData, s) := Prod.ext h' (km' s (.inr h'))
      rcases hm s with q | ⟨q1, q2, q3 | q3⟩
      · left
        rw [M.bind_ood e3, M.bind_ood (q.trans e3)]
      · exact .inr ⟨bind_notOk q1, bind_notOk q2, .inl (bind_bad q3)⟩
      · exact absurd h' q3.2
    · right
      have q : (m s).1.NotOk := by
        rcases hm s with q | ⟨q, -, -⟩
        · rw [q]; exact h'.notOk
        · exact q
      exact ⟨bind_notOk q, bind_notOk h'.notOk, .inr (bind_bad h')⟩
  · have e1 : e' s = (.outOfData, s) := Prod.ext h (ke' s (.inr h))
    rw [M.bind_ood e1]
    rcases (m s).1.cases3 with ⟨x, h'⟩ | h' | h'
    · have e3 : m s = (.ok x, s) := Prod.ext h' (km s (.inl ⟨x, h'⟩))
      rw [M.bind_ok e3]
      rcases he s with q | ⟨q1, q2, q3 | q3⟩
      · left
        rw [M.bind_ood (q.trans e1)]
      · exact .inr ⟨bind_notOk q1, (fun _ h => by cases h), .inl (bind_bad q3)⟩
      · exact absurd h q3.2
    · left
      rw [M.bind_ood (Prod.ext h' (km s (.inr h')) : m s = (.outOfData, s))]
    · exact .inr ⟨bind_notOk h'.notOk, (fun _ h => by cases h), .inl (bind_bad h')⟩
  · right
    refine ⟨?_, bind_notOk h.notOk, .inr (bind_bad h)⟩
    intro c hc
    obtain ⟨x, s1, h1, h2⟩ := M.bind_eq_ok.1 (Prod.ext hc rfl :
      (m >>= fun x => e >>= fun xs => pure (x :: xs)) s = (.ok c, _))
    obtain ⟨xs, s2, h3, -⟩ := M.bind_eq_ok.1 h2
    have q := km s (.inl ⟨x, by rw [h1]⟩)
    rw [h1] at q
    dsimp only at q
    subst q
    rcases he s1 with q | ⟨q, -, -⟩
    · rw [← q, h3] at h
      exact h.1 xs rfl
    · exact q xs (by rw [h3])

theorem same_rev {ex ex' : Id → XM β Bytes} (h : ∀ i, SameButBad (ex i) (ex' i))
    (hk : ∀ i, KeepsX (ex i)) (hk' : ∀ i, KeepsX (ex' i)) (k : Int) (l : List (Id × β)) :
    SameButBad (extractEach ex k l) (extractEachRev ex' k l) := by
  induction l generalizing k with
  | nil => exact .refl _
  | cons p l ih =>
    obtain ⟨i, c⟩ := p
    intro s
    unfold extractEach extractEachRev
    rcases ckInt_cases (k + 1) with hck | hck
    · rw [hck]
      exact rev_core s (.onBlob c (h i)) (ih _) ((hk i).onBlobAll c) ((hk' i).onBlobAll c)
        (keepsAll_rev hk' _ l)
    · rw [hck]
      right
      refine ⟨?_, (fun _ h => by cases h), .inr (bad_ub _)⟩
      intro a ha
      obtain ⟨x, s1, h1, h2⟩ := M.bind_eq_ok.1 (Prod.ext ha rfl :
        (onBlob c (ex i) >>= fun s => M.lift (Out.ub .intOverflow) >>= fun k' =>
          extractEach ex k' l >>= fun ss => pure (s :: ss)) s = (.ok a, _))
      cases h2

variable [BlobLike β]

theorem keeps_extractO (ch : Id → Flags × β → Bool) (G : Graph) (n : Nat) (i : Id) :
    KeepsX (extractO ch G n i : XM β Bytes) := by
  induction n generalizing i with
  | zero => exact .out _
  | succ n ih =>
    unfold extractO
    split
    · exact .out _
    next nd _ =>
    split
    · exact .liftB _
    · exact .liftB _
    · exact .liftB _
    · exact .liftB _
    · exact .liftB _
    · exact .bind (.liftB _) fun _ => .bind .curSize fun _ => .bind (.liftB _) fun _ => .lift _
    · exact .bind (.liftF (keeps_sizeQ _ _ _ _)) fun _ => .bind (.liftF (keeps_sizeQ _ _ _ _)) fun _ =>
        .bind (.liftB _) fun _ => .bind (keeps_extractEach ih _ _) fun _ => .pure _
    · refine .bind (.liftF (keeps_queryAll (keeps_sizeQ G n _) _)) fun _ =>
        .bind (.liftF (keeps_queryAll (keeps_sizeQ G n _) _)) fun _ =>
        .bind (.liftB _) fun _ => .bind ?_ fun _ => .pure _
      intro s hs
      dsimp only at hs ⊢
      split at hs
      · rw [if_pos ‹_›]; exact keeps_extractEach ih _ _ s hs
      · rw [if_neg ‹_›, keepsAll_rev ih _ _ s hs]
    · exact .bind (keeps_extractSeq ih _) fun _ => .pure _
    · exact .bind (ih _) fun _ => .pure _
    · exact .bind (.liftB _) fun _ =>
        .bind (keeps_lotFilter _ (keeps_sizeQ G n _) (keeps_sizeQ G n _) _) fun _ =>
        .bind (.ite (keeps_lotFilter _ (keeps_sizeQ G n _) (keeps_sizeQ G n _) _) (.pure _)) fun _ =>
        .ite (.out _) (.bind (.lift _) fun _ => .bind (.lift _) fun _ => ih _)
    · refine .bind (.liftB _) fun _ =>
        .bind (keeps_pickFilter (keeps_sizeQ G n _) (keeps_sizeQ G n _) _) fun _ => ?_
      exact .ite (.bind (.liftF (keeps_sizeQ _ _ _ _)) fun _ => .bind .curSize fun _ =>
        .ite (.out _) (.out _)) (.bind (.lift _) fun _ => .bind (.lift _) fun _ => ih _)

/-- For every budget, the order of evaluation changes nothing, unless both runs fail and one of them
not with `OutOfData`. -/
theorem same_order (ch : Id → Flags × β → Bool) (G : Graph) (n : Nat) (i : Id) :
    SameButBad (extract G n i : XM β Bytes) (extractO ch G n i) := by
  induction n generalizing i with
  | zero => exact .refl _
  | succ n ih =>
    unfold extract extractO
    rcases G i with _ | nd
    · exact .refl _
    dsimp only
    cases nd
    · exact .refl _
    · exact .refl _
    · exact .refl _
    · exact .refl _
    · exact .refl _
    · exact .refl _
    · exact .bind (.refl _) fun _ => .bind (.refl _) fun _ => .bind (.refl _) fun _ =>
        .bind (same_each ih _ _) fun _ => .refl _
    · refine .bind (.refl _) fun _ => .bind (.refl _) fun _ => .bind (.refl _) fun bs =>
        .bind ?_ fun _ => .refl _
      intro s
      dsimp only
      split
      · exact same_each ih _ _ s
      · exact same_rev ih (keeps_extract G n) (keeps_extractO ch G n) _ _ s
    · exact .bind (same_seq ih _) fun _ => .refl _
    · exact .bind (ih _) fun _ => .refl _
    · exact .bind (.refl _) fun _ => .bind (.refl _) fun _ => .bind (.refl _) fun _ =>
        .ite (.refl _) (.bind (.refl _) fun _ => .bind (.refl _) fun _ => ih _)
    · exact .bind (.refl _) fun _ => .bind (.refl _) fun _ => .ite (.refl _)
        (.bind (.refl _) fun _ => .bind (.refl _) fun _ => ih _)

/-- `ExtractStr` ends with outcome `o`, when `ch` decides the order of evaluation. -/
def ExtractsO (ch : Id → Flags × β → Bool) (G : Graph) (fl : Flags) (i : Id) (b : β)
    (o : Out Bytes) (fl' : Flags) (b' : β) : Prop :=
  ∃ N, ∀ n ≥ N, extractO ch G n i (fl, b) = (o, (fl', b'))

/-- **C64**: whatever the order of evaluation, the same text is produced and the same bytes are
used. -/
theorem C64_order (ch : Id → Flags × β → Bool) (G : Graph) (fl fl' : Flags) (i : Id) (b b' : β)
    (s : Bytes) : ExtractsO ch G fl i b (.ok s) fl' b' ↔ Extracts G fl i b (.ok s) fl' b' := by
  constructor
  · rintro ⟨N, h⟩
    refine ⟨N, fun n hn => ?_⟩
    rcases same_order ch G n i (fl, b) with e | ⟨-, q, -⟩
    · rw [e, h n hn]
    · rw [h n hn] at q
      exact absurd rfl (q s)
  · rintro ⟨N, h⟩
    refine ⟨N, fun n hn => ?_⟩
    rcases same_order ch G n i (fl, b) with e | ⟨q, -, -⟩
    · rw [← e, h n hn]
    · rw [h n hn] at q
      exact absurd rfl (q s)

/-- **C64**, failing runs: two orders of evaluation that both end, with a text or with
`OutOfData`, end in the same way and with the same state. -/
theorem C64_clean (ch : Id → Flags × β → Bool) (G : Graph) (fl : Flags) (i : Id) (b : β)
    {o o' : Out Bytes} {fl1 fl2 : Flags} {b1 b2 : β} (h : Extracts G fl i b o fl1 b1)
    (h' : ExtractsO ch G fl i b o' fl2 b2) (ho : (∃ s, o = .ok s) ∨ o = .outOfData)
    (ho' : (∃ s, o' = .ok s) ∨ o' = .outOfData) : o = o' ∧ fl1 = fl2 ∧ b1 = b2 := by
  obtain ⟨N, h⟩ := h
  obtain ⟨N', h'⟩ := h'
  have e := h (max N N') (le_max_left _ _)
  have e' := h' (max N N') (le_max_right _ _)
  rcases same_order ch G (max N N') i (fl, b) with q | ⟨-, -, q⟩
  · rw [e, e'] at q
    simpa only [Prod.mk.injEq] using q
  · rw [e, e'] at q
    rcases q with q | q
    · rcases ho with ⟨s, r⟩ | r
      · exact absurd r (q.1 s)
      · exact absurd r q.2
    · rcases ho' with ⟨s, r⟩ | r
      · exact absurd r (q.1 s)
      · exact absurd r q.2

end

/-- `(x + y)` over two 16-bit numbers: evaluated from the right, bytes 1, 0, 2, 0 still give
`(1 + 2)`, and three bytes are refused, with all of them left. -/
def twoShorts : Graph
  | 0 => some (.binary [43] 1 2)
  | 1 => some (.arith .u16)
  | 2 => some (.arith .u16)
  | _ => none

example : (extractO (fun _ _ => false) twoShorts 5 0 (Flags.init, ([1, 0, 2, 0] : ABlob))).1 =
    .ok [40, 49, 32, 43, 32, 50, 41] := by decide +kernel

example : (extractO (fun _ _ => false) twoShorts 5 0 (Flags.init, ([1, 0, 2] : ABlob))).1 =
    .outOfData := by decide +kernel

/-- Why `C64_clean` asks that both runs end cleanly: the first operand refuses its data, the second
one is undefined. Evaluated from the left this throws, evaluated from the right it is undefined. -/
def riskyGraph : Graph
  | 0 => some (.binary [43] 1 2)
  | 1 => some (.user ⟨1, 1, false, fun _ => (.outOfData, 0)⟩)
  | 2 => some (.user ⟨1, 1, false, fun _ => (.ub .user, 0)⟩)
  | _ => none

example :
    (extractO (fun _ _ => true) riskyGraph 5 0 (Flags.init, ([1, 2] : ABlob))).1 = .outOfData ∧
      (extractO (fun _ _ => false) riskyGraph 5 0 (Flags.init, ([1, 2] : ABlob))).1 = .ub .user := by
  decide +kernel

end BS
