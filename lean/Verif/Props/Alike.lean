import Verif.Spec.Alike
import Verif.Props.Lifetime
import Verif.Props.Threads
import Verif.Props.Copy

/-!
# C92: stamps that are built alike behave alike
-/

namespace BS
open BlobLike

/-! ## Runs that correspond -/

/-- Corresponding outcomes. -/
inductive OutRel {α γ : Type} (r : α → γ → Prop) : Out α → Out γ → Prop
  | ok {a c} : r a c → OutRel r (.ok a) (.ok c)
  | ood : OutRel r .outOfData .outOfData
  | abort : OutRel r .abort .abort
  | fuel : OutRel r .fuel .fuel
  | ub {u} : OutRel r (.ub u) (.ub u)

theorem OutRel.eq {α : Type} {o o' : Out α} (h : OutRel Eq o o') : o = o' := by
  cases h with
  | ok h => rw [h]
  | _ => rfl

theorem OutRel.refl {α : Type} (o : Out α) : OutRel Eq o o := by
  cases o with
  | ok a => exact .ok rfl
  | outOfData => exact .ood
  | abort => exact .abort
  | fuel => exact .fuel
  | ub => exact .ub

/-- The two computations, started in corresponding states, end in corresponding states with corresponding outcomes. -/
def Twin {σ τ α γ : Type} (R : σ → τ → Prop) (r : α → γ → Prop) (m : M σ α) (m' : M τ γ) : Prop :=
  ∀ s s', R s s' → OutRel r (m s).1 (m' s').1 ∧ R (m s).2 (m' s').2

namespace Twin
variable {σ τ α γ α' γ' : Type} {R : σ → τ → Prop} {r : α → γ → Prop} {q : α' → γ' → Prop}

theorem pure {a : α} {c : γ} (h : r a c) : Twin R r (Pure.pure a : M σ α) (Pure.pure c : M τ γ) :=
  fun _ _ hs => ⟨.ok h, hs⟩

theorem out (o : Out α) (o' : Out γ) (h : OutRel r o o') : Twin R r (M.out o : M σ α) (M.out o' : M τ γ) :=
  fun _ _ hs => ⟨h, hs⟩

theorem lift (o : Out α) : Twin R Eq (M.lift o : M σ α) (M.lift o : M τ α) := fun _ _ hs => ⟨.refl o, hs⟩

theorem bind {m : M σ α} {m' : M τ γ} {f : α → M σ α'} {f' : γ → M τ γ'} (h : Twin R r m m')
    (hf : ∀ a c, r a c → Twin R q (f a) (f' c)) : Twin R q (m >>= f) (m' >>= f') := by
  intro s s' hs
  obtain ⟨h1, h2⟩ := h s s' hs
  rw [M.bind_apply, M.bind_apply]
  rcases hm : m s with ⟨o, t⟩
  rcases hm' : m' s' with ⟨o', t'⟩
  rw [hm, hm'] at h1 h2
  cases h1 with
  | ok h => exact hf _ _ h t t' h2
  | ood => exact ⟨.ood, h2⟩
  | abort => exact ⟨.abort, h2⟩
  | fuel => exact ⟨.fuel, h2⟩
  | ub => exact ⟨.ub, h2⟩

theorem bindEq {m : M σ α} {m' : M τ α} {f : α → M σ α'} {f' : α → M τ γ'} (h : Twin R Eq m m')
    (hf : ∀ a, Twin R q (f a) (f' a)) : Twin R q (m >>= f) (m' >>= f') :=
  h.bind fun a c e => e ▸ hf a

theorem ite {c : Prop} [Decidable c] {m n : M σ α} {m' n' : M τ γ} (h : Twin R r m m') (h' : Twin R r n n') :
    Twin R r (if c then m else n) (if c then m' else n') := by
  split <;> assumption

end Twin

section
variable {G G' : Graph} {φ : Id → Id} {S : Id → Prop}

/-- Flags of corresponding pickers agree. -/
def FlagsRel (G : Graph) (φ : Id → Id) (S : Id → Prop) (fl fl' : Flags) : Prop :=
  ∀ j pool, S j → G j = some (.picker pool) → fl' (φ j) = fl j

/-- A set of objects closed under use, and a picture of it. -/
structure Picture (G G' : Graph) (φ : Id → Id) (S : Id → Prop) : Prop where
  objects : ∀ j, S j → G' (φ j) = (G j).map (Node.onParts φ)
  kids : ∀ j nd k, S j → G j = some nd → k ∈ nd.plainKids ∨ k ∈ nd.choices → S k
  pickers : ∀ j k pool pool', S j → S k → G j = some (.picker pool) → G k = some (.picker pool') → φ j = φ k → j = k

abbrev TwinF (G : Graph) (φ : Id → Id) (S : Id → Prop) {α γ : Type} (r : α → γ → Prop) (m : M Flags α) (m' : M Flags γ) :=
  Twin (FlagsRel G φ S) r m m'

theorem twin_setIn (h : Picture G G' φ S) {i : Id} {pool : List Id} (hi : S i) (hG : G i = some (.picker pool)) (v : Bool) :
    TwinF G φ S Eq (modFlags (·.setIn i v)) (modFlags (·.setIn (φ i) v)) := by
  intro fl fl' hs
  refine ⟨.ok rfl, fun j p hj hp => ?_⟩
  show (if φ j = φ i then _ else _) = (if j = i then _ else _)
  by_cases e : j = i
  · subst e; rw [if_pos rfl, if_pos rfl, hs j p hj hp]
  · rw [if_neg e, if_neg fun e' => e (h.pickers j i p pool hj hi hp hG e'), hs j p hj hp]

theorem twin_setRec (h : Picture G G' φ S) {i : Id} {pool : List Id} (hi : S i) (hG : G i = some (.picker pool)) :
    TwinF G φ S Eq (modFlags (·.setRec i)) (modFlags (·.setRec (φ i))) := by
  intro fl fl' hs
  refine ⟨.ok rfl, fun j p hj hp => ?_⟩
  show (if φ j = φ i then _ else _) = (if j = i then _ else _)
  by_cases e : j = i
  · subst e; rw [if_pos rfl, if_pos rfl, hs j p hj hp]
  · rw [if_neg e, if_neg fun e' => e (h.pickers j i p pool hj hi hp hG e'), hs j p hj hp]

/-- Reading a member. -/
theorem twin_read {i : Id} {pool : List Id} (hi : S i) (hG : G i = some (.picker pool)) {α γ : Type} {r : α → γ → Prop}
    {f : Flag → M Flags α} {f' : Flag → M Flags γ} (hf : ∀ x, TwinF G φ S r (f x) (f' x)) :
    TwinF G φ S r (M.get >>= fun fl => f (fl i)) (M.get >>= fun fl => f' (fl (φ i))) := by
  intro fl fl' hs
  have := hf (fl i) fl fl' hs
  rw [M.bind_ok (M.get_apply _), M.bind_ok (M.get_apply _), hs i pool hi hG]
  exact this

section
variable {R : Flags → Flags → Prop} {q q' p p' : Id → M Flags Int} {l : List Id}

theorem twin_queryAll (h : ∀ i ∈ l, Twin R Eq (q i) (q' (φ i))) : Twin R Eq (queryAll q l) (queryAll q' (l.map φ)) := by
  induction l with
  | nil => exact .pure rfl
  | cons i l ih =>
    exact .bindEq (h i (by simp)) fun _ => .bindEq (ih fun j hj => h j (by simp [hj])) fun _ => .pure rfl

theorem twin_pickMin (h : ∀ i ∈ l, Twin R Eq (q i) (q' (φ i))) (res : Int) :
    Twin R Eq (pickMinLoop q l res) (pickMinLoop q' (l.map φ) res) := by
  induction l generalizing res with
  | nil => exact .pure rfl
  | cons i l ih => exact .bindEq (h i (by simp)) fun c => ih (fun j hj => h j (by simp [hj])) _

theorem twin_pickMax (h : ∀ i ∈ l, Twin R Eq (q i) (q' (φ i))) (res : Int) :
    Twin R Eq (pickMaxLoop q l res) (pickMaxLoop q' (l.map φ) res) := by
  induction l generalizing res with
  | nil => exact .pure rfl
  | cons i l ih =>
    exact .bindEq (h i (by simp)) fun c => .ite (.pure rfl) (ih (fun j hj => h j (by simp [hj])) _)

theorem twin_isRecLoop {q q' : Id → M Flags Bool} (h : ∀ i ∈ l, Twin R Eq (q i) (q' (φ i))) :
    Twin R Eq (isRecLoop q l) (isRecLoop q' (l.map φ)) := by
  induction l with
  | nil => exact .pure rfl
  | cons i l ih =>
    exact .bindEq (h i (by simp)) fun c => .ite (.pure rfl) (ih fun j hj => h j (by simp [hj]))

theorem twin_softFilter {i : Id} (rec4 : Bool) (h : Twin R Eq (q i) (q' (φ i))) (h' : Twin R Eq (p i) (p' (φ i))) (d : Int) :
    Twin R Eq (softFilter rec4 q p i d) (softFilter rec4 q' p' (φ i) d) :=
  .ite (.pure rfl) (.bindEq h' fun _ => .ite (.pure rfl) (.bindEq h fun _ => .bindEq (.lift _) fun _ => .pure rfl))

end

theorem twin_sizeQ (h : Picture G G' φ S) (n : Nat) : ∀ (sel : Sel) (i : Id), S i →
    TwinF G φ S Eq (sizeQ G n sel i) (sizeQ G' n sel (φ i)) := by
  induction n with
  | zero => exact fun _ _ _ => .out _ _ .fuel
  | succ n ih =>
    intro sel i hi
    unfold sizeQ
    rw [h.objects i hi]
    cases hG : G i with
    | none => exact .out _ _ .ub
    | some nd =>
      have hk : ∀ sel j, j ∈ nd.plainKids ∨ j ∈ nd.choices → TwinF G φ S Eq (sizeQ G n sel j) (sizeQ G' n sel (φ j)) :=
        fun sel j hj => ih sel j (h.kids i nd j hi hG hj)
      cases nd with
      | vec c join =>
        cases sel with
        | max => exact .pure rfl
        | min =>
          exact .bindEq (hk .min c (by simp [Node.plainKids])) fun _ =>
            .bindEq (hk .max c (by simp [Node.plainKids])) fun _ => .pure rfl
      | set cs join unb =>
        have q1 := twin_queryAll (φ := φ) (l := cs) fun j hj => hk .min j (.inl hj)
        have q2 := twin_queryAll (φ := φ) (l := cs) fun j hj => hk .max j (.inl hj)
        cases sel <;> cases unb <;>
          first
            | exact .pure rfl
            | exact .bindEq q1 fun _ => .bindEq q2 fun _ => .lift _
      | seq cs join unb =>
        have q1 := twin_queryAll (φ := φ) (l := cs) fun j hj => hk sel j (.inl hj)
        cases sel <;> cases unb <;>
          first
            | exact .pure rfl
            | exact .bindEq q1 fun _ => .lift _
      | unary op c =>
        cases sel with
        | max => exact .pure rfl
        | min => exact hk .min c (by simp [Node.plainKids])
      | lottery rec4 l osz smin smax =>
        cases sel with
        | min => exact .lift _
        | max => exact .ite (.pure rfl) (.lift _)
      | picker pool =>
        have q1 := twin_pickMin (φ := φ) (l := pool) fun j hj => hk .min j (.inr hj)
        have q2 := twin_pickMax (φ := φ) (l := pool) fun j hj => hk .max j (.inr hj)
        cases sel with
        | min =>
          refine twin_read hi hG (f := fun x => if x.inRec then pure (INT_MAX / 2) else do
              modFlags (·.setIn i true)
              let res ← pickMinLoop (sizeQ G n .min) pool (INT_MAX / 2)
              modFlags (·.setIn i false)
              if res = INT_MAX / 2 then pure (INT_MAX / 2) else pure (wrap32 (res + 2)))
            (f' := fun x => if x.inRec then pure (INT_MAX / 2) else do
              modFlags (·.setIn (φ i) true)
              let res ← pickMinLoop (sizeQ G' n .min) (pool.map φ) (INT_MAX / 2)
              modFlags (·.setIn (φ i) false)
              if res = INT_MAX / 2 then pure (INT_MAX / 2) else pure (wrap32 (res + 2))) fun x => ?_
          exact .ite (.pure rfl) (.bindEq (twin_setIn h hi hG true) fun _ => .bindEq (q1 _) fun _ =>
            .bindEq (twin_setIn h hi hG false) fun _ => .ite (.pure rfl) (.pure rfl))
        | max =>
          refine twin_read hi hG (f := fun x => if x.isRec || x.inRec then pure (-1) else do
              modFlags (·.setIn i true)
              let r ← pickMaxLoop (sizeQ G n .max) pool 0
              modFlags (·.setIn i false)
              match r with
              | none => pure (-1)
              | some res => pure (wrap32 (res + 2)))
            (f' := fun x => if x.isRec || x.inRec then pure (-1) else do
              modFlags (·.setIn (φ i) true)
              let r ← pickMaxLoop (sizeQ G' n .max) (pool.map φ) 0
              modFlags (·.setIn (φ i) false)
              match r with
              | none => pure (-1)
              | some res => pure (wrap32 (res + 2))) fun x => ?_
          refine .ite (.pure rfl) (.bindEq (twin_setIn h hi hG true) fun _ => .bindEq (q2 _) fun o =>
            .bindEq (twin_setIn h hi hG false) fun _ => ?_)
          cases o <;> exact .pure rfl
      | _ => exact .pure rfl

theorem twin_isRecQ (h : Picture G G' φ S) (n : Nat) : ∀ (i : Id), S i →
    TwinF G φ S Eq (isRecQ G n i) (isRecQ G' n (φ i)) := by
  induction n with
  | zero => exact fun _ _ => .out _ _ .fuel
  | succ n ih =>
    intro i hi
    unfold isRecQ
    rw [h.objects i hi]
    cases hG : G i with
    | none => exact .out _ _ .ub
    | some nd =>
      cases nd with
      | picker pool =>
        refine twin_read hi hG (f := fun x => if x.isRec || x.inRec then pure true else do
              modFlags (·.setIn i true)
              let r ← isRecLoop (isRecQ G n) pool
              if r then modFlags (·.setRec i)
              modFlags (·.setIn i false)
              pure r)
            (f' := fun x => if x.isRec || x.inRec then pure true else do
              modFlags (·.setIn (φ i) true)
              let r ← isRecLoop (isRecQ G' n) (pool.map φ)
              if r then modFlags (·.setRec (φ i))
              modFlags (·.setIn (φ i) false)
              pure r) fun x => ?_
        refine .ite (.pure rfl) (.bindEq (twin_setIn h hi hG true) fun _ =>
          .bindEq (twin_isRecLoop fun j hj => ih j (h.kids i _ j hi hG (.inr hj))) fun o => ?_)
        cases o
        · exact .bindEq (twin_setIn h hi hG false) fun _ => .pure rfl
        · exact .bindEq (twin_setRec h hi hG) fun _ => .bindEq (twin_setIn h hi hG false) fun _ => .pure rfl
      | _ => exact .pure rfl

end

theorem forall2_below {f : Id → Id} {R : Id → Id → Prop} {cs : List Id} (h : ∀ k ∈ cs, R k (f k)) :
    List.Forall₂ R cs (cs.map f) := by
  induction cs with
  | nil => exact .nil
  | cons c cs ih => exact .cons (h c (by simp)) (ih fun k hk => h k (by simp [hk]))

theorem onParts_below {f : Id → Id} {R : Id → Id → Prop} {nd : Node}
    (h : ∀ k, k ∈ nd.plainKids ∨ k ∈ nd.choices → R k (f k)) : NodeMatch R nd (nd.onParts f) := by
  cases nd with
  | vec c join => exact .vec join (h c (by simp [Node.plainKids]))
  | set cs join unb => exact .set join unb (forall2_below fun k hk => h k (.inl hk))
  | seq cs join unb => exact .seq join unb (forall2_below fun k hk => h k (.inl hk))
  | unary op c => exact .unary op (h c (by simp [Node.plainKids]))
  | lottery r cs a b c => exact .lottery r a b c (forall2_below fun k hk => h k (.inr hk))
  | picker cs => exact .picker (forall2_below fun k hk => h k (.inr hk))
  | _ => exact .single rfl

/-- **C92** for any stamps at all: if `f i` is built like `i`, pool pickers staying apart, the two have the same sizes, say
the same of recursion and make the same of every blob, whatever state the pickers are in. -/
theorem C92_alike {G H : Graph} {f : Id → Id} {i : Id} {fl fl' : Flags} (h : BuiltAlike G H f i)
    (hf : SameFlags G f i fl fl') :
    SameExtraction G fl i H fl' (f i) ∧
    (∀ sel o, SizeEnds G fl sel i o ↔ SizeEnds H fl' sel (f i) o) ∧
    ∀ o, IsRecEnds G fl i o ↔ IsRecEnds H fl' (f i) o := by
  have hp : Picture G H f (Relation.ReflTransGen (Edge G) i) :=
    ⟨h.objects, fun j nd k hj hG hk => hj.tail ⟨nd, hG, hk⟩, h.pickers⟩
  have hs : ∀ j, Relation.ReflTransGen (Edge G) i j → ∀ sel o,
      SizeEnds G fl sel j o ↔ SizeEnds H fl' sel (f j) o := fun j hj sel o => by
    have key : ∀ n, (sizeQ G n sel j fl).1 = (sizeQ H n sel (f j) fl').1 := fun n =>
      (twin_sizeQ hp n sel j hj fl fl' fun k pool hk hG => hf k pool hk hG).1.eq
    unfold SizeEnds
    simp only [key]
  refine ⟨?_, hs i .refl, fun o => ?_⟩
  · refine C92_same (R := fun j k => Relation.ReflTransGen (Edge G) i j ∧ k = f j) ?_ ?_ ⟨.refl, rfl⟩
    · rintro j _ ⟨hj, rfl⟩
      have e := h.objects j hj
      cases hG : G j with
      | none => rw [hG] at e; exact .inl ⟨rfl, e⟩
      | some nd =>
        rw [hG] at e
        exact .inr ⟨nd, _, rfl, e, onParts_below fun k hk => ⟨hj.tail ⟨nd, hG, hk⟩, rfl⟩⟩
    · rintro j _ ⟨hj, rfl⟩ sel o -
      exact hs j hj sel o
  · have key : ∀ n, (isRecQ G n i fl).1 = (isRecQ H n (f i) fl').1 := fun n =>
      (twin_isRecQ hp n i .refl fl fl' fun k pool hk hG => hf k pool hk hG).1.eq
    unfold IsRecEnds
    simp only [key]

/-- The second `StampJSON` of a program is built like the first. -/
theorem twoJson_alike : BuiltAlike twoJson twoJson (fun j => Nat.add j 8) 0 := by
  have small : ∀ j : Nat, Relation.ReflTransGen (Edge twoJson) 0 j → j < 8 := fun j h =>
    (twoJson_below h).1.1 (by decide)
  constructor
  · intro (j : Nat) h
    have := small j h
    interval_cases j <;> rfl
  · intro (j : Nat) (k : Nat) _ _ _ _ _ _ (e : j + 8 = k + 8)
    exact Nat.add_right_cancel e

/-- So it makes what the first makes of every blob, has the same sizes and says the same of recursion, whatever state the two
are in, as long as it is the same; and of 16 zero bytes it makes `[0]`. -/
example (fl : Flags) (h : fl 8 = fl 0) : SameExtraction twoJson fl 0 twoJson fl 8 ∧
    (∀ sel o, SizeEnds twoJson fl sel 0 o ↔ SizeEnds twoJson fl sel 8 o) ∧
    (∀ o, IsRecEnds twoJson fl 0 o ↔ IsRecEnds twoJson fl 8 o) ∧
    ∃ b, Reachable b ∧ Returns twoJson Flags.init 8 b (str "[0]") [] := by
  obtain ⟨h1, h2, h3⟩ := C92_alike (f := fun j => Nat.add j 8) (fl := fl) (fl' := fl) twoJson_alike (by
    intro (j : Nat) pool hj hG
    have : j < 8 := (twoJson_below hj).1.1 (by decide)
    interval_cases j <;> first | exact h | cases hG)
  obtain ⟨b, hr, hb⟩ := exists_blob (bs := List.replicate 16 0) (by decide)
  exact ⟨h1, h2, h3, b, hr, (returns_iff hr hb).2 (arun_of 60 (by decide +kernel))⟩

end BS
