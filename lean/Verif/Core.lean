/-!
# Outcomes, the state monad of the model, and machine integers

No C++ function of the library is modelled here; this file fixes the semantic domain.
-/

namespace BS

/-- Contents of memory, strings and blobs. `char` is treated as a raw byte.
[`char*` of blob.h 33, `std::vector<char>` of blob.h 42 and 47] -/
abbrev Bytes := List UInt8

/-- Reasons for undefined behaviour. [C++ itself, not a function of the library; needed for all of src] -/
inductive UB where
  /-- read or write outside an object -/
  | oob
  /-- pointer arithmetic leaving the array (C++17 [expr.add]) -/
  | ptrArith
  /-- `int` overflow -/
  | intOverflow
  /-- conversion of a floating value that does not fit the integer type (or of a NaN) -/
  | floatToInt
  /-- integer division by zero -/
  | divByZero
  /-- dereference of a null (or expired) pointer -/
  | nullDeref
  /-- `free` of a pointer that is not a live allocation -/
  | badFree
  /-- a `printf` conversion that does not fit its argument -/
  | format
  /-- whatever a user-written stamp does on its own -/
  | user
deriving DecidableEq, Repr

/-- Outcome of a call. [how a call of a function of src ends] -/
inductive Out (α : Type) where
  /-- normal return -/
  | ok (a : α)
  /-- the C++ exception `OutOfData` (include/blobstamper/blob.h 51-54) -/
  | outOfData
  /-- undefined behaviour -/
  | ub (r : UB)
  /-- `abort()` / `exit(1)` -/
  | abort
  /-- the step budget of the model ran out; "`fuel` for every budget" means divergence -/
  | fuel
deriving DecidableEq, Repr

/-- Rebuild a non-`ok` outcome at another type. [plumbing of the model] -/
def Out.cast {α β : Type} (d : Out β) : Out α → Out β
  | .ok _ => d
  | .outOfData => .outOfData
  | .ub r => .ub r
  | .abort => .abort
  | .fuel => .fuel

/-- [plumbing of the model] -/
def Out.map {α β : Type} (f : α → β) : Out α → Out β
  | .ok a => .ok (f a)
  | .outOfData => .outOfData
  | .ub r => .ub r
  | .abort => .abort
  | .fuel => .fuel

/-- [sequence of two statements] -/
def Out.bind {α β : Type} (o : Out α) (f : α → Out β) : Out β :=
  match o with
  | .ok a => f a
  | .outOfData => .outOfData
  | .ub r => .ub r
  | .abort => .abort
  | .fuel => .fuel

/-- Sequence of statements. [plumbing of the model] -/
instance : Monad Out where
  pure := .ok
  bind := Out.bind

/-- Stateful computation. The state survives an exception, as objects do in C++.
[C++ itself, not a function of the library; needed for stamp.h 35-36, blob.h 33-35] -/
def M (σ α : Type) : Type := σ → Out α × σ

namespace M
variable {σ α β : Type}

/-- Sequencing: stop at the first outcome that is not a normal return, keeping the state.
[sequence of two statements] -/
def bind (m : M σ α) (f : α → M σ β) : M σ β := fun s =>
  match m s with
  | (.ok a, s') => f a s'
  | (.outOfData, s') => (.outOfData, s')
  | (.ub r, s') => (.ub r, s')
  | (.abort, s') => (.abort, s')
  | (.fuel, s') => (.fuel, s')

/-- Sequence of statements. [plumbing of the model] -/
instance : Monad (M σ) where
  pure a := fun s => (.ok a, s)
  bind := M.bind

/-- End with a given outcome, state unchanged. [plumbing of the model] -/
def out (o : Out α) : M σ α := fun s => (o, s)

/-- `throw OutOfData()` (blob.cpp 54 and 68, stamp.cpp 35, galley.cpp 83 and 233, stamp_json.cpp 91, stamp_lottery.h 201). -/
def throwOOD : M σ α := out .outOfData

/-- Undefined behaviour. [C++ itself, not a function of the library; needed for all of src] -/
def ub (r : UB) : M σ α := out (.ub r)

/-- Read the state. [plumbing of the model] -/
def get : M σ σ := fun s => (.ok s, s)

@[simp] theorem pure_apply (a : α) (s : σ) : (pure a : M σ α) s = (.ok a, s) := rfl
@[simp] theorem out_apply (o : Out α) (s : σ) : (out o : M σ α) s = (o, s) := rfl
@[simp] theorem throw_apply (s : σ) : (throwOOD : M σ α) s = (.outOfData, s) := rfl
@[simp] theorem ub_apply (r : UB) (s : σ) : (ub r : M σ α) s = (.ub r, s) := rfl
@[simp] theorem get_apply (s : σ) : (get : M σ σ) s = (.ok s, s) := rfl

theorem bind_apply (m : M σ α) (f : α → M σ β) (s : σ) :
    (m >>= f) s = match m s with
      | (.ok a, s') => f a s'
      | (.outOfData, s') => (.outOfData, s')
      | (.ub r, s') => (.ub r, s')
      | (.abort, s') => (.abort, s')
      | (.fuel, s') => (.fuel, s') := rfl

theorem bind_ok {m : M σ α} {f : α → M σ β} {s s' : σ} {a : α} (h : m s = (.ok a, s')) :
    (m >>= f) s = f a s' := by rw [bind_apply, h]

theorem bind_ood {m : M σ α} {f : α → M σ β} {s s' : σ} (h : m s = (.outOfData, s')) :
    (m >>= f) s = (.outOfData, s') := by rw [bind_apply, h]

theorem bind_fuel {m : M σ α} {f : α → M σ β} {s s' : σ} (h : m s = (.fuel, s')) :
    (m >>= f) s = (.fuel, s') := by rw [bind_apply, h]

theorem bind_ub {m : M σ α} {f : α → M σ β} {s s' : σ} {r : UB} (h : m s = (.ub r, s')) :
    (m >>= f) s = (.ub r, s') := by rw [bind_apply, h]

theorem bind_abort {m : M σ α} {f : α → M σ β} {s s' : σ} (h : m s = (.abort, s')) :
    (m >>= f) s = (.abort, s') := by rw [bind_apply, h]

@[simp] theorem pure_bind (a : α) (f : α → M σ β) : (pure a >>= f) = f a := rfl

theorem bind_assoc {γ : Type} (m : M σ α) (f : α → M σ β) (g : β → M σ γ) :
    ((m >>= f) >>= g) = (m >>= fun a => f a >>= g) := by
  funext s
  simp only [bind_apply]
  rcases m s with ⟨o, s'⟩
  cases o <;> rfl

/-- A successful sequence succeeds in both parts. -/
theorem bind_eq_ok {m : M σ α} {f : α → M σ β} {s s'' : σ} {b : β} :
    (m >>= f) s = (.ok b, s'') ↔ ∃ a s', m s = (.ok a, s') ∧ f a s' = (.ok b, s'') := by
  rw [bind_apply]
  rcases m s with ⟨o, s'⟩
  cases o <;> simp [and_assoc]

theorem bind_eq_ood {m : M σ α} {f : α → M σ β} {s s'' : σ} :
    (m >>= f) s = (.outOfData, s'') ↔ m s = (.outOfData, s'') ∨
      ∃ a s', m s = (.ok a, s') ∧ f a s' = (.outOfData, s'') := by
  rw [bind_apply]
  rcases m s with ⟨o, s'⟩
  cases o <;> simp [and_assoc]

/-- Lift an outcome that does not touch the state. [plumbing of the model] -/
def lift (o : Out α) : M σ α := out o

end M

/-! ## Machine integers (LP64) -/

/- 2^64. -/
notation "W64" => 18446744073709551616
/- 2^31. -/
notation "W31" => 2147483648
/- 2^32. -/
notation "W32" => 4294967296
/- `INT_MAX` -/
notation "INT_MAX" => 2147483647

/-- Conversion of a (signed or unsigned) integer to `size_t`: reduction mod 2^64.
[C++ itself, not a function of the library; needed for the arguments of blob.h 43-44 and galley.cpp 155] -/
def toSz (i : Int) : Nat := (i % (W64 : Int)).toNat

/-- Conversion of a `size_t` to `int`: reduction mod 2^32 into the signed range
(implementation-defined before C++20; this is what gcc and clang do).
[C++ itself, not a function of the library; needed for galley.cpp 143, `int data_size = blob->Size()`] -/
def wrap32 (i : Int) : Int := (i + W31) % W32 - W31

/-- Does the value fit an `int`? [C++ itself, not a function of the library; needed for the sizes of stamp.h 38-39] -/
def fitsInt (i : Int) : Bool := decide (-W31 ≤ i) && decide (i < W31)

/-- Result of signed `int` arithmetic whose mathematical value is `i`.
[C++ itself, not a function of the library; needed for galley.cpp 144-145] -/
def ckInt (i : Int) : Out Int := if fitsInt i then .ok i else .ub .intOverflow

theorem fitsInt_iff {i : Int} : fitsInt i = true ↔ -W31 ≤ i ∧ i < W31 := by
  simp [fitsInt]

theorem ckInt_ok {i : Int} (h1 : -W31 ≤ i) (h2 : i < W31) : ckInt i = .ok i := by
  unfold ckInt; rw [if_pos (fitsInt_iff.2 ⟨h1, h2⟩)]

theorem ckInt_cases (i : Int) : ckInt i = .ok i ∨ ckInt i = .ub .intOverflow := by
  unfold ckInt; split
  · exact Or.inl rfl
  · exact Or.inr rfl

theorem toSz_of_nonneg {i : Int} (h : 0 ≤ i) (h2 : i < (W64 : Int)) : toSz i = i.toNat := by
  unfold toSz; rw [Int.emod_eq_of_lt h h2]

theorem toSz_natCast {n : Nat} (h : n < W64) : toSz (n : Int) = n := by
  rw [toSz_of_nonneg (by omega) (by omega)]; omega

theorem toSz_lt (i : Int) : toSz i < W64 := by
  unfold toSz; omega

theorem toSz_neg {i : Int} (h : i < 0) (h2 : -(W64 : Int) ≤ i) : (toSz i : Int) = i + W64 := by
  unfold toSz; omega

theorem wrap32_of_fits {i : Int} (h1 : -W31 ≤ i) (h2 : i < W31) : wrap32 i = i := by
  unfold wrap32; omega

theorem wrap32_fits (i : Int) : -W31 ≤ wrap32 i ∧ wrap32 i < W31 := by
  unfold wrap32; omega

end BS
