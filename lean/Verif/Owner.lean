import Verif.Arith

/-!
# Owned buffers: `sized_ptr` and `VLATO_ptr` (include/blobstamper/helpers.h 107-147)

Only ownership is modelled: which block an object points to and which blocks have been freed. The
contents of the blocks are not. Blocks are numbered in the order of allocation, so a number never
comes back although `malloc` may reuse an address.
-/

namespace BS

/-- An object of one of the two classes. [helpers.h 107-138] -/
inductive Owner where
  /-- helpers.h 107-118: `_ptr`, `_size` -/
  | sized (ptr : Option Nat) (size : Nat)
  /-- helpers.h 120-138: `_ptr`, `_offset`, `_length`, and `sizeof(ArrayT)` -/
  | vlato (ptr : Option Nat) (offset length elt : Nat)
deriving DecidableEq, Repr

/-- `operator T*` (helpers.h 114, 128). -/
def Owner.ptr : Owner → Option Nat
  | .sized p _ => p
  | .vlato p _ _ _ => p

/-- The heap and the living objects. [C++ itself, not a function of the library; needed for helpers.h 107-147] -/
structure Mem where
  /-- sizes of all blocks ever allocated, by number -/
  blocks : List Nat
  /-- numbers of freed blocks, the last one first -/
  freed : List Nat
  objs : Nat → Option Owner

/-- [the start of a program] -/
def Mem.empty : Mem := ⟨[], [], fun _ => none⟩

/-- [plumbing of the model] -/
def Mem.set (m : Mem) (x : Nat) (o : Option Owner) : Mem := { m with objs := fun y => if y = x then o else m.objs y }

/-- `malloc(n)` (helpers.h 144, stamp.h 107): a new block. -/
def malloc (n : Nat) : M Mem Nat := fun m => (.ok m.blocks.length, { m with blocks := m.blocks ++ [n] })

/-- `free(p)` (helpers.h 117, 137): undefined unless `p` is an allocated block not freed before. -/
def free (p : Nat) : M Mem Unit := fun m =>
  if p < m.blocks.length ∧ p ∉ m.freed then (.ok (), { m with freed := p :: m.freed }) else (.ub .badFree, m)

/-- The object `x` comes to life. [constructors of helpers.h 116, 136, 141] -/
def Mem.put (x : Nat) (o : Owner) : M Mem Unit := fun m => (.ok (), m.set x (some o))

/-- The object `x` is gone. [destructors of helpers.h 117, 137] -/
def Mem.drop (x : Nat) : M Mem Unit := fun m => (.ok (), m.set x none)

/-- Read object `x`. [use of an object of helpers.h 107-138] -/
def Mem.obj (x : Nat) : M Mem Owner := fun m =>
  match m.objs x with
  | some o => (.ok o, m)
  | none => (.ub .nullDeref, m)

/-- helpers.h 133: `VLATO_ptr::size()`, in `size_t`. -/
def vlatoSize (offset length elt : Nat) : Nat := toSz (offset + toSz (length * elt))

/-- What a program does with such objects. [helpers.h 107-147] -/
inductive OwnOp where
  /-- `sized_ptr<T> x(malloc(n), n)` -/
  | newSized (x n : Nat)
  /-- `VLATO_ptr<T,ArrayT> x(offset, length)` -/
  | newVlato (x offset length elt : Nat)
  /-- `VLATO_ptr<T,ArrayT> x((T*) malloc(offset + length * sizeof(ArrayT)), offset, length)` -/
  | newVlatoPtr (x offset length elt : Nat)
  /-- `sized_ptr<T> y = x` for a `VLATO_ptr` x -/
  | convert (y x : Nat)
  /-- end of the life of x -/
  | destroy (x : Nat)
  /-- `y` copy-constructed from `x` by the implicitly declared constructor -/
  | copy (y x : Nat)
deriving DecidableEq, Repr

/-- Carry it out. [helpers.h 107-147] -/
def OwnOp.run : OwnOp → M Mem Unit
  -- helpers.h 116
  | .newSized x n => do
    let p ← malloc n
    Mem.put x (.sized (some p) n)
  -- helpers.h 141-147
  | .newVlato x off len elt => do
    let p ← malloc (toSz (off + toSz (elt * len)))
    Mem.put x (.vlato (some p) off len elt)
  -- helpers.h 136
  | .newVlatoPtr x off len elt => do
    let p ← malloc (vlatoSize off len elt)
    Mem.put x (.vlato (some p) off len elt)
  -- helpers.h 129: the result is built in place (gcc and clang elide the copies of `res`)
  | .convert y x => do
    let o ← Mem.obj x
    match o with
    | .vlato p off len elt =>
      Mem.put y (.sized p (vlatoSize off len elt))
      Mem.put x (.vlato none off len elt)
    | .sized _ _ => M.ub .user
  -- helpers.h 117, 137
  | .destroy x => do
    let o ← Mem.obj x
    match o.ptr with
    | some p => free p
    | none => pure ()
    Mem.drop x
  | .copy y x => do
    let o ← Mem.obj x
    Mem.put y o

/-- A history. [helpers.h 107-147] -/
def runOwn : List OwnOp → M Mem Unit
  | [] => pure ()
  | o :: os => do
    o.run
    runOwn os

/-- stamp.h 104-111: `StampBaseV<T>::ExtractPValue` for an arithmetic stamp, the result becoming object
`x`. An exception of `ExtractValue` leaves with the block allocated and nobody pointing to it. -/
def extractPValue {β : Type} [BlobLike β] (x : Nat) (t : ArithTy) : M (Mem × β) AVal := fun s =>
  match malloc t.size s.1 with
  | (.ok p, m) =>
    match extractValue t s.2 with
    | (.ok v, b) => (.ok v, (m.set x (some (.sized (some p) t.size)), b))
    | (.outOfData, b) => (.outOfData, (m, b))
    | (.ub r, b) => (.ub r, (m, b))
    | (.abort, b) => (.abort, (m, b))
    | (.fuel, b) => (.fuel, (m, b))
  | (_, m) => (.abort, (m, s.2))

end BS
