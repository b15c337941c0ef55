import Verif.Graph

/-!
# Loading and unloading (src/stamp.cpp 29-49, include/blobstamper/stamp.h 31-102, src/galley.cpp 353-363)

A stamp object can keep a piece of blob (`bitten_blob`) and be asked for its value later.
-/

namespace BS
open BlobLike

/-- stamp.h 34: `bitten_blob` of every object; `none` is the null pointer of a stamp that has loaded
nothing yet. The blobs are fresh ones returned by `Chop`, so nobody else holds them. -/
abbrev Bitten (β : Type) := Id → Option β

/-- `bitten_blob = …` (stamp.cpp 48). -/
def Bitten.set {β : Type} (bt : Bitten β) (i : Id) (c : β) : Bitten β := fun j => if j = i then some c else bt j

section
variable {β : Type} [BlobLike β]

/-- stamp.cpp 33-48: the part of `StampBase::Load` up to `Chop`. `minSize() > blob->Size()` compares
as `size_t`. -/
def loadPiece (G : Graph) (n : Nat) (i : Id) : XM β β := do
  let mn ← liftF (sizeQ G n .min i)
  let sz ← curSize
  if sz < toSz mn then M.throwOOD
  else do
    let mx ← liftF (sizeQ G n .max i)
    if mx = -1 then liftB (chop sz)
    else do
      let mx' ← liftF (sizeQ G n .max i)
      liftB (chop (if sz < toSz mx' then sz else toSz mx'))

/-- stamp.cpp 29-49: `StampBase::Load`. The assignment to `bitten_blob` happens only on success. -/
def load (G : Graph) (n : Nat) (i : Id) : M (Bitten β × (Flags × β)) Unit := fun s =>
  let r := loadPiece G n i s.2
  (r.1.map fun _ => (), (match r.1 with | .ok c => s.1.set i c | _ => s.1, r.2))

/-- stamp.h 63, 71, 79, 98: `UnloadStr()` and its siblings, applying `ex` (an `Extract…` of object `i`)
to the kept blob, which loses the bytes taken. On a null pointer every extraction of the library
that looks at its blob is undefined; the model says so of all. -/
def unload {α : Type} (ex : XM β α) (i : Id) : M (Bitten β × Flags) α := fun s =>
  match s.1 i with
  | none => (.ub .nullDeref, s)
  | some c =>
    let r := ex (s.2, c)
    (r.1, (s.1.set i r.2.2, r.2.1))

/-- stamp.h 63: `UnloadStr()`. -/
def unloadStr (G : Graph) (n : Nat) (i : Id) : M (Bitten β × Flags) Bytes := unload (extract G n i) i

/-- galley.cpp 361: `s->Load(blob)` where `blob` is a piece. -/
def loadOne (G : Graph) (n : Nat) (i : Id) (c : β) : M (Bitten β × Flags) Unit := fun s =>
  match load G n i (s.1, (s.2, c)) with
  | (o, (bt, (fl, _))) => (o, (bt, fl))

/-- galley.cpp 357-362: load each stamp from its own piece. Simplification: the loop counter, an `int`,
does not overflow here, so sets of 2^31 stamps are not covered. -/
def loadEach (G : Graph) (n : Nat) : List (Id × β) → M (Bitten β × Flags) Unit
  | [] => pure ()
  | (i, c) :: r => do
    loadOne G n i c
    loadEach G n r

/-- galley.cpp 353-363: `GalleySetBase::LoadAll` for a set over these stamps. -/
def loadAll (G : Graph) (n : Nat) (cs : List Id) : M (Bitten β × (Flags × β)) Unit := fun s =>
  match (do
    let mns ← liftF (queryAll (sizeQ G n .min) cs)
    let mxs ← liftF (queryAll (sizeQ G n .max) cs)
    liftB (setSplit (mns.zip mxs)) : XM β (List β)) s.2 with
  | (.ok blobs, s') =>
    let r := loadEach G n (cs.zip blobs) (s.1, s'.1)
    (r.1, (r.2.1, (r.2.2, s'.2)))
  | (o, s') => (o.map fun _ => (), (s.1, s'))

end

end BS
