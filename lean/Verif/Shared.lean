import Verif.Load

/-!
# Blobs and the client's memory (src/blob.cpp 27-61, src/stamp.cpp 29-49, include/blobstamper/stamp.h 31-102)

A `Blob` does not own its data: it keeps the pointer it was given (blob.cpp 29), and so do the pieces cut off it (blob.cpp 57), also
those that stamps keep between `Load` and `Unload`. Elsewhere in the model a blob carries the contents of its buffer; here it
carries an address, the client may write to its buffers or free them between any two calls, and every call works on what the memory
holds at that moment.
-/

namespace BS

/-- The client's buffers: the bytes of each, `none` for one that was freed or never was. [C++ itself] -/
abbrev Heap := Nat → Option Bytes

/-- Give buffer `k` other contents, or free it. [C++ itself] -/
def Heap.put (H : Heap) (k : Nat) (x : Option Bytes) : Heap := fun j => if j = k then x else H j

/-- blob.h 33-35: `data` (which buffer, and how far into it), `begin`, `end`. -/
structure View where
  buf : Nat
  off : Nat
  beg : Nat
  fin : Nat
deriving DecidableEq, Repr

/-- blob.cpp 27-32: the constructor, for the whole of buffer `k`. -/
def View.make (k n : Nat) : View := ⟨k, 0, 0, toSz ((n : Int) - 1)⟩

/-- The blob as it is with the memory as it is now (blob.cpp 45, 57, 79, 95, 101, 109). Simplification: any use of a blob whose buffer
was freed is undefined, also by a client's stamp that does not look at it. -/
def View.look (v : View) (H : Heap) : Option Blob := (H v.buf).map fun bs => ⟨.at bs v.off, v.beg, v.fin⟩

/-- The address of a blob over the same buffer (blob.cpp 57-58). -/
def View.back (v : View) (b : Blob) : View :=
  match b.data with
  | .null => v
  | .at _ o => ⟨v.buf, o, b.beg, b.fin⟩

/-- Memory, the blobs kept by the stamps (stamp.h 34), the client's blob, and the members of the stamps (stamp.h 35-36). -/
structure World where
  mem : Heap
  kept : Bitten View
  blob : View
  flags : Flags

/-- stamp.cpp 29-49: `Load`, from the client's blob. -/
def World.load (G : Graph) (n : Nat) (i : Id) : M World Unit := fun w =>
  match w.blob.look w.mem with
  | none => (.ub .nullDeref, w)
  | some b =>
    let r := loadPiece G n i (w.flags, b)
    (r.1.map fun _ => (),
      { w with
        kept := match r.1 with | .ok c => w.kept.set i (w.blob.back c) | _ => w.kept
        blob := w.blob.back r.2.2
        flags := r.2.1 })

/-- stamp.h 63: `UnloadStr()`. -/
def World.unload (G : Graph) (n : Nat) (i : Id) : M World Bytes := fun w =>
  match w.kept i with
  | none => (.ub .nullDeref, w)
  | some v =>
    match v.look w.mem with
    | none => (.ub .nullDeref, w)
    | some b =>
      let r := extract G n i (w.flags, b)
      (r.1, { w with kept := w.kept.set i (v.back r.2.2), flags := r.2.1 })

/-- stamp.h 98: `UnloadValue()` of an arithmetic stamp. -/
def World.unloadValue (t : ArithTy) (i : Id) : M World AVal := fun w =>
  match w.kept i with
  | none => (.ub .nullDeref, w)
  | some v =>
    match v.look w.mem with
    | none => (.ub .nullDeref, w)
    | some b =>
      let r := extractValue t b
      (r.1, { w with kept := w.kept.set i (v.back r.2) })

/-- stamp.h 71: `UnloadBin()` of an arithmetic stamp (stamp.h 114-120). -/
def World.unloadBin (t : ArithTy) (i : Id) : M World Bytes := fun w =>
  match w.kept i with
  | none => (.ub .nullDeref, w)
  | some v =>
    match v.look w.mem with
    | none => (.ub .nullDeref, w)
    | some b =>
      let r := extractArithBin t b
      (r.1, { w with kept := w.kept.set i (v.back r.2) })

/-- stamp.h 62: `ExtractStr` of the client's blob. -/
def World.extract (G : Graph) (n : Nat) (i : Id) : M World Bytes := fun w =>
  match w.blob.look w.mem with
  | none => (.ub .nullDeref, w)
  | some b =>
    let r := BS.extract G n i (w.flags, b)
    (r.1, { w with blob := w.blob.back r.2.2, flags := r.2.1 })

/-- galley.cpp 353-363: `LoadAll` of a set over these stamps, from the client's blob. The stamps that were not reached keep what they
kept. -/
def World.loadAll (G : Graph) (n : Nat) (cs : List Id) : M World Unit := fun w =>
  match w.blob.look w.mem with
  | none => (.ub .nullDeref, w)
  | some b =>
    let r := BS.loadAll G n cs (fun _ => none, (w.flags, b))
    (r.1,
      { w with
        kept := fun j => match r.2.1 j with | some c => some (w.blob.back c) | none => w.kept j
        blob := w.blob.back r.2.2.2
        flags := r.2.2.1 })

/-- What a client does: it calls the library (stamp.h 61-63, galley.cpp 353-363), makes its blob anew over the first bytes of a buffer
(blob.cpp 27-32), writes to a buffer, frees it. -/
inductive ClientCall where
  | load (i : Id)
  | loadAll (cs : List Id)
  | unload (i : Id)
  | extract (i : Id)
  | blob (k n : Nat)
  | write (k : Nat) (bs : Bytes)
  | free (k : Nat)

/-- The world after one thing the client does; exceptions are caught and the client goes on. -/
def ClientCall.run (G : Graph) (n : Nat) (w : World) : ClientCall → World
  | .load i => (w.load G n i).2
  | .loadAll cs => (w.loadAll G n cs).2
  | .unload i => (w.unload G n i).2
  | .extract i => (w.extract G n i).2
  | .blob k m => { w with blob := View.make k m }
  | .write k bs => { w with mem := w.mem.put k (some bs) }
  | .free k => { w with mem := w.mem.put k none }

end BS
