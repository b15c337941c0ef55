import Verif.Blob

/-!
# Specification vocabulary for blobs

Histories of public calls on a `Blob` object. Nothing here depends on how `Chop` works.
-/

namespace BS

/-- A call a user can make on a blob. -/
inductive ChopCall where
  /-- `Chop(n)` -/
  | one (n : Nat)
  /-- `Chop(min, max)` -/
  | two (mn mx : Nat)
deriving DecidableEq

/-- Make the call. -/
def ChopCall.run : ChopCall → M Blob Blob
  | .one n => Blob.chop n
  | .two mn mx => Blob.chop2 mn mx

/-- Make the calls one after the other, catching `OutOfData` each time and collecting the returned
blobs; anything worse ends the history. -/
def runHistory : List ChopCall → Blob → Out (List Blob × Blob)
  | [], b => .ok ([], b)
  | c :: cs, b =>
    match c.run b with
    | (.ok p, b') => (runHistory cs b').map fun r => (p :: r.1, r.2)
    | (.outOfData, b') => runHistory cs b'
    | (.ub r, _) => .ub r
    | (.abort, _) => .abort
    | (.fuel, _) => .fuel

/-- Every blob object a program can get hold of: built on readable memory (no object exceeds
`PTRDIFF_MAX` bytes) or on nothing, left by a call, or returned by a call. -/
inductive Reachable : Blob → Prop where
  | new {buf : Bytes} {off n : Nat} (h : off + n ≤ buf.length)
      (hb : buf.length < 9223372036854775808) : Reachable (Blob.mk' (.at buf off) n)
  | null : Reachable (Blob.mk' .null 0)
  | rest {b b' : Blob} {c : ChopCall} {o : Out Blob} (h : Reachable b) (hr : c.run b = (o, b')) :
      Reachable b'
  | piece {b b' p : Blob} {c : ChopCall} (h : Reachable b) (hr : c.run b = (.ok p, b')) :
      Reachable p

/-- The blob holds exactly these bytes (what `asVector()` returns). -/
def Holds (b : Blob) (bs : Bytes) : Prop := b.asVector = .ok bs

end BS
