import Verif.Bin

/-!
# Stamps for structures, as in examples/example03.cpp to example08.cpp and README.md 157-343
-/

namespace BS
open BlobLike

section
variable {β : Type} [BlobLike β]

/-- examples/example04.cpp 46-53, README.md 279-285: `ExtractValue` of a stamp for a structure; the members are
filled one after the other from the same blob. Simplification: the members are arithmetic. -/
def recordV : List ArithTy → M β (List AVal)
  | [] => pure []
  | t :: ts => do
    let v ← extractValue t
    let vs ← recordV ts
    pure (v :: vs)

/-- examples/example04.cpp 27-35, README.md 264-272: `minSize()` and `maxSize()`. -/
def recordSize (ts : List ArithTy) : Nat := (ts.map ArithTy.size).sum

/-- galley.h 78-89: `ExtractValuesVector` of a `GalleyVectorV` over such a stamp (example06.cpp 61-62).
Simplification: the sizes of the members add up to an `int`. -/
def vectorRecord (fuel : Nat) (ts : List ArithTy) : M β (List (List AVal)) := do
  let ps ← vecSplit fuel (recordSize ts) (recordSize ts)
  M.lift (eachPiece 0 (ps.map fun c => (recordV ts, c)))

end

/-- example03.cpp 35: `"(" + X + ", " + Y + ", " + Z + ")"`; README.md 212: `A + " + " + B + "i"`. -/
def recordText (l sep r : Bytes) (xs : List Bytes) : Bytes := l ++ sep.intercalate xs ++ r

/-- Object 1: the stamp for a structure with members `ts`, as a string stamp (example03.cpp, example04.cpp 37-44).
Object 0: a list of them (example07.cpp 56-79 and example08.cpp 56-60, README.md 308-343).
Objects from 2 on: the members' stamps. -/
def recordGraph (ts : List ArithTy) (l sep r : Bytes) (l' sep' r' : Bytes) : Graph
  | 0 => some (.enumerator 1 sep' l' r')
  | 1 => some (.seq (List.range' 2 ts.length) (recordText l sep r) false)
  | k + 2 => (ts[k]?).map Node.arith

/-- examples/example08.cpp: `StampPolyLine3D`, a list of points of three shorts. -/
def polyLine3D : Graph :=
  recordGraph [.i16, .i16, .i16] (str "(") (str ", ") (str ")") (str "(") (str ",") (str ")")

/-- What the program in examples/example08.cpp prints (the text of README.md and of the example). -/
example : (extract polyLine3D 9 0 (Flags.init, (str "abcdefabcdefABCDEF012345" : ABlob))).1 =
    .ok (str "((25185, 25699, 26213),(25185, 25699, 26213),(16961, 17475, 17989),(12592, 13106, 13620))") := by
  decide +kernel

end BS
