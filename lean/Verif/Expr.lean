import Verif.Graph
import Verif.DictData

/-!
# The stamp for expressions of examples/exampleZZ.cpp
-/

namespace BS

/-- examples/exampleZZ.cpp 60-66: the lottery, built from a stamp for an `unsigned char` (object 1) and a stamp for
words (object 2), after the first `k` operators have been appended (object `j + 3` is operator `j`). `Append` asks
each operator for its sizes. While the lottery has only the first two stamps it is of fixed size, and the first
operator asks for two bytes per operand; the later ones ask for two oracle bytes more per operand
(galley.cpp 396-431). Here these sizes are written down; that they are what the operators report is proved in
Props/Expr.lean (`C70_sizes`). -/
def exprLot : Nat → LotState
  | 0 => LotState.ofList [(1, (1, 1)), (2, (1, 1))]
  | k + 1 => (exprLot k).append (k + 3) (if k = 0 then 4 else 8, -1)

/-- The objects of examples/exampleZZ.cpp when `k` of the operators `ops` have been appended to the lottery
(object 0). Operator `j` is object `j + 3`. The example declares a class for it (lines 11-34) with the code of
`StampMathBinaryOp` (stamp_math_op.h 41-58, stamp_math_op.cpp 29-34). Both operands are the lottery.
Simplification: the example hands over references where the library now has shared pointers. -/
def exprGraph (ops : List Bytes) (k : Nat) : Graph
  | 0 => some ((exprLot k).node true)
  | 1 => some (.arith .u8)
  | 2 => some (.dict lcAlphaSmall)
  | j + 3 => (ops[j]?).map fun op => Node.binary op 0 0

/-- examples/exampleZZ.cpp 36. -/
def exampleOps : List Bytes := [str "+", str "-", str "*", str "/", str "^"]

end BS
