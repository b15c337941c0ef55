import Verif.Print

/-!
# Specification: fully bracketed expressions
-/

namespace BS

/-- An expression: a number below 256, a word, or an operator between two expressions. -/
inductive Expr
  | num (v : UInt8)
  | word (w : Bytes)
  | bin (op : Bytes) (l r : Expr)

/-- The text of an expression. -/
def Expr.text : Expr → Bytes
  | num v => str (toString v.toNat)
  | word w => w
  | bin op l r => str "(" ++ l.text ++ str " " ++ op ++ str " " ++ r.text ++ str ")"

/-- Number of numbers and words. -/
def Expr.leaves : Expr → Nat
  | num _ => 1
  | word _ => 1
  | bin _ l r => l.leaves + r.leaves

/-- All operators are from `ops` and all words from `ws`. -/
def Expr.Over (ops ws : List Bytes) : Expr → Prop
  | num _ => True
  | word w => w ∈ ws
  | bin op l r => op ∈ ops ∧ l.Over ops ws ∧ r.Over ops ws

end BS
