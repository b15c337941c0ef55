import Verif.Graph

/-!
# Specification: the characters a stamp can put into its text
-/

namespace BS

/-- Every character of the text is in the class. -/
def AllIn (P : UInt8 → Prop) (s : Bytes) : Prop := ∀ c ∈ s, P c

/-- The characters numbers are made of: digits, signs, the point, `e`, and the letters of `inf` and
`nan`. -/
def numberChars : Bytes := str "0123456789+-.einfa"

/-- The stamp adds only characters of the class to those of its parts. -/
def NodeIn (P : UInt8 → Prop) : Node → Prop
  | .arith t => (∀ c ∈ numberChars, P c) ∧ (t = .i8 → P 0)
  | .dict ws => ∀ w ∈ ws, AllIn P w
  | .jsonStr => P 34 ∧ ∀ c : UInt8, 97 ≤ c.toNat → c.toNat ≤ 122 → P c
  | .latin1 => ∀ c : UInt8, c ≠ 0 → P c
  | .ascii => ∀ c : UInt8, 0 < c.toNat → c.toNat < 128 → P c
  | .user u => ∀ v s, (u.behave v).1 = .ok s → AllIn P s
  | .vec _ join => ∀ xs, (∀ x ∈ xs, AllIn P x) → AllIn P (join xs)
  | .set _ join _ => ∀ xs, (∀ x ∈ xs, AllIn P x) → AllIn P (join xs)
  | .seq _ join _ => ∀ xs, (∀ x ∈ xs, AllIn P x) → AllIn P (join xs)
  | .unary op _ => AllIn P op ∧ P 40 ∧ P 41
  | .lottery .. => True
  | .picker _ => True

/-- All stamps of the graph do. -/
def GraphIn (P : UInt8 → Prop) (G : Graph) : Prop := ∀ i nd, G i = some nd → NodeIn P nd

end BS
