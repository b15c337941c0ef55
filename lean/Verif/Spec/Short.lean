import Verif.Spec.Wiring
import Verif.Spec.Galley

/-!
# Specification vocabulary: stamps that refuse short data
-/

namespace BS

/-- A stamp made of nothing else that throws `OutOfData` on fewer bytes than its `minSize()`, otherwise returns
and takes at least that many. -/
def Node.Exacting : Node → Prop
  | .arith _ => True
  | .dict ws => ws ≠ [] ∧ ws.length ≤ 2 ^ 53
  | .latin1 => True
  | .ascii => True
  | .user u => 0 ≤ u.mn ∧ (∀ bs, (bs.length : Int) < u.mn → (u.behave bs).1 = .outOfData) ∧
      ∀ bs, u.mn ≤ (bs.length : Int) → (∃ s, (u.behave bs).1 = .ok s) ∧ u.mn ≤ ((u.behave bs).2 : Int)
  | _ => False

/-- The stamps for which `minSize()` is a promise not to work with less: exacting leaves, enumerators over stamps
of one size, unary operators over such stamps, stamps applied in turn of which the last is such a stamp and the
others are exacting leaves, set galleys, lotteries that know the least minimum of their stamps, pool pickers of
picker grammars. Left out are enumerators over stamps that vary in size and `StampJSONString`. -/
inductive Strict (G : Graph) (fl : Flags) : Id → Prop
  | leaf {i nd} : G i = some nd → nd.Exacting → Strict G fl i
  | fixedVec {i c join m} : G i = some (.vec c join) → HasMin G fl c m → HasMax G fl c m → 0 ≤ m → m ≤ INT_MAX →
      Strict G fl i
  | unary {i op c} : G i = some (.unary op c) → Strict G fl c → Strict G fl i
  | seq {i cs c join unb} : G i = some (.seq (cs ++ [c]) join unb) →
      (∀ j ∈ cs, ∃ nd, G j = some nd ∧ nd.Exacting) → Strict G fl c → Strict G fl i
  | set {i cs join unb ss} : G i = some (.set cs join unb) →
      List.Forall₂ (fun j s => HasMin G fl j s.1 ∧ HasMax G fl j s.2) cs ss → SetSizes ss → Strict G fl i
  | lottery {i r l w smin smax} : G i = some (.lottery r l w smin smax) → (w = 1 ∨ w = 2 ∨ w = 4 ∨ w = 8) →
      (∀ j ∈ l, ∃ m, HasMin G fl j m ∧ smin ≤ m ∧ m ≤ INT_MAX) → Strict G fl i
  | picker {i pool k} : PickerGrammar G → G i = some (.picker pool) → HasMin G fl i k → k ≤ INT_MAX / 2 →
      Strict G fl i

/-- A stamp made of nothing else that, when it throws, has taken nothing. -/
def Node.Harmless : Node → Prop
  | .arith _ => True
  | .dict _ => True
  | .jsonStr => True
  | .latin1 => True
  | .ascii => True
  | .user u => ∀ bs, (u.behave bs).1 = .outOfData → (u.behave bs).2 = 0
  | _ => False

/-- Stamps that give their bytes back when they throw: harmless leaves, unary operators over such stamps and
enumerators over exacting leaves of one size. -/
inductive Intact (G : Graph) (fl : Flags) : Id → Prop
  | leaf {i nd} : G i = some nd → nd.Harmless → Intact G fl i
  | unary {i op c} : G i = some (.unary op c) → Intact G fl c → Intact G fl i
  | fixedVec {i c join nd m} : G i = some (.vec c join) → G c = some nd → nd.Exacting → HasMin G fl c m →
      HasMax G fl c m → 0 < m → m ≤ INT_MAX → Intact G fl i

end BS
