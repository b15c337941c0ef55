import Verif.Spec.Copy
import Verif.Props.Lottery

/-!
# Specification vocabulary: alternatives in another order
-/

namespace BS

/-- Two stamps of the same kind whose parts correspond; the alternatives of a picker or a lottery correspond as sets. A
picker has at most 256 alternatives; the oracle of a lottery is as wide as the constructors make it for its number of
alternatives (`lotWidth`), which is below 2^30. -/
inductive NodeShuffle (R : Id → Id → Prop) : Node → Node → Prop where
  | single {nd : Node} (h : nd.single = true) : NodeShuffle R nd nd
  | vec {c d : Id} (join) (h : R c d) : NodeShuffle R (.vec c join) (.vec d join)
  | set {cs ds : List Id} (join unb) (h : List.Forall₂ R cs ds) : NodeShuffle R (.set cs join unb) (.set ds join unb)
  | seq {cs ds : List Id} (join unb) (h : List.Forall₂ R cs ds) : NodeShuffle R (.seq cs join unb) (.seq ds join unb)
  | unary {c d : Id} (op) (h : R c d) : NodeShuffle R (.unary op c) (.unary op d)
  | lottery {cs ds : List Id} {w : Nat} (rec4 smin smax) (h : SameMembers R cs ds)
      (hc : w = lotWidth cs.length) (hd : w = lotWidth ds.length) (hcl : cs.length < 2 ^ 30) (hdl : ds.length < 2 ^ 30) :
      NodeShuffle R (.lottery rec4 cs w smin smax) (.lottery rec4 ds w smin smax)
  | picker {cs ds : List Id} (h : SameMembers R cs ds) (hcl : cs.length ≤ 256) (hdl : ds.length ≤ 256) :
      NodeShuffle R (.picker cs) (.picker ds)

/-- Corresponding objects are stamps of the same kind with corresponding parts, alternatives in any order. -/
def Shuffled (G H : Graph) (R : Id → Id → Prop) : Prop :=
  ∀ i j, R i j → ∃ nd nd', G i = some nd ∧ H j = some nd' ∧ NodeShuffle R nd nd'

/-- The same stamps, with the alternatives of pickers and lotteries in any order. -/
def Reordered (G H : Graph) : Prop :=
  ∀ i, (G i = none ∧ H i = none) ∨ ∃ nd nd', G i = some nd ∧ H i = some nd' ∧ NodeShuffle Eq nd nd'

/-- Corresponding stamps report the same sizes, which are plain `int`s. -/
def SizesAgree (G : Graph) (fl : Flags) (H : Graph) (fl' : Flags) (R : Id → Id → Prop) : Prop :=
  ∀ i j, R i j → ∃ mn mx, HasMin G fl i mn ∧ HasMin H fl' j mn ∧ HasMax G fl i mx ∧ HasMax H fl' j mx ∧ 0 ≤ mn ∧
    mn ≤ INT_MAX ∧ (mx = -1 ∨ 0 ≤ mx ∧ mn + mx ≤ INT_MAX)

/-- `s` can be made by stamp `i` of some `n` bytes of data, of which `left` remain. -/
def Makes (G : Graph) (fl : Flags) (i : Id) (n : Nat) (s left : Bytes) : Prop :=
  ∃ b bs, Reachable b ∧ Holds b bs ∧ bs.length = n ∧ Returns G fl i b s left

end BS
