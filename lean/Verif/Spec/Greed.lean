import Verif.Spec.Stamp
import Verif.Spec.Galley

/-!
# Stamps that use a blob up

README.md 85-86: "stamps are greedy, they will try to consume all data they can. E.g. Unbounded Size Stamp will
consume all data from the Blob."
-/

namespace BS

/-- Stamps whose make-up alone makes them use up every blob of at most `N` bytes: text stamps, what ends with one,
choices among such stamps, and sets with an unbounded member. `sizes` are what the members of a set report. -/
inductive Greedy (G : Graph) (fl : Flags) (N : Nat) : Id → Prop where
  | latin1 {i : Id} (h : G i = some .latin1) : Greedy G fl N i
  | ascii {i : Id} (h : G i = some .ascii) : Greedy G fl N i
  | unary {i c : Id} {op : Bytes} (h : G i = some (.unary op c)) (hc : Greedy G fl N c) : Greedy G fl N i
  | seq {i c : Id} {cs : List Id} {join : List Bytes → Bytes} {unb : Bool}
      (h : G i = some (.seq (cs ++ [c]) join unb)) (hc : Greedy G fl N c) : Greedy G fl N i
  | lottery {i : Id} {rec4 : Bool} {cs : List Id} {w : Nat} {smin smax : Int}
      (h : G i = some (.lottery rec4 cs w smin smax)) (hc : ∀ c ∈ cs, Greedy G fl N c) : Greedy G fl N i
  | picker {i : Id} {cs : List Id} (h : G i = some (.picker cs)) (hc : ∀ c ∈ cs, Greedy G fl N c) : Greedy G fl N i
  | set {i : Id} {cs : List Id} {join : List Bytes → Bytes} {unb : Bool} {sizes : List SizePair}
      (h : G i = some (.set cs join unb))
      (hs : List.Forall₂ (fun c s => HasMin G fl c s.1 ∧ HasMax G fl c s.2) cs sizes) (hz : SetSizes sizes)
      (hu : ∃ s ∈ sizes, s.2 = -1) (hl : sizes.length * (N + 1) ≤ 2 ^ 49) : Greedy G fl N i

end BS
