import Verif.Spec.Shuffle

/-!
# Specification vocabulary: more alternatives
-/

namespace BS

/-- Stamp `d` fits no size that `c` does not fit: its minimum is not below that of `c`, and neither its maximum nor the sum of
its minimum and maximum is above that of `c`. All of these are plain `int`s. -/
def Covers (G : Graph) (fl : Flags) (H : Graph) (fl' : Flags) (c d : Id) : Prop :=
  ∃ mn mx mn' mx', HasMin G fl c mn ∧ HasMax G fl c mx ∧ HasMin H fl' d mn' ∧ HasMax H fl' d mx' ∧ 0 ≤ mn' ∧ mn' ≤ INT_MAX ∧
    (mx' = -1 ∨ 0 ≤ mx' ∧ mn' + mx' ≤ INT_MAX) ∧ mn ≤ mn' ∧ (mx = -1 ∨ mx' ≠ -1 ∧ mx' ≤ mx ∧ mn' + mx' ≤ mn + mx)

/-- The alternatives `ds` are those of `cs` and others, each of which is covered by one of `cs`. -/
def GrownTo (R P : Id → Id → Prop) (cs ds : List Id) : Prop :=
  (∀ c ∈ cs, ∃ d ∈ ds, R c d) ∧ ∀ d ∈ ds, ∃ c ∈ cs, P c d

/-- Two stamps of the same kind whose parts correspond; a picker or a lottery may have further alternatives. -/
inductive NodeGrow (R P : Id → Id → Prop) : Node → Node → Prop where
  | single {nd : Node} (h : nd.single = true) : NodeGrow R P nd nd
  | vec {c d : Id} (join) (h : R c d) : NodeGrow R P (.vec c join) (.vec d join)
  | set {cs ds : List Id} (join unb) (h : List.Forall₂ R cs ds) : NodeGrow R P (.set cs join unb) (.set ds join unb)
  | seq {cs ds : List Id} (join unb) (h : List.Forall₂ R cs ds) : NodeGrow R P (.seq cs join unb) (.seq ds join unb)
  | unary {c d : Id} (op) (h : R c d) : NodeGrow R P (.unary op c) (.unary op d)
  | lottery {cs ds : List Id} {w : Nat} (rec4 smin smax) (h : GrownTo R P cs ds)
      (hc : w = lotWidth cs.length) (hd : w = lotWidth ds.length) (hdl : ds.length < 2 ^ 30) :
      NodeGrow R P (.lottery rec4 cs w smin smax) (.lottery rec4 ds w smin smax)
  | picker {cs ds : List Id} (h : GrownTo R P cs ds) (hdl : ds.length ≤ 256) : NodeGrow R P (.picker cs) (.picker ds)

/-- Corresponding objects are stamps of the same kind with corresponding parts; alternatives may be added. -/
def Grows (G : Graph) (fl : Flags) (H : Graph) (fl' : Flags) (R : Id → Id → Prop) : Prop :=
  ∀ i j, R i j → ∃ nd nd', G i = some nd ∧ H j = some nd' ∧ NodeGrow R (Covers G fl H fl') nd nd'

end BS
