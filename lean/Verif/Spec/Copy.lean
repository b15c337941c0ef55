import Verif.Spec.Stamp
import Verif.Spec.Derive
import Verif.Spec.Wiring

/-!
# Specification vocabulary: stamps that are copies of others
-/

namespace BS

/-- Two stamps of the same kind, whose parts correspond. A part that one of them uses twice may correspond to two parts of
the other. -/
inductive NodeMatch (R : Id → Id → Prop) : Node → Node → Prop where
  | single {nd : Node} (h : nd.single = true) : NodeMatch R nd nd
  | vec {c d : Id} (join) (h : R c d) : NodeMatch R (.vec c join) (.vec d join)
  | set {cs ds : List Id} (join unb) (h : List.Forall₂ R cs ds) : NodeMatch R (.set cs join unb) (.set ds join unb)
  | seq {cs ds : List Id} (join unb) (h : List.Forall₂ R cs ds) : NodeMatch R (.seq cs join unb) (.seq ds join unb)
  | unary {c d : Id} (op) (h : R c d) : NodeMatch R (.unary op c) (.unary op d)
  | lottery {cs ds : List Id} (rec4 osz smin smax) (h : List.Forall₂ R cs ds) :
      NodeMatch R (.lottery rec4 cs osz smin smax) (.lottery rec4 ds osz smin smax)
  | picker {cs ds : List Id} (h : List.Forall₂ R cs ds) : NodeMatch R (.picker cs) (.picker ds)

/-- Corresponding objects are stamps of the same kind with corresponding parts. -/
def Matched (G H : Graph) (R : Id → Id → Prop) : Prop :=
  ∀ i j, R i j → (G i = none ∧ H j = none) ∨ ∃ nd nd', G i = some nd ∧ H j = some nd' ∧ NodeMatch R nd nd'

/-- Every member of one list has a counterpart in the other. Order and repetitions do not matter. -/
def SameMembers (R : Id → Id → Prop) (cs ds : List Id) : Prop :=
  (∀ c ∈ cs, ∃ d ∈ ds, R c d) ∧ ∀ d ∈ ds, ∃ c ∈ cs, R c d

/-- `minSize()` or `maxSize()` ends with this outcome. -/
def SizeEnds (G : Graph) (fl : Flags) (sel : Sel) (i : Id) (o : Out Int) : Prop := ∃ n, (sizeQ G n sel i fl).1 = o

/-- Corresponding objects have the same sizes. -/
def SameSizes (G : Graph) (fl : Flags) (H : Graph) (fl' : Flags) (R : Id → Id → Prop) : Prop :=
  ∀ i j, R i j → ∀ sel o, o ≠ .fuel → (SizeEnds G fl sel i o ↔ SizeEnds H fl' sel j o)

/-- `ExtractStr` ends with this outcome. -/
def ExtractEnds (G : Graph) (fl : Flags) (i : Id) (b : Blob) (o : Out Bytes) : Prop := ∃ n, (extract G n i (fl, b)).1 = o

/-- Stamp `i` of `G` and stamp `j` of `H` make the same of every blob: the same text with the same bytes left, the same
exception, and the same outcome of any other kind. -/
def SameExtraction (G : Graph) (fl : Flags) (i : Id) (H : Graph) (fl' : Flags) (j : Id) : Prop :=
  ∀ b, Reachable b → (∀ s left, Returns G fl i b s left ↔ Returns H fl' j b s left) ∧
    (∀ left, Throws G fl i b left ↔ Throws H fl' j b left) ∧
    ∀ o, o ≠ .fuel → (ExtractEnds G fl i b o ↔ ExtractEnds H fl' j b o)

/-- Every cycle passes through a lottery: all other stamps have a greater rank than their parts. -/
def Grounded (G : Graph) (rank : Id → Nat) : Prop :=
  ∀ i nd, G i = some nd → (∀ c ∈ nd.plainKids, rank c < rank i) ∧ ∀ pool, nd = .picker pool → ∀ c ∈ pool, rank c < rank i

/-- The same stamp with its parts replaced. -/
def Node.onParts (f : Id → Id) : Node → Node
  | .vec c join => .vec (f c) join
  | .set cs join unb => .set (cs.map f) join unb
  | .seq cs join unb => .seq (cs.map f) join unb
  | .unary op c => .unary op (f c)
  | .lottery rec4 cs osz smin smax => .lottery rec4 (cs.map f) osz smin smax
  | .picker cs => .picker (cs.map f)
  | nd => nd

/-- Every object of `H` is a copy of the object of `G` that `f` names, made of copies of its parts. -/
def CopyOf (H G : Graph) (f : Id → Id) : Prop := ∀ i, G (f i) = (H i).map (Node.onParts f)

end BS
