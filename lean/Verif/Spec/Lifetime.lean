import Verif.Spec.Wiring

/-!
# Specification: what a stamp depends on
-/

namespace BS

/-- All objects that can be reached from `i` in `G` are the same in `G'`. -/
def SameBelow (G G' : Graph) (i : Id) : Prop := ∀ j, Relation.ReflTransGen (Edge G) i j → G' j = G j

/-- `ExtractStr` of object `i` on blob `b` is undefined behaviour. -/
def ExtractUndefined (G : Graph) (fl : Flags) (i : Id) (b : Blob) : Prop :=
  ∃ r fl' b', Extracts G fl i b (.ub r) fl' b'

/-- Object `j` is kept alive: by a variable of the program (`roots`), or by a shared pointer held by an
object that is kept alive. -/
def KeptAlive (roots : List Id) (holds : Id → List Id) (j : Id) : Prop :=
  ∃ r ∈ roots, Relation.ReflTransGen (fun i k => k ∈ holds i) r j

/-- The objects that are kept alive, and nothing else. -/
def Survivors (G : Graph) (roots : List Id) (holds : Id → List Id) (G' : Graph) : Prop :=
  ∀ j, (KeptAlive roots holds j → G' j = G j) ∧ (¬ KeptAlive roots holds j → G' j = none)

end BS
