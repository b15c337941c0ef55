import Verif.Spec.Lifetime
import Verif.Spec.Copy

/-!
# Specification: stamps that are built alike
-/

namespace BS

/-- `f i` in `H` is built like `i` in `G`: for every object below `i` there is one of the same make below `f i`, and
different pool pickers stay different. Other objects may be one where there were several. -/
structure BuiltAlike (G H : Graph) (f : Id → Id) (i : Id) : Prop where
  objects : ∀ j, Relation.ReflTransGen (Edge G) i j → H (f j) = (G j).map (Node.onParts f)
  pickers : ∀ j k pool pool', Relation.ReflTransGen (Edge G) i j → Relation.ReflTransGen (Edge G) i k →
    G j = some (.picker pool) → G k = some (.picker pool') → f j = f k → j = k

/-- The members of the pool pickers of the two have the same values. -/
def SameFlags (G : Graph) (f : Id → Id) (i : Id) (fl fl' : Flags) : Prop :=
  ∀ j pool, Relation.ReflTransGen (Edge G) i j → G j = some (.picker pool) → fl' (f j) = fl j

/-- `isRecursive()` ends with this outcome. -/
def IsRecEnds (G : Graph) (fl : Flags) (i : Id) (o : Out Bool) : Prop := ∃ n, (isRecQ G n i fl).1 = o

end BS
