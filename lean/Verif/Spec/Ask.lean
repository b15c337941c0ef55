import Verif.Spec.Wiring

/-!
# Specification vocabulary for questions about recursion
-/

namespace BS

/-- A history of completed calls by client code (`minSize()`, `maxSize()`, `isRecursive()`, extractions that
returned or threw `OutOfData`) takes flags `fl` to `fl'`. -/
inductive Talk (G : Graph) : Flags → Flags → Prop
  | refl (fl) : Talk G fl fl
  | calls {fl fl1 fl2} : Talk G fl fl1 → Calls G fl1 fl2 → Talk G fl fl2
  | asks {fl fl1 fl2 i r} : Talk G fl fl1 → IsRecRuns G fl1 i r fl2 → Talk G fl fl2

/-- A stamp that calls itself recursive (stamp.h 52-55) says that it is unbounded. -/
def HonestUsers (G : Graph) : Prop :=
  ∀ i u, G i = some (.user u) → u.recursive = true → u.mx = -1

/-- Picking from the pool of `i`, from the pool of what was picked and so on may go on for ever, or lead to a stamp
that calls itself recursive. -/
def Endless (G : Graph) (i : Id) : Prop :=
  ∃ q, Relation.ReflTransGen (PickEdge G) i q ∧
    (Relation.TransGen (PickEdge G) q q ∨ ∃ u, G q = some (.user u) ∧ u.recursive = true)

end BS
