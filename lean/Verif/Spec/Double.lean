import Verif.Spec.Owner

/-!
# Specification: copies of objects that hold a buffer
-/

namespace BS

/-- The names of the objects that hold a buffer, after the operation. -/
def OwnOp.full (f : Nat → Prop) : OwnOp → Nat → Prop
  | .newSized x _ | .newVlato x _ _ _ | .newVlatoPtr x _ _ _ => fun z => z = x ∨ f z
  | .convert y x => fun z => z ≠ x ∧ (z = y ∧ f x ∨ z ≠ y ∧ f z)
  | .destroy x => fun z => z ≠ x ∧ f z
  | .copy y x => fun z => z = y ∧ f x ∨ z ≠ y ∧ f z

/-- Somewhere in the history a copy is made of an object that holds a buffer. -/
def FullCopy (f : Nat → Prop) : List OwnOp → Prop
  | [] => False
  | o :: os => (∃ y x, o = .copy y x ∧ f x) ∨ FullCopy (o.full f) os

/-- The operation uses object `x`. -/
def OwnOp.Uses (x : Nat) : OwnOp → Prop
  | .convert _ z | .destroy z | .copy _ z => z = x
  | _ => False

end BS
