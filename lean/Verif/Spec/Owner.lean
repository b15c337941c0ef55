import Verif.Owner
import Verif.Spec.Blob

/-!
# Specification vocabulary for owned buffers

A program may only do what the language lets it do with named objects: construct a name that is not in
use, use and destroy living ones.
-/

namespace BS

/-- The living names; `true` for a `VLATO_ptr`. -/
abbrev Living := Nat → Option Bool

def Living.set (l : Living) (x : Nat) (v : Option Bool) : Living := fun y => if y = x then v else l y

def OwnOp.Legal (l : Living) : OwnOp → Prop
  | .newSized x _ | .newVlato x _ _ _ | .newVlatoPtr x _ _ _ => l x = none
  | .convert y x => l x = some true ∧ l y = none
  | .destroy x => l x ≠ none
  | .copy y x => l x ≠ none ∧ l y = none

def OwnOp.living (l : Living) : OwnOp → Living
  | .newSized x _ => l.set x (some false)
  | .newVlato x _ _ _ | .newVlatoPtr x _ _ _ => l.set x (some true)
  | .convert y _ => l.set y (some false)
  | .destroy x => l.set x none
  | .copy y x => l.set y (l x)

/-- A legal history starting with the names `l` alive, ending with the names `l'` alive. -/
inductive History : Living → List OwnOp → Living → Prop where
  | nil (l : Living) : History l [] l
  | cons {l l' : Living} {o : OwnOp} {os : List OwnOp} (h : o.Legal l) (hs : History (o.living l) os l') :
      History l (o :: os) l'

/-- Nobody. -/
def nobody : Living := fun _ => none

/-- No copies are made. -/
def NoCopies (ops : List OwnOp) : Prop := ∀ y x, OwnOp.copy y x ∉ ops

/-- What the object says about the size of its buffer. -/
def Owner.claims : Owner → Nat
  | .sized _ n => n
  | .vlato _ off len elt => (off + len * elt) % 18446744073709551616

end BS
