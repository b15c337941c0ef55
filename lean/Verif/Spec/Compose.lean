import Verif.Spec.Stamp
import Verif.Spec.Galley

/-!
# Specification vocabulary for stamps made of stamps
-/

namespace BS

/-- On every blob that holds `p`, `ExtractStr` of object `i` throws `OutOfData`. -/
def Refuses (G : Graph) (fl : Flags) (i : Id) (p : Bytes) : Prop :=
  ∃ left, ∀ b, Reachable b → Holds b p → Throws G fl i b left

/-- Stamps applied one after the other to the same blob: each goes on where the one before stopped. -/
inductive InTurn (G : Graph) (fl : Flags) : List Id → Bytes → List Bytes → Bytes → Prop where
  | nil (bs : Bytes) : InTurn G fl [] bs [] bs
  | cons {c : Id} {cs : List Id} {bs mid left x : Bytes} {xs : List Bytes}
      (h : ∀ b, Reachable b → Holds b bs → Returns G fl c b x mid) (hs : InTurn G fl cs mid xs left) :
      InTurn G fl (c :: cs) bs (x :: xs) left

end BS
