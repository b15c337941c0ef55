import Verif.Graph

/-!
# Copying and destroying stamp objects

`StampJSON` has no copy constructor of its own, so the implicit one copies the members: the pool of
weak pointers and the shared pointers to its parts. The parts themselves are not copied.
-/

namespace BS

/-- `StampJSON b(a);` (include/blobstamper/stamp_json.h 30-34, 93-104: implicit copy constructor):
a new object `new` with the members of object `i`, that is, with a pool of pointers to the same
objects. Its recursion flags are copied as well; they are in `Flags`. -/
def Graph.copyObject (G : Graph) (i new : Id) : Graph := fun j => if j = new then G i else G j

/-- The flags of a copied object (stamp.h 35-36). -/
def Flags.copyObject (fl : Flags) (i new : Id) : Flags := fun j => if j = new then fl i else fl j

/-- End of the lifetime of object `i`. Objects that are shared with others stay. The array and hash
stamps of a `StampJSON` hold a pointer to it without owning it (`null_deleter`,
src/stamp_json.cpp 171, 181-182), so this does not keep it alive. Using the object afterwards is
undefined; simplification: the model calls it `nullDeref`. -/
def Graph.destroy (G : Graph) (i : Id) : Graph := fun j => if j = i then none else G j

/-- What a `PoolPickerStamp` is made of: the stamps given to its constructor, which it keeps
(`pool`, shared pointers), and those given to `add_weak`, which it does not keep
(include/blobstamper/stamp_json.h 33-34). -/
structure PickerParts where
  given : List Id
  added : List Id

/-- src/stamp_json.cpp 27-35 and 149-153: the weak pointers, in the order of the calls. -/
def PickerParts.node (p : PickerParts) : Node := .picker (p.given ++ p.added)

/-- The shared pointers a picker holds (stamp_json.h 33). -/
def PickerParts.holds (p : PickerParts) : List Id := p.given

end BS
