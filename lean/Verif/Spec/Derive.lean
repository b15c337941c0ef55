import Verif.Spec.Stamp

/-!
# Specification vocabulary: how a text is put together from the texts of single stamps
-/

namespace BS

/-- Stamps that are not made of other stamps. -/
def Node.single : Node → Bool
  | .arith _ | .dict _ | .jsonStr | .latin1 | .ascii | .user _ => true
  | _ => false

/-- One use of such a stamp: which one, the bytes it took, and its text. -/
structure Use where
  stamp : Id
  took : Bytes
  text : Bytes

mutual

/-- The text of object `i` put together from the given uses of single stamps, in order, in the way the stamps are
made of each other. Nothing is said here about sizes or about which stamp is chosen. -/
inductive Composed (G : Graph) : Id → List Use → Bytes → Prop where
  | single {nd : Node} (u : Use) (hG : G u.stamp = some nd) (hn : nd.single = true) : Composed G u.stamp [u] u.text
  | list {i c : Id} {join : List Bytes → Bytes} {n : Nat} {us : List Use} {xs : List Bytes}
      (hG : G i = some (.vec c join)) (h : ComposedAll G (List.replicate n c) us xs) : Composed G i us (join xs)
  | set {i : Id} {cs : List Id} {join : List Bytes → Bytes} {unb : Bool} {us : List Use} {xs : List Bytes}
      (hG : G i = some (.set cs join unb)) (h : ComposedAll G cs us xs) : Composed G i us (join xs)
  | seq {i : Id} {cs : List Id} {join : List Bytes → Bytes} {unb : Bool} {us : List Use} {xs : List Bytes}
      (hG : G i = some (.seq cs join unb)) (h : ComposedAll G cs us xs) : Composed G i us (join xs)
  | unary {i c : Id} {op : Bytes} {us : List Use} {x : Bytes}
      (hG : G i = some (.unary op c)) (h : Composed G c us x) : Composed G i us (op ++ [40] ++ x ++ [41])
  | lottery {i j : Id} {rec4 : Bool} {stamps : List Id} {osz : Nat} {smin smax : Int} {us : List Use} {x : Bytes}
      (hG : G i = some (.lottery rec4 stamps osz smin smax)) (hj : j ∈ stamps) (h : Composed G j us x) :
      Composed G i us x
  | picker {i j : Id} {pool : List Id} {us : List Use} {x : Bytes}
      (hG : G i = some (.picker pool)) (hj : j ∈ pool) (h : Composed G j us x) : Composed G i us x

/-- The texts of several objects, one after the other. -/
inductive ComposedAll (G : Graph) : List Id → List Use → List Bytes → Prop where
  | nil : ComposedAll G [] [] []
  | cons {i : Id} {is : List Id} {us vs : List Use} {x : Bytes} {xs : List Bytes}
      (h : Composed G i us x) (hs : ComposedAll G is vs xs) : ComposedAll G (i :: is) (us ++ vs) (x :: xs)

end

/-- The pieces lie in `data` one after the other without overlapping; there may be other bytes in between. -/
inductive Apart : List Bytes → Bytes → Prop where
  | nil (data : Bytes) : Apart [] data
  | cons (skip p : Bytes) {ps : List Bytes} {rest : Bytes} (h : Apart ps rest) : Apart (p :: ps) (skip ++ p ++ rest)

/-- A property of texts, one for each object, that the texts of single stamps have and that every way of putting
texts together preserves. -/
structure Inherited (G : Graph) (fl : Flags) (P : Id → Bytes → Prop) : Prop where
  single : ∀ {i nd b s left}, G i = some nd → nd.single = true → Reachable b → Returns G fl i b s left → P i s
  list : ∀ {i c join xs}, G i = some (.vec c join) → (∀ x ∈ xs, P c x) → P i (join xs)
  set : ∀ {i cs join unb xs}, G i = some (.set cs join unb) → List.Forall₂ P cs xs → P i (join xs)
  seq : ∀ {i cs join unb xs}, G i = some (.seq cs join unb) → List.Forall₂ P cs xs → P i (join xs)
  unary : ∀ {i op c x}, G i = some (.unary op c) → P c x → P i (op ++ [40] ++ x ++ [41])
  lottery : ∀ {i rec4 stamps osz smin smax j x}, G i = some (.lottery rec4 stamps osz smin smax) → j ∈ stamps →
    P j x → P i x
  picker : ∀ {i pool j x}, G i = some (.picker pool) → j ∈ pool → P j x → P i x

end BS
