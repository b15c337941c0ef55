import Verif.Spec.Derive

/-!
# Specification vocabulary: forms with places to fill in
-/

namespace BS

/-- Part of a form: fixed bytes, or a place to fill in. -/
inductive Cell where
  | fix (b : Bytes)
  | hole

/-- How many places a form has. -/
def holes : List Cell → Nat
  | [] => 0
  | .fix _ :: cs => holes cs
  | .hole :: cs => holes cs + 1

/-- The form with its places filled in, in order. -/
def fill : List Cell → List Bytes → Bytes
  | [], _ => []
  | .fix b :: cs, xs => b ++ fill cs xs
  | .hole :: cs, x :: xs => x ++ fill cs xs
  | .hole :: cs, [] => fill cs []

/-- One use of a single stamp: which one, how many bytes followed, the bytes it took, and its text. -/
structure Leaf where
  stamp : Id
  room : Nat
  took : Bytes
  text : Bytes

/-- The stamp makes the text from these bytes, whatever the bytes that follow, if there are as many as `room`. -/
def Leaf.Real (G : Graph) (fl : Flags) (l : Leaf) : Prop :=
  ∀ more : Bytes, more.length = l.room → ∀ b, Reachable b → Holds b (l.took ++ more) → Returns G fl l.stamp b l.text more

/-- The same stamp on as many bytes, with as many to follow; both texts are empty or none is. -/
structure Leaf.Alike (l l' : Leaf) : Prop where
  stamp : l'.stamp = l.stamp
  room : l'.room = l.room
  size : l'.took.length = l.took.length
  empty : l'.text = [] ↔ l.text = []

/-- What a stamp of a client does is determined by the number of bytes it is given and the bytes it takes. -/
def LocalUsers (G : Graph) : Prop :=
  ∀ i u, G i = some (.user u) → ∀ v w : Bytes, v.length = w.length → v.take (u.behave v).2 = w.take (u.behave v).2 →
    u.behave w = u.behave v

/-- With `n` texts, what a stamp writes is a form that depends only on which of them are empty. -/
def WritesForm (join : List Bytes → Bytes) (n : Nat) : Prop :=
  ∀ pat : List Bool, pat.length = n → ∃ c, holes c = n ∧ ∀ xs : List Bytes, xs.map List.isEmpty = pat → join xs = fill c xs

/-- All stamps that are made of other stamps write such forms. -/
def WriteForms (G : Graph) : Prop :=
  ∀ i nd, G i = some nd → match nd with
    | .vec _ join => ∀ n, WritesForm join n
    | .set cs join _ => WritesForm join cs.length
    | .seq cs join _ => WritesForm join cs.length
    | _ => True

/-- Single stamps that make a text from any bytes, if there are enough: numbers, texts, and dictionaries of words that are
not empty. -/
def Node.open : Node → Prop
  | .arith _ | .jsonStr | .latin1 | .ascii => True
  | .dict ws => 1 ≤ ws.length ∧ ws.length ≤ 2 ^ 53 ∧ ∀ w ∈ ws, w ≠ []
  | _ => False

/-- All single stamps are of this kind. -/
def OpenLeaves (G : Graph) : Prop := ∀ i nd, G i = some nd → nd.single = true → nd.open

end BS
