import Verif.Spec.Wiring

/-!
# Specification vocabulary: stamps that add only so much text
-/

namespace BS

/-- Total length of texts, `c` more for each. -/
def lengths (c : Nat) (xs : List Bytes) : Nat := (xs.map fun x => x.length + c).sum

/-- No stamp writes more than `c` characters of its own for each part it holds or each byte it takes: dictionaries have
words of at most `c` bytes, separators and operators are no longer, and user stamps write at most `c` characters for
each byte they take, and `c`. -/
structure Terse (G : Graph) (c : Nat) : Prop where
  dict : ∀ i ws, G i = some (.dict ws) → ∀ w ∈ ws, w.length ≤ c
  user : ∀ i u, G i = some (.user u) → ∀ bs s k, u.behave bs = (.ok s, k) → s.length ≤ c * (min k bs.length + 1)
  vec : ∀ i j join, G i = some (.vec j join) → ∀ xs, (join xs).length ≤ lengths c xs + c
  set : ∀ i js join unb, G i = some (.set js join unb) → ∀ xs, (join xs).length ≤ lengths c xs + c
  seq : ∀ i js join unb, G i = some (.seq js join unb) → ∀ xs, (join xs).length ≤ lengths c xs + c
  unary : ∀ i op j, G i = some (.unary op j) → op.length ≤ c

end BS
