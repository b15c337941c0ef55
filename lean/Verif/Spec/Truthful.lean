import Verif.Spec.Galley
import Verif.Spec.Wiring

/-!
# Grammars whose sizes are what the stamps take
-/

namespace BS

/-- Grammars of all kinds of stamps, recursive or not, bounded or not, whose stamps report the sizes `mn` and `mx`,
and in which no size is wrong for a reason of its own, for blobs of up to `L` bytes: there is no `StampJSONString`
(it asks for 8 bytes and takes 1, `C40_violated`); a user's stamp takes what it says; in a list of unbounded stamps
the number of elements does not wrap (`C40_violated_list`); the members of a structure that are followed by others
are of fixed size; lotteries and pickers report sizes that cover those of their alternatives (`C40_violated_sum`). -/
structure TruthfulSizes (G : Graph) (fl : Flags) (L : Nat) (mn mx : Id → Int) : Prop where
  small : L ≤ 2147483646
  closed : ∀ i nd, G i = some nd → ∀ j, j ∈ nd.plainKids ∨ j ∈ nd.choices → G j ≠ none
  sizes : ∀ i, G i ≠ none → HasMin G fl i (mn i) ∧ HasMax G fl i (mx i) ∧ 0 ≤ mn i ∧ mn i ≤ INT_MAX ∧
    -1 ≤ mx i ∧ mx i ≤ INT_MAX
  noJsonStr : ∀ i, G i ≠ some .jsonStr
  dict : ∀ i ws, G i = some (.dict ws) → ws ≠ [] ∧ ws.length ≤ 2 ^ 53
  user : ∀ i u, G i = some (.user u) → ∀ bs, u.mn ≤ (bs.length : Int) →
    u.mn ≤ ((u.behave bs).2 : Int) ∧ (u.mx ≠ -1 → ((u.behave bs).2 : Int) ≤ u.mx)
  vec : ∀ i c join, G i = some (.vec c join) → mn c + 4 ≤ INT_MAX ∧
    ((mx c = -1 ∧ mn c ≤ 2 ^ 24 ∧ ((L : Int) - 2) / (mn c + 2) ≤ 65534) ∨ (mn c ≤ mx c ∧ 1 ≤ mx c))
  set : ∀ i cs join unb, G i = some (.set cs join unb) → SetSizes (cs.map fun c => (mn c, mx c)) ∧
    (cs.map fun c => if mx c = -1 then 0 else mx c).sum + 2 * cs.length ≤ INT_MAX ∧ cs.length * (L + 1) ≤ 2 ^ 49
  seq : ∀ i cs join unb, G i = some (.seq cs join unb) → (∀ j ∈ cs.dropLast, mx j = mn j) ∧
    (cs.map mn).sum ≤ INT_MAX ∧ (unb = true ∨ ((∀ j ∈ cs, mx j ≠ -1) ∧ (cs.map mx).sum ≤ INT_MAX))
  lottery : ∀ i r l w smin smax, G i = some (.lottery r l w smin smax) →
    (w = 1 ∨ w = 2 ∨ w = 4 ∨ w = 8) ∧ ∀ j ∈ l, mn j + mx j ≤ INT_MAX ∧ mn i ≤ mn j + w ∧
      (mx i ≠ -1 → mx j ≠ -1 ∧ mx j + w ≤ mx i)
  picker : ∀ i pool, G i = some (.picker pool) → ∀ j ∈ pool, mn i ≤ mn j + 2 ∧
    (mx i ≠ -1 → mx j ≠ -1 ∧ mx j + 2 ≤ mx i)

end BS
