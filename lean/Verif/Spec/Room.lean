import Verif.Spec.Derive
import Verif.Spec.Fixed
import Verif.Spec.Shuffle
import Verif.Spec.Wiring

/-!
# Specification vocabulary: texts for which there is room
-/

namespace BS

/-- The stamps report the sizes `mn` and `mx`, which are plain `int`s, and what they are made of exists. -/
structure KnownSizes (G : Graph) (fl : Flags) (mn mx : Id → Int) : Prop where
  closed : ∀ i nd, G i = some nd → ∀ j, j ∈ nd.plainKids ∨ j ∈ nd.choices → G j ≠ none
  sizes : ∀ i, G i ≠ none → HasMin G fl i (mn i) ∧ HasMax G fl i (mx i) ∧ 0 ≤ mn i ∧ mn i ≤ INT_MAX ∧
    (mx i = -1 ∨ (0 ≤ mx i ∧ mn i + mx i ≤ INT_MAX))

/-- `Room G fl mn mx i n s`: the text `s` is put together by stamp `i` in the way the stamps are made of each other, and `n`
bytes give room for it. A stamp that is not made of others has room for what it makes of `n` bytes. A choice adds its
oracle; the alternative taken must be one that fits: its minimum is reached and, where the choice prefers those that use
up the data, its maximum is not exceeded unless there is no alternative of which this could be said. The members of a structure add up; all but the last are of fixed size. The
stamps of a set are of fixed size or unbounded and add two bytes each if several are unbounded, at most 65535 bytes above
the minimum. A list adds nothing for stamps of fixed size, two bytes for each element of variated size (of at most 256
different sizes), and two bytes for each element and two for their number if its stamp is unbounded; if there are several, each has
at most 32767 bytes above the minimum, and the last must have room in one byte more as well, which the galley may lose. -/
inductive Room (G : Graph) (fl : Flags) (mn mx : Id → Int) : Id → Nat → Bytes → Prop where
  | single {i : Id} {nd : Node} {n : Nat} {s left : Bytes} (hG : G i = some nd) (hn : nd.single = true)
      (h : Makes G fl i n s left) : Room G fl mn mx i n s
  | unary {i c : Id} {op : Bytes} {n : Nat} {s : Bytes} (hG : G i = some (.unary op c)) (h : Room G fl mn mx c n s) :
      Room G fl mn mx i n (op ++ [40] ++ s ++ [41])
  | picker {i j : Id} {pool : List Id} {n : Nat} {s : Bytes} (hG : G i = some (.picker pool)) (hl : pool.length ≤ 256)
      (hj : j ∈ pool) (h : Room G fl mn mx j n s) (h1 : mn j ≤ n)
      (h2 : (∃ k ∈ pool, mn k ≤ n ∧ (mx k = -1 ∨ (n : Int) ≤ mx k)) → mx j = -1 ∨ (n : Int) ≤ mx j) :
      Room G fl mn mx i (2 + n) s
  | lottery {i j : Id} {rec4 : Bool} {l : List Id} {w : Nat} {smin smax : Int} {n : Nat} {s : Bytes}
      (hG : G i = some (.lottery rec4 l w smin smax)) (hw : w = lotWidth l.length) (hl : l.length < 2 ^ 30) (hj : j ∈ l)
      (h : Room G fl mn mx j n s) (h1 : mn j ≤ n) (h2 : rec4 = true →
        (∃ k ∈ l, mn k ≤ n ∧ (mx k = -1 ∨ (n : Int) < mn k + mx k)) → mx j = -1 ∨ (n : Int) < mn j + mx j) :
      Room G fl mn mx i (w + n) s
  | seq {i : Id} {join : List Bytes → Bytes} {unb : Bool} (l : List (Id × Nat × Bytes))
      (hG : G i = some (.seq (l.map fun x => x.1) join unb)) (h : ∀ x ∈ l, Room G fl mn mx x.1 x.2.1 x.2.2)
      (hf : ∀ x ∈ l.dropLast, ExactStamp G x.1 x.2.1) :
      Room G fl mn mx i (l.map fun x => x.2.1).sum (join (l.map fun x => x.2.2))
  | set {i : Id} {join : List Bytes → Bytes} {unb : Bool} (l : List (Id × Nat × Bytes))
      (hG : G i = some (.set (l.map fun x => x.1) join unb)) (h : ∀ x ∈ l, Room G fl mn mx x.1 x.2.1 x.2.2)
      (hs : ∀ x ∈ l, (mx x.1 = mn x.1 ∧ (x.2.1 : Int) = mn x.1) ∨
        (mx x.1 = -1 ∧ mn x.1 ≤ x.2.1 ∧ (x.2.1 : Int) ≤ mn x.1 + 65535)) (hl : l.length ≤ 2 ^ 28) :
      Room G fl mn mx i ((l.map fun x => x.2.1).sum + (if 2 ≤ (l.filter fun x => decide (mx x.1 = -1)).length then
        2 * (l.filter fun x => decide (mx x.1 = -1)).length else 0)) (join (l.map fun x => x.2.2))
  | fixedList {i c : Id} {join : List Bytes → Bytes} {n : Nat} (l : List Bytes) (hG : G i = some (.vec c join))
      (hl : l ≠ []) (h1 : mn c = n) (h2 : mx c = n) (h3 : 1 ≤ n) (h : ∀ s ∈ l, Room G fl mn mx c n s) :
      Room G fl mn mx i (l.length * n) (join l)
  | variedList {i c : Id} {join : List Bytes → Bytes} (l : List (Nat × Bytes)) (hG : G i = some (.vec c join))
      (hl : l ≠ []) (h1 : mn c < mx c) (h2 : mx c ≤ mn c + 255) (h : ∀ x ∈ l, Room G fl mn mx c x.1 x.2)
      (hn : ∀ x ∈ l, mn c ≤ x.1 ∧ (x.1 : Int) ≤ mx c) :
      Room G fl mn mx i (l.map fun x => 2 + x.1).sum (join (l.map Prod.snd))
  | listOfOne {i c : Id} {join : List Bytes → Bytes} {n : Nat} {s : Bytes} (hG : G i = some (.vec c join)) (h1 : mx c = -1)
      (h : Room G fl mn mx c n s) (h2 : mn c ≤ n) (h3 : (2 + (n : Int)) / (mn c + 2) ≤ 65535) :
      Room G fl mn mx i (4 + n) (join [s])
  | list {i c : Id} {join : List Bytes → Bytes} (l : List (Nat × Bytes)) {n : Nat} {s : Bytes} (hG : G i = some (.vec c join))
      (h1 : mx c = -1) (hl : l ≠ []) (h : ∀ x ∈ l, Room G fl mn mx c x.1 x.2)
      (h2 : ∀ x ∈ l, mn c ≤ x.1 ∧ (x.1 : Int) ≤ mn c + 32767) (h' : Room G fl mn mx c n s)
      (h'' : Room G fl mn mx c (n + 1) s) (h3 : mn c ≤ n) (h4 : (n : Int) + 1 ≤ mn c + 32767)
      (h5 : (((l.map fun x => 2 + x.1).sum : Nat) + (n : Int) + 3) / (mn c + 2) ≤ 65535) :
      Room G fl mn mx i ((l.map fun x => 2 + x.1).sum + n + 5) (join (l.map Prod.snd ++ [s]))

end BS
