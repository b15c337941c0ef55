import Verif.Spec.Stamp
import Mathlib.Logic.Relation
import Mathlib.Algebra.BigOperators.Fin

/-!
# Specification vocabulary for how stamps are wired together
-/

namespace BS
open scoped BigOperators

/-- The stamps a stamp that is neither a pool picker nor a lottery was built on. -/
def Node.plainKids : Node → List Id
  | .vec c _ => [c]
  | .set cs _ _ => cs
  | .seq cs _ _ => cs
  | .unary _ c => [c]
  | _ => []

/-- The stamps a pool picker or lottery chooses from. -/
def Node.choices : Node → List Id
  | .lottery _ l _ _ _ => l
  | .picker l => l
  | _ => []

/-- `i` is built directly on `j` and is not a pool picker or lottery. -/
def PlainEdge (G : Graph) (i j : Id) : Prop := ∃ nd, G i = some nd ∧ j ∈ nd.plainKids

/-- `i` is built directly on `j`. -/
def Edge (G : Graph) (i j : Id) : Prop := ∃ nd, G i = some nd ∧ (j ∈ nd.plainKids ∨ j ∈ nd.choices)

/-- Finitely many objects, and every cycle passes through a pool picker or a lottery. -/
structure Guarded (G : Graph) : Prop where
  finite : ∃ B, ∀ i ≥ B, G i = none
  acyclic : ∀ i, ¬ Relation.TransGen (PlainEdge G) i i

/-- No stamp is under way: as seen from outside, between calls. -/
def Idle (fl : Flags) : Prop := ∀ i, (fl i).inRec = false

/-- `minSize()` or `maxSize()` is undefined behaviour. -/
def SizeUndefined (G : Graph) (fl : Flags) (sel : Sel) (i : Id) : Prop :=
  ∃ N r, ∀ n ≥ N, (sizeQ G n sel i fl).1 = .ub r

/-- Bytes an enumerator needs beyond those of its element: none over stamps of one size, two oracles
over unbounded stamps, one oracle otherwise. -/
def enumOverhead (mn mx : Int) : Int := if mn = mx then 0 else if mx = -1 then 4 else 2

/-- `k` bytes are the cost of some derivation from stamp `i`: what its leaves need, plus the oracles
of the pickers and enumerators on the way. A derivation makes every enumerator hold one element and
every picker pick one stamp; it may go round a cycle any number of times. -/
inductive Derives (G : Graph) (fl : Flags) : Id → Int → Prop
  | leaf {i nd k} : G i = some nd → nd.plainKids = [] → (∀ pool, nd ≠ .picker pool) →
      HasMin G fl i k → Derives G fl i k
  | vec {i c join mn mx k} : G i = some (.vec c join) → HasMin G fl c mn → HasMax G fl c mx →
      Derives G fl c k → Derives G fl i (k + enumOverhead mn mx)
  | unary {i c op k} : G i = some (.unary op c) → Derives G fl c k → Derives G fl i k
  | seq {i cs join unb} {ks : Fin cs.length → Int} : G i = some (.seq cs join unb) → cs ≠ [] →
      (∀ t, Derives G fl cs[t] (ks t)) → Derives G fl i (∑ t, ks t)
  | pick {i pool j k} : G i = some (.picker pool) → j ∈ pool → Derives G fl j k →
      Derives G fl i (k + 2)

/-- Grammars of leaves, lotteries with their stored sizes, enumerators and text joins, unary
operators, hash elements and pool pickers, whose size queries return `int`s that make sense at any
time. -/
structure PickerGrammar (G : Graph) : Prop where
  guarded : Guarded G
  closed : ∀ i nd, G i = some nd → ∀ j, j ∈ nd.plainKids ∨ j ∈ nd.choices → G j ≠ none
  noSet : ∀ i cs join unb, G i ≠ some (.set cs join unb)
  seqUnb : ∀ i cs join unb, G i = some (.seq cs join unb) → unb = true
  sizes : ∀ fl i, G i ≠ none → ∃ v x, HasMin G fl i v ∧ HasMax G fl i x ∧ 0 ≤ v ∧ v ≤ INT_MAX ∧
    -1 ≤ x ∧ x ≤ INT_MAX

/-- Each stamp is a leaf, a lottery with its stored sizes, a picker, or is built on one other stamp. -/
structure SingleChild (G : Graph) : Prop where
  acyclic : ∀ i, ¬ Relation.TransGen (PlainEdge G) i i
  small : ∃ B : Nat, B < 268435456 ∧ ∀ i : Nat, B ≤ i → G i = none
  closed : ∀ i nd, G i = some nd → ∀ j, j ∈ nd.plainKids ∨ j ∈ nd.choices → G j ≠ none
  single : ∀ i nd, G i = some nd →
    (∀ cs join unb, nd ≠ .set cs join unb) ∧ (∀ cs join unb, nd ≠ .seq cs join unb)
  leaf : ∀ i nd, G i = some nd → nd.plainKids = [] → (∀ pool, nd ≠ .picker pool) →
    ∃ v x, HasMin G Flags.init i v ∧ HasMax G Flags.init i x ∧ 0 ≤ v ∧ v ≤ INT_MAX / 2 ∧
      -1 ≤ x ∧ x ≤ INT_MAX / 2

/-- `isRecursive()` of object `i` returns `r`. -/
def IsRecRuns (G : Graph) (fl : Flags) (i : Id) (r : Bool) (fl' : Flags) : Prop :=
  ∃ N, ∀ n ≥ N, isRecQ G n i fl = (.ok r, fl')

/-- `i` is a pool picker with `j` in its pool. -/
def PickEdge (G : Graph) (i j : Id) : Prop := ∃ pool, G i = some (.picker pool) ∧ j ∈ pool

/-- A history of completed size queries and extractions by client code takes flags `fl` to `fl'`. -/
inductive Calls (G : Graph) : Flags → Flags → Prop
  | refl (fl) : Calls G fl fl
  | size {fl fl1 fl2 sel i v} : Calls G fl fl1 → SizeRuns G fl1 sel i v fl2 → Calls G fl fl2
  | extract {fl fl1 fl2 i s} {b b' : Blob} : Calls G fl fl1 → Extracts G fl1 i b (.ok s) fl2 b' →
      Calls G fl fl2
  | throw {fl fl1 fl2 i} {b b' : Blob} : Calls G fl fl1 → Extracts G fl1 i b .outOfData fl2 b' →
      Calls G fl fl2

/-- What the client has to see to: dictionaries with words, lists that fit an address space, user
stamps that stay inside their blob. -/
structure WellBuilt (G : Graph) : Prop where
  dict : ∀ i ws, G i = some (.dict ws) → ws ≠ [] ∧ ws.length ≤ 2 ^ 53
  lottery : ∀ i r l w a b, G i = some (.lottery r l w a b) → l.length ≤ 2 ^ 53
  picker : ∀ i l, G i = some (.picker l) → l.length ≤ 2 ^ 53
  user : ∀ i u, G i = some (.user u) → ∀ v, (u.behave v).1 ≠ .ub .oob ∧ (u.behave v).1 ≠ .ub .ptrArith

/-- User stamps report `int`s. -/
def IntUsers (G : Graph) : Prop :=
  ∀ i u, G i = some (.user u) → (-W31 ≤ u.mn ∧ u.mn < W31) ∧ (-W31 ≤ u.mx ∧ u.mx < W31)

/-- What is needed for extraction to end: no vector over stamps that need no data, and user stamps
that end. -/
structure Ending (G : Graph) (fl : Flags) : Prop where
  guarded : Guarded G
  vec : ∀ i c join, G i = some (.vec c join) → ¬ (HasMin G fl c 0 ∧ HasMax G fl c 0)
  ints : IntUsers G
  user : ∀ i u, G i = some (.user u) → ∀ bs, (u.behave bs).1 ≠ .fuel

/-- A stamp that never takes more than its `minSize()`. -/
def Node.Frugal : Node → Prop
  | .arith _ => True
  | .dict _ => True
  | .jsonStr => True
  | .user u => ∀ bs, ((u.behave bs).2 : Int) ≤ u.mn
  | _ => False

/-- Grammars in which, for blobs of up to `L` bytes, as many bytes as `minSize()` should be enough:
dictionaries have words, user stamps return when they have what they ask for, lists hold stamps of
sensible size and at most 32768 of them, stamps that share a blob leave something to the next one,
lotteries know a minimum that one of their stamps meets. -/
structure Plentiful (G : Graph) (fl : Flags) (L : Nat) : Prop where
  grammar : PickerGrammar G
  small : L < INT_MAX / 2
  dict : ∀ i ws, G i = some (.dict ws) → ws ≠ [] ∧ ws.length ≤ 2 ^ 53
  user : ∀ i u, G i = some (.user u) → ∀ bs, u.mn ≤ (bs.length : Int) → ∃ s, (u.behave bs).1 = .ok s
  vec : ∀ i c join, G i = some (.vec c join) → ∀ mn mx, HasMin G fl c mn → HasMax G fl c mx →
    (mx = -1 ∧ L ≤ 3000000 ∧ ((L : Int) - 2) / (mn + 2) ≤ 32768) ∨ (mn ≤ mx ∧ 1 ≤ mx)
  seq : ∀ i cs join unb, G i = some (.seq cs join unb) → ∀ j ∈ cs.dropLast, ∀ nd, G j = some nd → nd.Frugal
  lottery : ∀ i r l w smin smax, G i = some (.lottery r l w smin smax) →
    (w = 1 ∨ w = 2 ∨ w = 4 ∨ w = 8) ∧ l.length ≤ 2 ^ 53 ∧ (∃ j ∈ l, ∃ m, HasMin G fl j m ∧ m ≤ smin) ∧
    ∀ j ∈ l, ∀ m mx, HasMin G fl j m → HasMax G fl j mx → m + mx ≤ INT_MAX
  picker : ∀ i pool, G i = some (.picker pool) → pool.length ≤ 2 ^ 53

/-- Stamps whose sizes are what they take: no `StampJSONString` (which asks for 8 bytes and takes 1),
user stamps and stored lottery sizes that keep their word. -/
structure Honest (G : Graph) (fl : Flags) : Prop where
  noJsonStr : ∀ i, G i ≠ some .jsonStr
  user : ∀ i u, G i = some (.user u) → ∀ bs, u.mn ≤ (bs.length : Int) →
    u.mn ≤ ((u.behave bs).2 : Int) ∧ (u.mx ≠ -1 → ((u.behave bs).2 : Int) ≤ u.mx)
  lottery : ∀ i r l w smin smax, G i = some (.lottery r l w smin smax) →
    ∀ j ∈ l, ∀ m mx, HasMin G fl j m → HasMax G fl j mx → smin ≤ m ∧ (smax ≠ -1 → mx ≠ -1 ∧ mx ≤ smax)

end BS
