import Verif.Spec.Stamp

/-!
# Stamps of fixed size

README.md 69-76: "Fixed Size Stamps: Stamp consumes fixed amount of data (Min Stamp Size == Max Stamp Size)".
-/

namespace BS

/-- Stamps that are of fixed size `n` by their make-up: arithmetic stamps, dictionaries, user-written stamps that
keep to `n` bytes, structures and sets of stamps of fixed sizes, and choices among stamps of one size (a lottery reads
`w` bytes to choose, a picker two). -/
inductive FixedStamp (G : Graph) : Id → Nat → Prop where
  | arith {i : Id} {t : ArithTy} (h : G i = some (.arith t)) : FixedStamp G i t.size
  | dict {i : Id} {ws : List Bytes} (h : G i = some (.dict ws)) (h1 : 1 ≤ ws.length) (h2 : ws.length ≤ 65536) :
      FixedStamp G i (if ws.length ≤ 256 then 1 else 2)
  | user {i : Id} {u : UserStamp} {n : Nat} (h : G i = some (.user u)) (hn : n ≤ INT_MAX) (h1 : u.mn = n) (h2 : u.mx = n)
      (hs : ∀ bs, bs.length < n → (u.behave bs).1 = .outOfData)
      (he : ∀ p, p.length = n → ∃ s, ∀ rest, u.behave (p ++ rest) = (.ok s, n)) : FixedStamp G i n
  | seq {i : Id} {cs : List Id} {join : List Bytes → Bytes} (sz : Id → Nat) (h : G i = some (.seq cs join false))
      (hc : ∀ c ∈ cs, FixedStamp G c (sz c)) (hn : ((cs.map sz).sum : Nat) ≤ INT_MAX) : FixedStamp G i (cs.map sz).sum
  | set {i : Id} {cs : List Id} {join : List Bytes → Bytes} (sz : Id → Nat) (h : G i = some (.set cs join false))
      (hc : ∀ c ∈ cs, FixedStamp G c (sz c)) (hn : ((cs.map sz).sum : Nat) + 2 * (cs.length + 1) ≤ INT_MAX) :
      FixedStamp G i (cs.map sz).sum
  | lottery {i : Id} {rec4 : Bool} {cs : List Id} {w n : Nat} (h : G i = some (.lottery rec4 cs w n n))
      (hw : w = 1 ∨ w = 2 ∨ w = 4 ∨ w = 8) (hne : cs ≠ []) (hl : cs.length ≤ 2 ^ 53) (hc : ∀ c ∈ cs, FixedStamp G c n)
      (hn : n < 2 ^ 30 - 8) : FixedStamp G i (n + w)
  | picker {i : Id} {cs : List Id} {n : Nat} (h : G i = some (.picker cs)) (hne : cs ≠ []) (hl : cs.length ≤ 2 ^ 53)
      (hc : ∀ c ∈ cs, FixedStamp G c n) (hn : n < 2 ^ 30 - 8) : FixedStamp G i (n + 2)

/-- Stamps that take exactly `n` bytes although `maxSize()` may say they take any number: operators over stamps of
fixed size. -/
inductive ExactStamp (G : Graph) : Id → Nat → Prop where
  | fixed {i : Id} {n : Nat} (h : FixedStamp G i n) : ExactStamp G i n
  | unary {i c : Id} {op : Bytes} {n : Nat} (h : G i = some (.unary op c)) (hc : ExactStamp G c n) : ExactStamp G i n
  | seq {i : Id} {cs : List Id} {join : List Bytes → Bytes} {unb : Bool} (sz : Id → Nat)
      (h : G i = some (.seq cs join unb)) (hc : ∀ c ∈ cs, ExactStamp G c (sz c)) : ExactStamp G i (cs.map sz).sum
  | set {i : Id} {cs : List Id} {join : List Bytes → Bytes} {unb : Bool} (sz : Id → Nat)
      (h : G i = some (.set cs join unb)) (hc : ∀ c ∈ cs, FixedStamp G c (sz c))
      (hn : ((cs.map sz).sum : Nat) + 2 * (cs.length + 1) ≤ INT_MAX) : ExactStamp G i (cs.map sz).sum

/-- No size query is under way and no stamp of fixed size has been taken for recursive. -/
def Fresh (G : Graph) (fl : Flags) : Prop := ∀ k n, FixedStamp G k n → fl k = ⟨false, false⟩

end BS
