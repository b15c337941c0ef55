import Verif.Spec.Stamp

/-!
# Stamps of bounded size

README.md 76-80: "Variated Size Stamp: Min Stamp Size != Max Stamp Size. For example stamp that generates string with
random Latin letters 3 to 16 character long. It consumes 3..16 bytes".
-/

namespace BS

/-- Stamps that by their make-up take `lo` to `hi` bytes of blobs of up to `N` bytes: arithmetic stamps, dictionaries,
user-written stamps that keep to their sizes, and structures, sets and choices made of such. A lottery reads `w` bytes
to choose and keeps the bounds of its members in two variables, a picker reads two bytes and works them out; a set
reads two more for every member that is not of fixed size. -/
inductive VarStamp (G : Graph) (N : Nat) : Id → Nat → Nat → Prop where
  | arith {i : Id} {t : ArithTy} (h : G i = some (.arith t)) : VarStamp G N i t.size t.size
  | dict {i : Id} {ws : List Bytes} (h : G i = some (.dict ws)) (h1 : 1 ≤ ws.length) (h2 : ws.length ≤ 65536) :
      VarStamp G N i (if ws.length ≤ 256 then 1 else 2) (if ws.length ≤ 256 then 1 else 2)
  | user {i : Id} {u : UserStamp} {lo hi : Nat} (h : G i = some (.user u)) (hn : hi ≤ INT_MAX) (hl : lo ≤ hi)
      (h1 : u.mn = lo) (h2 : u.mx = hi)
      (hb : ∀ bs s, (u.behave bs).1 = .ok s → lo ≤ bs.length ∧ lo ≤ (u.behave bs).2 ∧ (u.behave bs).2 ≤ hi) :
      VarStamp G N i lo hi
  | seq {i : Id} {cs : List Id} {join : List Bytes → Bytes} (lo hi : Id → Nat) (h : G i = some (.seq cs join false))
      (hc : ∀ c ∈ cs, VarStamp G N c (lo c) (hi c)) (hn : ((cs.map hi).sum : Nat) ≤ INT_MAX) :
      VarStamp G N i (cs.map lo).sum (cs.map hi).sum
  | set {i : Id} {cs : List Id} {join : List Bytes → Bytes} (lo hi : Id → Nat) (h : G i = some (.set cs join false))
      (hc : ∀ c ∈ cs, VarStamp G N c (lo c) (hi c)) (hn : ((cs.map hi).sum : Nat) + 2 * (cs.length + 1) ≤ INT_MAX)
      (hN : cs.length * (N + 1) ≤ 2 ^ 49) :
      VarStamp G N i ((cs.map lo).sum + 2 * cs.countP fun c => lo c ≠ hi c)
        ((cs.map hi).sum + 2 * cs.countP fun c => lo c ≠ hi c)
  | lottery {i : Id} {rec4 : Bool} {cs : List Id} {w a b : Nat} (lo hi : Id → Nat)
      (h : G i = some (.lottery rec4 cs w a b)) (hw : w = 1 ∨ w = 2 ∨ w = 4 ∨ w = 8) (hne : cs ≠ [])
      (hc : ∀ c ∈ cs, VarStamp G N c (lo c) (hi c)) (hm : ∀ c ∈ cs, a ≤ lo c ∧ hi c ≤ b) (hn : b + 8 ≤ INT_MAX) :
      VarStamp G N i (a + w) (b + w)
  | picker {i : Id} {cs : List Id} {a b : Nat} (lo hi : Id → Nat) (h : G i = some (.picker cs))
      (hc : ∀ c ∈ cs, VarStamp G N c (lo c) (hi c)) (hm : ∀ c ∈ cs, a ≤ lo c ∧ hi c ≤ b) (ha : ∃ c ∈ cs, lo c = a)
      (hb : ∃ c ∈ cs, hi c = b) (hn : b + 2 ≤ INT_MAX) (hs : a < INT_MAX / 2) : VarStamp G N i (a + 2) (b + 2)

/-- Stamps that take `lo` to `hi` bytes although `maxSize()` may say they take any number: operators over stamps of
bounded size. -/
inductive Between (G : Graph) (N : Nat) : Id → Nat → Nat → Prop where
  | bounded {i : Id} {lo hi : Nat} (h : VarStamp G N i lo hi) : Between G N i lo hi
  | unary {i c : Id} {op : Bytes} {lo hi : Nat} (h : G i = some (.unary op c)) (hc : Between G N c lo hi) :
      Between G N i lo hi
  | seq {i : Id} {cs : List Id} {join : List Bytes → Bytes} {unb : Bool} (lo hi : Id → Nat)
      (h : G i = some (.seq cs join unb)) (hc : ∀ c ∈ cs, Between G N c (lo c) (hi c)) :
      Between G N i (cs.map lo).sum (cs.map hi).sum
  | set {i : Id} {cs : List Id} {join : List Bytes → Bytes} {unb : Bool} (lo hi : Id → Nat)
      (h : G i = some (.set cs join unb)) (hc : ∀ c ∈ cs, VarStamp G N c (lo c) (hi c))
      (hn : ((cs.map hi).sum : Nat) + 2 * (cs.length + 1) ≤ INT_MAX) (hN : cs.length * (N + 1) ≤ 2 ^ 49) :
      Between G N i ((cs.map lo).sum + 2 * cs.countP fun c => lo c ≠ hi c)
        ((cs.map hi).sum + 2 * cs.countP fun c => lo c ≠ hi c)

/-- No size query is under way and no stamp of bounded size has been taken for recursive. -/
def Unmarked (G : Graph) (N : Nat) (fl : Flags) : Prop := ∀ k lo hi, VarStamp G N k lo hi → fl k = ⟨false, false⟩

end BS
