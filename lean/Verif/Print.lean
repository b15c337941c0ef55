import Mathlib.Data.Nat.Log
import Verif.Float

/-!
# `printf` as used by `to_string_precise` (include/blobstamper/helpers.h 32-98)
-/

namespace BS

/-- ASCII text as bytes. [C++ itself, not a function of the library; needed for the literals of src] -/
def str (s : String) : Bytes := s.toList.map fun c => UInt8.ofNat c.toNat

/-- ASCII code of a decimal digit. [C++ itself, not a function of the library; needed for helpers.h 32-98] -/
def digitChar (d : Nat) : UInt8 := UInt8.ofNat (48 + d)

/-- Decimal digits of a natural number, least significant first, at least one digit. The first
argument is a recursion bound. [C++ itself, not a function of the library; needed for helpers.h 32-98] -/
def revDigF : Nat → Nat → List Nat
  | 0, n => [n % 10]
  | f + 1, n => if n < 10 then [n] else n % 10 :: revDigF f (n / 10)

/-- Decimal numeral of a natural number, most significant digit first (helpers.h 36-54). -/
def natDec (n : Nat) : Bytes := (revDigF n.log2 n).reverse.map digitChar

/-- Decimal numeral of an integer: `std::to_string` (helpers.h 32-54), `%d` (helpers.h 64, 69). -/
def intDec (i : Int) : Bytes := if i < 0 then 45 :: natDec i.natAbs else natDec i.natAbs

/-- `__gnu_cxx::__to_xstring<std::string>(&vsnprintf, n, fmt, v)` where `full` is what an unlimited
`sprintf` would produce: `vsnprintf` stores at most `n - 1` characters and a NUL in the `n`-byte
buffer but returns the full length `len`, and the string is then built from `buf, buf + len`.
Modelled for `len <= n` (libstdc++ ext/string_conversions.h `__to_xstring`); a longer text would
read outside the buffer. -/
def toXString (n : Nat) (full : Bytes) : Out Bytes :=
  if full.length < n then .ok full
  else if full.length = n then .ok (full.take (n - 1) ++ [0])
  else .ub .oob

/-- 10^e for an integer exponent. [C++ itself, not a function of the library; needed for helpers.h 73-89] -/
def pow10 (e : Int) : ℚ :=
  if 0 ≤ e then ((10 ^ e.toNat : Nat) : ℚ) else 1 / ((10 ^ (-e).toNat : Nat) : ℚ)

/-- floor(log10 q) for q > 0. [C++ itself, not a function of the library; needed for helpers.h 73-89] -/
def ilog10 (q : ℚ) : Int :=
  let e : Int := (Nat.log 10 q.num.toNat : Int) - (Nat.log 10 q.den : Int)
  if pow10 e ≤ q then e else e - 1

/-- The `k` low decimal digits of a number, least significant first.
[C++ itself, not a function of the library; needed for helpers.h 73-89] -/
def lowDigs : Nat → Nat → List Nat
  | 0, _ => []
  | k + 1, n => n % 10 :: lowDigs k (n / 10)

/-- Fraction part with its point, trailing zeros removed, nothing if no digit is left (`%g`
without `#`). The argument lists the fraction digits from the last one.
[C++ itself, not a function of the library; needed for helpers.h 73-89] -/
def fracPart (l : List Nat) : Bytes :=
  match l.dropWhile (fun d => d.beq 0) with
  | [] => []
  | l' => 46 :: l'.reverse.map digitChar

/-- `e+XX` / `e-XX`: at least two exponent digits (`%g`, helpers.h 79, 88). -/
def expPart (x : Int) : Bytes :=
  [101, if x < 0 then 45 else 43] ++ (if x.natAbs < 10 then 48 :: natDec x.natAbs else natDec x.natAbs)

/-- `%.Pg` of a positive rational (C11 7.21.6.1: the exponent `x` of the `%e` conversion decides
between fixed and scientific notation). [C++ itself, not a function of the library; needed for helpers.h 73-89] -/
def fmtGpos (P : Nat) (q : ℚ) : Bytes :=
  let x0 := ilog10 q
  let d0 := rne (q * pow10 ((P : Int) - 1 - x0))
  let x := if d0 = 10 ^ P then x0 + 1 else x0
  let d := if d0 = 10 ^ P then d0 / 10 else d0
  let ds := lowDigs P d.toNat
  if -4 ≤ x ∧ x < P then
    if 0 ≤ x then
      (ds.drop (P - 1 - x.toNat)).reverse.map digitChar ++ fracPart (ds.take (P - 1 - x.toNat))
    else [48] ++ fracPart (ds ++ List.replicate ((-x).toNat - 1) 0)
  else (ds.drop (P - 1)).reverse.map digitChar ++ fracPart (ds.take (P - 1)) ++ expPart x

/-- Class and value of an IEEE bit pattern (the argument of helpers.h 74, 83). -/
inductive FBits where
  | nan (neg : Bool)
  | inf (neg : Bool)
  | fin (neg : Bool) (mag : ℚ)

/-- Decode the bit pattern of a `float` (8 exponent bits, 23 fraction bits) or `double` (11, 52).
[C++ itself, not a function of the library; needed for helpers.h 73-89] -/
def decodeBits (ebits mbits : Nat) (bits : Nat) : FBits :=
  let m := bits % 2 ^ mbits
  let e := bits / 2 ^ mbits % 2 ^ ebits
  let s := bits / 2 ^ (mbits + ebits) % 2 = 1
  let bias : Int := 2 ^ (ebits - 1) - 1
  if e = 2 ^ ebits - 1 then (if m = 0 then .inf s else .nan s)
  else if e = 0 then .fin s ((m : ℚ) * pow2 (1 - bias - mbits))
  else .fin s (((2 ^ mbits + m : Nat) : ℚ) * pow2 (e - bias - mbits))

/-- `%.999g` (helpers.h 73-89), glibc spelling of the non-finite values. -/
def fmtG999 (v : FBits) : Bytes :=
  match v with
  | .nan s => (if s then [45] else []) ++ str "nan"
  | .inf s => (if s then [45] else []) ++ str "inf"
  | .fin s q => (if s then [45] else []) ++ (if q = 0 then [48] else fmtGpos 999 q)

end BS
