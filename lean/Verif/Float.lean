import Mathlib.Data.Rat.Floor
import Mathlib.Tactic.Linarith
import Mathlib.Tactic.NormNum
import Mathlib.Tactic.Positivity
import Mathlib.Tactic.FieldSimp
import Mathlib.Tactic.Ring
import Mathlib.Data.Nat.Log
import Verif.Core

/-!
# IEEE-754 binary32 / binary64 arithmetic, round to nearest even, over the rationals

Nothing of /repo is modelled here; it is the semantics of `float` and `double` that the
definitions for src/oracle.cpp, src/galley.cpp, src/stamp_dict.cpp and
include/blobstamper/stamp_lottery.h use. Simplification: there is one zero (no signed zero);
the library never divides by a negative zero nor prints a computed one.
-/

namespace BS

/-- A binary format: precision, exponent of the smallest subnormal, overflow exponent.
[C++ itself, not a function of the library; needed for oracle.cpp 34, galley.cpp 151, 247-343, stamp_dict.cpp 78, stamp_lottery.h 203] -/
structure Fmt where
  p : Nat
  emin : Int
  emax : Int

/-- binary32 [`float`: oracle.cpp 34, galley.cpp 148-153] -/
def f32 : Fmt := ⟨24, -149, 128⟩
/-- binary64 [`double`: galley.cpp 247-343, stamp_dict.cpp 78, stamp_lottery.h 203] -/
def f64 : Fmt := ⟨53, -1074, 1024⟩

/-- 2^e for an integer exponent (computable by the kernel).
[C++ itself, not a function of the library; needed for oracle.cpp 34, galley.cpp 151, 247-343, stamp_dict.cpp 78, stamp_lottery.h 203] -/
def pow2 (e : Int) : ℚ :=
  if 0 ≤ e then ((2 ^ e.toNat : Nat) : ℚ) else 1 / ((2 ^ (-e).toNat : Nat) : ℚ)

/-- floor(log2 q) for q > 0.
[C++ itself, not a function of the library; needed for oracle.cpp 34, galley.cpp 151, 247-343, stamp_dict.cpp 78, stamp_lottery.h 203] -/
def ilog2 (q : ℚ) : Int :=
  let e : Int := (Nat.log2 q.num.toNat : Int) - (Nat.log2 q.den : Int)
  if pow2 e ≤ q then e else e - 1

/-- Round a rational to the nearest integer, ties to even.
[C++ itself, not a function of the library; needed for oracle.cpp 34, galley.cpp 151, 247-343, stamp_dict.cpp 78, stamp_lottery.h 203] -/
def rne (x : ℚ) : Int :=
  let f := ⌊x⌋
  let d := x - f
  if d < 1 / 2 then f
  else if 1 / 2 < d then f + 1
  else if f % 2 = 0 then f else f + 1

/-- Exponent of the unit in the last place at magnitude `|q|`.
[C++ itself, not a function of the library; needed for oracle.cpp 34, galley.cpp 151, 247-343, stamp_dict.cpp 78, stamp_lottery.h 203] -/
def ulpExp (f : Fmt) (q : ℚ) : Int := max (ilog2 |q| - (f.p : Int) + 1) f.emin

/-- Round to the format, unbounded above.
[C++ itself, not a function of the library; needed for oracle.cpp 34, galley.cpp 151, 247-343, stamp_dict.cpp 78, stamp_lottery.h 203] -/
def rnd (f : Fmt) (q : ℚ) : ℚ :=
  if q = 0 then 0 else
    let u := ulpExp f q
    (rne (q / pow2 u) : ℚ) * pow2 u

/-- A floating value: NaN, infinity (`true` = negative) or finite.
[C++ itself, not a function of the library; needed for oracle.cpp 34, galley.cpp 151, 247-343, stamp_dict.cpp 78, stamp_lottery.h 203] -/
inductive FV where
  | nan
  | inf (neg : Bool)
  | fin (q : ℚ)
deriving DecidableEq

/-- Round a real (here rational) result to the format, with overflow to infinity.
[C++ itself, not a function of the library; needed for oracle.cpp 34, galley.cpp 151, 247-343, stamp_dict.cpp 78, stamp_lottery.h 203] -/
def FV.ofQ (f : Fmt) (q : ℚ) : FV :=
  let r := rnd f q
  if pow2 f.emax ≤ |r| then .inf (decide (r < 0)) else .fin r

/-- Conversion of an integer to the format.
[C++ itself, not a function of the library; needed for the casts in oracle.cpp 34, galley.cpp 151, 247-343, stamp_dict.cpp 78, stamp_lottery.h 203] -/
def FV.ofInt (f : Fmt) (i : Int) : FV := FV.ofQ f (i : ℚ)

/-- [C++ itself, not a function of the library; needed for the subtractions below] -/
def FV.neg : FV → FV
  | .nan => .nan
  | .inf s => .inf (!s)
  | .fin q => .fin (-q)

/-- [C++ itself, not a function of the library; needed for galley.cpp 151, 335, 342] -/
def FV.add (f : Fmt) : FV → FV → FV
  | .fin a, .fin b => FV.ofQ f (a + b)
  | .nan, _ => .nan
  | _, .nan => .nan
  | .inf s, .inf t => if s = t then .inf s else .nan
  | .inf s, .fin _ => .inf s
  | .fin _, .inf t => .inf t

/-- [C++ itself, not a function of the library; needed for galley.cpp 153] -/
def FV.sub (f : Fmt) (a b : FV) : FV := FV.add f a b.neg

/-- [C++ itself, not a function of the library; needed for galley.cpp 151, 335, 342] -/
def FV.mul (f : Fmt) : FV → FV → FV
  | .fin a, .fin b => FV.ofQ f (a * b)
  | .nan, _ => .nan
  | _, .nan => .nan
  | .inf s, .inf t => .inf (xor s t)
  | .inf s, .fin b => if b = 0 then .nan else .inf (xor s (decide (b < 0)))
  | .fin a, .inf t => if a = 0 then .nan else .inf (xor (decide (a < 0)) t)

/-- [C++ itself, not a function of the library; needed for oracle.cpp 34, galley.cpp 151, 247-343, stamp_dict.cpp 78, stamp_lottery.h 203] -/
def FV.div (f : Fmt) : FV → FV → FV
  | .fin a, .fin b =>
      if b = 0 then (if a = 0 then .nan else .inf (decide (a < 0))) else FV.ofQ f (a / b)
  | .nan, _ => .nan
  | _, .nan => .nan
  | .inf _, .inf _ => .nan
  | .inf s, .fin b => .inf (xor s (decide (b < 0)))
  | .fin _, .inf _ => .fin 0

/-- `a < b`; false if either is a NaN. [C++ itself, not a function of the library; needed for galley.cpp 247-343] -/
def FV.lt : FV → FV → Bool
  | .fin a, .fin b => decide (a < b)
  | .inf true, .fin _ => true
  | .inf true, .inf false => true
  | .fin _, .inf false => true
  | _, _ => false

/-- `a == b`; false if either is a NaN. [C++ itself, not a function of the library; needed for galley.cpp 247-343] -/
def FV.beq : FV → FV → Bool
  | .fin a, .fin b => decide (a = b)
  | .inf s, .inf t => s == t
  | _, _ => false

/-- Truncation toward zero.
[C++ itself, not a function of the library; needed for galley.cpp 152, stamp_dict.cpp 78, stamp_lottery.h 203] -/
def truncQ (q : ℚ) : Int := if 0 ≤ q then ⌊q⌋ else ⌈q⌉

/-- C `round`: nearest integer, ties away from zero.
[C++ itself, not a function of the library; needed for galley.cpp 247, 308, 336, 343] -/
def roundHA (q : ℚ) : Int := if 0 ≤ q then ⌊q + 1 / 2⌋ else ⌈q - 1 / 2⌉

/-- Conversion to a signed integer type with range [lo, hi]: undefined when out of range.
[C++ itself, not a function of the library; needed for galley.cpp 152, 247, 336, 343] -/
def FV.toIntRange (lo hi : Int) : FV → Out Int
  | .fin q => if lo ≤ truncQ q ∧ truncQ q ≤ hi then .ok (truncQ q) else .ub .floatToInt
  | _ => .ub .floatToInt

/-- C `round(double)` result, still a floating value. Integers of magnitude below 2^53 are exact;
larger finite doubles are integers already.
[C++ itself, not a function of the library; needed for galley.cpp 247, 308, 336, 343] -/
def FV.round : FV → FV
  | .fin q => .fin (roundHA q)
  | v => v

/-- C `floor`. [C++ itself, not a function of the library; needed for oracle.cpp 34] -/
def FV.floor : FV → FV
  | .fin q => .fin (⌊q⌋ : ℚ)
  | v => v

/-! ## Lemmas: powers of two -/

theorem pow2_eq (e : Int) : pow2 e = (2 : ℚ) ^ e := by
  unfold pow2
  split
  · next h =>
    push_cast
    conv_rhs => rw [← Int.toNat_of_nonneg h]
    rw [zpow_natCast]
  · next h =>
    push_cast
    have h' : 0 ≤ -e := by omega
    have : (2 : ℚ) ^ e = ((2 : ℚ) ^ (-e))⁻¹ := by rw [zpow_neg, inv_inv]
    rw [this]
    conv_rhs => rw [← Int.toNat_of_nonneg h']
    rw [zpow_natCast, one_div]

theorem pow2_pos (e : Int) : 0 < pow2 e := by rw [pow2_eq]; exact zpow_pos (by norm_num) e

theorem pow2_ne (e : Int) : pow2 e ≠ 0 := (pow2_pos e).ne'

theorem pow2_add (a b : Int) : pow2 (a + b) = pow2 a * pow2 b := by
  simp only [pow2_eq]; exact zpow_add₀ (by norm_num) a b

theorem pow2_sub (a b : Int) : pow2 (a - b) = pow2 a / pow2 b := by
  simp only [pow2_eq]; exact zpow_sub₀ (by norm_num) a b

theorem pow2_mono {a b : Int} (h : a ≤ b) : pow2 a ≤ pow2 b := by
  simp only [pow2_eq]; exact zpow_le_zpow_right₀ (by norm_num) h

theorem pow2_lt {a b : Int} (h : a < b) : pow2 a < pow2 b := by
  simp only [pow2_eq]; exact zpow_lt_zpow_right₀ (by norm_num) h

theorem pow2_lt_iff {a b : Int} : pow2 a < pow2 b ↔ a < b := by
  constructor
  · intro h; by_contra hc
    exact absurd (pow2_mono (not_lt.1 hc)) (not_le.2 h)
  · exact pow2_lt

theorem pow2_natCast (n : Nat) : pow2 (n : Int) = (2 : ℚ) ^ n := by
  rw [pow2_eq, zpow_natCast]

/-- A non-negative power of two is an integer. -/
theorem pow2_int {e : Int} (h : 0 ≤ e) : pow2 e = ((2 ^ e.toNat : Int) : ℚ) := by
  unfold pow2; rw [if_pos h]; push_cast; rfl

/-! ## ilog2 -/

theorem ilog2_spec {q : ℚ} (h : 0 < q) : pow2 (ilog2 q) ≤ q ∧ q < pow2 (ilog2 q + 1) := by
  have hn : 0 < q.num := Rat.num_pos.2 h
  set n := q.num.toNat with hnn
  have hn0 : n ≠ 0 := by omega
  have hd0 : q.den ≠ 0 := q.den_nz
  have hq : q = (n : ℚ) / (q.den : ℚ) := by
    have : ((n : Nat) : ℚ) = ((q.num : Int) : ℚ) := by
      rw [← Int.cast_natCast, hnn, Int.toNat_of_nonneg hn.le]
    rw [this]; exact (Rat.num_div_den q).symm
  have l1 : 2 ^ n.log2 ≤ n := Nat.log2_self_le hn0
  have l2 : n < 2 ^ (n.log2 + 1) := Nat.lt_log2_self
  have d1 : 2 ^ q.den.log2 ≤ q.den := Nat.log2_self_le hd0
  have d2 : q.den < 2 ^ (q.den.log2 + 1) := Nat.lt_log2_self
  have l1' : (2 : ℚ) ^ n.log2 ≤ n := by exact_mod_cast l1
  have l2' : (n : ℚ) < 2 ^ (n.log2 + 1) := by exact_mod_cast l2
  have d1' : (2 : ℚ) ^ q.den.log2 ≤ q.den := by exact_mod_cast d1
  have d2' : (q.den : ℚ) < 2 ^ (q.den.log2 + 1) := by exact_mod_cast d2
  have dpos : (0 : ℚ) < q.den := by exact_mod_cast Nat.pos_of_ne_zero hd0
  have hqd : q * q.den = n := by
    have := hq
    rw [eq_div_iff dpos.ne'] at this
    exact this
  set e : Int := (n.log2 : Int) - (q.den.log2 : Int) with he
  have up : q < pow2 (e + 1) := by
    have : pow2 (e + 1) = 2 ^ (n.log2 + 1) / 2 ^ (q.den.log2) := by
      rw [he, show (n.log2 : Int) - (q.den.log2 : Int) + 1
        = ((n.log2 + 1 : Nat) : Int) - ((q.den.log2 : Nat) : Int) by push_cast; ring]
      rw [pow2_sub, pow2_natCast, pow2_natCast]
    rw [this]
    rw [lt_div_iff₀ (by positivity)]
    calc q * 2 ^ q.den.log2 ≤ q * q.den := by
          apply mul_le_mul_of_nonneg_left d1' h.le
      _ = n := hqd
      _ < _ := l2'
  have lo : pow2 (e - 1) ≤ q := by
    have : pow2 (e - 1) = 2 ^ (n.log2) / 2 ^ (q.den.log2 + 1) := by
      rw [he, show (n.log2 : Int) - (q.den.log2 : Int) - 1
        = ((n.log2 : Nat) : Int) - ((q.den.log2 + 1 : Nat) : Int) by push_cast; ring]
      rw [pow2_sub, pow2_natCast, pow2_natCast]
    rw [this, div_le_iff₀ (by positivity)]
    calc (2 : ℚ) ^ n.log2 ≤ n := l1'
      _ = q * q.den := hqd.symm
      _ ≤ _ := by apply mul_le_mul_of_nonneg_left d2'.le h.le
  have hil : ilog2 q = if pow2 e ≤ q then e else e - 1 := rfl
  rw [hil]
  split
  · next hc => exact ⟨hc, up⟩
  · next hc =>
    refine ⟨lo, ?_⟩
    rw [sub_add_cancel]
    exact not_le.1 hc

theorem ilog2_unique {q : ℚ} {e : Int} (h1 : pow2 e ≤ q) (h2 : q < pow2 (e + 1)) : ilog2 q = e := by
  have hq : 0 < q := lt_of_lt_of_le (pow2_pos e) h1
  obtain ⟨a, b⟩ := ilog2_spec hq
  have x1 : ilog2 q < e + 1 := pow2_lt_iff.1 (lt_of_le_of_lt a h2)
  have x2 : e < ilog2 q + 1 := pow2_lt_iff.1 (lt_of_le_of_lt h1 b)
  omega

theorem ilog2_mono {a b : ℚ} (ha : 0 < a) (h : a ≤ b) : ilog2 a ≤ ilog2 b := by
  have hb : 0 < b := lt_of_lt_of_le ha h
  have := pow2_lt_iff.1 (lt_of_le_of_lt ((ilog2_spec ha).1.trans h) (ilog2_spec hb).2)
  omega

/-! ## rne -/

theorem rne_err (x : ℚ) : |(rne x : ℚ) - x| ≤ 1 / 2 := by
  have h1 := Int.floor_le x
  have h2 := Int.lt_floor_add_one x
  unfold rne
  simp only
  split_ifs with a b c
  · rw [abs_le]; constructor <;> linarith
  · push_cast; rw [abs_le]; constructor <;> linarith
  · rw [abs_le]; constructor <;> linarith
  · push_cast; rw [abs_le]; constructor <;> linarith

theorem rne_int (n : Int) : rne (n : ℚ) = n := by
  unfold rne
  simp

theorem rne_mono {x y : ℚ} (h : x ≤ y) : rne x ≤ rne y := by
  rcases eq_or_lt_of_le h with rfl | hlt
  · exact le_refl _
  have e1 := abs_le.1 (rne_err x)
  have e2 := abs_le.1 (rne_err y)
  by_contra hc
  push Not at hc
  have hc' : (rne y : ℚ) + 1 ≤ rne x := by exact_mod_cast hc
  linarith [e1.1, e1.2, e2.1, e2.2]

theorem rne_le_int {x : ℚ} {n : Int} (h : x ≤ n) : rne x ≤ n := by
  have := rne_mono h; rwa [rne_int] at this

theorem int_le_rne {x : ℚ} {n : Int} (h : (n : ℚ) ≤ x) : n ≤ rne x := by
  have := rne_mono h; rwa [rne_int] at this

theorem rne_neg (x : ℚ) : rne (-x) = - rne x := by
  have key : ∀ y : ℚ, rne y = if y - ⌊y⌋ < 1/2 then ⌊y⌋ else if 1/2 < y - ⌊y⌋ then ⌊y⌋ + 1
      else if ⌊y⌋ % 2 = 0 then ⌊y⌋ else ⌊y⌋ + 1 := fun y => rfl
  by_cases hi : (⌊x⌋ : ℚ) = x
  · rw [← hi, ← Int.cast_neg, rne_int, rne_int]
  · have hl := Int.floor_le x
    have hl' : (⌊x⌋ : ℚ) < x := lt_of_le_of_ne hl hi
    have hu := Int.lt_floor_add_one x
    have hf : ⌊-x⌋ = -⌊x⌋ - 1 := by
      rw [Int.floor_eq_iff]; push_cast; constructor <;> linarith
    rw [key, key x, hf]
    push_cast
    have hd : -x - (-(⌊x⌋ : ℚ) - 1) = 1 - (x - ⌊x⌋) := by ring
    rw [hd]
    split_ifs <;> first | omega | (exfalso; linarith)

/-! ## Rounding to a format -/

theorem rnd_zero (f : Fmt) : rnd f 0 = 0 := by simp [rnd]

theorem ulpExp_neg (f : Fmt) (q : ℚ) : ulpExp f (-q) = ulpExp f q := by
  unfold ulpExp; rw [abs_neg]

theorem rnd_neg (f : Fmt) (q : ℚ) : rnd f (-q) = - rnd f q := by
  unfold rnd
  by_cases h : q = 0
  · simp [h]
  · rw [if_neg (by simpa using h), if_neg h]
    simp only [ulpExp_neg]
    rw [neg_div, rne_neg]; push_cast; ring

/-- Rounding error is at most half a unit in the last place. -/
theorem rnd_ulp (f : Fmt) (q : ℚ) : |rnd f q - q| ≤ pow2 (ulpExp f q) / 2 := by
  unfold rnd
  by_cases h : q = 0
  · simp only [h, if_true, sub_zero, abs_zero]; have := pow2_pos (ulpExp f 0); positivity
  · rw [if_neg h]
    simp only
    set u := ulpExp f q
    have hp := pow2_pos u
    have e := rne_err (q / pow2 u)
    have : (rne (q / pow2 u) : ℚ) * pow2 u - q = ((rne (q / pow2 u) : ℚ) - q / pow2 u) * pow2 u := by
      field_simp
    rw [this, abs_mul, abs_of_pos hp]
    nlinarith

/-- Relative error in the normal range. -/
theorem rnd_rel (f : Fmt) (q : ℚ) (hn : pow2 (f.emin + f.p - 1) ≤ |q|) :
    |rnd f q - q| ≤ pow2 (-(f.p : Int)) * |q| := by
  have hq : 0 < |q| := lt_of_lt_of_le (pow2_pos _) hn
  have h1 := rnd_ulp f q
  have hil : f.emin + f.p - 1 ≤ ilog2 |q| := by
    have := pow2_lt_iff.1 (lt_of_le_of_lt hn (ilog2_spec hq).2); omega
  have hu : ulpExp f q = ilog2 |q| - f.p + 1 := by unfold ulpExp; omega
  rw [hu] at h1
  have : pow2 (ilog2 |q| - f.p + 1) / 2 = pow2 (-(f.p : Int)) * pow2 (ilog2 |q|) := by
    rw [show ilog2 |q| - (f.p : Int) + 1 = -(f.p : Int) + ilog2 |q| + 1 by ring, pow2_add, pow2_add]
    have : pow2 1 = 2 := by rw [pow2_eq]; norm_num
    rw [this]; ring
  rw [this] at h1
  refine h1.trans ?_
  exact mul_le_mul_of_nonneg_left (ilog2_spec hq).1 (pow2_pos _).le

/-- Exactly representable values (ignoring overflow).
[used in proofs only; values of the types in oracle.cpp 34, galley.cpp 151, 247-343, stamp_dict.cpp 78, stamp_lottery.h 203] -/
def Rep (f : Fmt) (q : ℚ) : Prop := ∃ (m e : Int), q = m * pow2 e ∧ |m| < 2 ^ f.p ∧ f.emin ≤ e

theorem Rep.zero (f : Fmt) : Rep f 0 := ⟨0, f.emin, by simp, by simp, le_refl _⟩

theorem Rep.neg {f : Fmt} {q : ℚ} (h : Rep f q) : Rep f (-q) := by
  obtain ⟨m, e, rfl, hm, he⟩ := h
  exact ⟨-m, e, by push_cast; ring, by rwa [abs_neg], he⟩

theorem rnd_of_rep {f : Fmt} {q : ℚ} (h : Rep f q) : rnd f q = q := by
  obtain ⟨m, e, hq, hm, he⟩ := h
  by_cases h0 : q = 0
  · rw [h0, rnd_zero]
  unfold rnd
  rw [if_neg h0]
  simp only
  set u := ulpExp f q with hu
  have hq0 : 0 < |q| := abs_pos.2 h0
  have hlt : |q| < pow2 (f.p + e) := by
    rw [hq, abs_mul, abs_of_pos (pow2_pos e), pow2_add]
    apply mul_lt_mul_of_pos_right _ (pow2_pos e)
    rw [pow2_natCast, ← Int.cast_abs]
    exact_mod_cast hm
  have hil : ilog2 |q| < f.p + e := pow2_lt_iff.1 (lt_of_le_of_lt (ilog2_spec hq0).1 hlt)
  have hue : u ≤ e := by rw [hu]; unfold ulpExp; omega
  have hint : q / pow2 u = ((m * 2 ^ (e - u).toNat : Int) : ℚ) := by
    have h1 : q / pow2 u = m * pow2 (e - u) := by
      rw [hq, pow2_sub]; ring
    rw [h1, pow2_int (by omega)]
    push_cast; rfl
  rw [hint, rne_int, ← hint]
  field_simp [pow2_ne u]

/-- Integers of magnitude at most 2^p are exact. -/
theorem Rep.int {f : Fmt} (he : f.emin ≤ 0) (hp : f.p ≠ 0) {n : Int} (h : |n| ≤ 2 ^ f.p) :
    Rep f (n : ℚ) := by
  rcases lt_or_eq_of_le h with h | h
  · exact ⟨n, 0, by rw [pow2_eq]; simp, h, he⟩
  · rcases eq_or_eq_neg_of_abs_eq h with h' | h'
    · refine ⟨1, f.p, ?_, ?_, by omega⟩
      · rw [h', pow2_natCast]; push_cast; ring
      · rw [abs_one]; exact one_lt_pow₀ (by norm_num) hp
    · refine ⟨-1, f.p, ?_, ?_, by omega⟩
      · rw [h', pow2_natCast]; push_cast; ring
      · rw [abs_neg, abs_one]; exact one_lt_pow₀ (by norm_num) hp

theorem pow2_two_eq : pow2 1 = 2 := by rw [pow2_eq]; norm_num

/-- The rounded value is representable. -/
theorem rnd_rep (f : Fmt) (hp : f.p ≠ 0) (q : ℚ) : Rep f (rnd f q) := by
  by_cases h0 : q = 0
  · rw [h0, rnd_zero]; exact Rep.zero f
  unfold rnd; rw [if_neg h0]; simp only
  set u := ulpExp f q with hu
  have hq0 : 0 < |q| := abs_pos.2 h0
  have hemin : f.emin ≤ u := by rw [hu]; unfold ulpExp; omega
  have hlt : |q / pow2 u| < ((2 ^ f.p : Int) : ℚ) := by
    rw [abs_div, abs_of_pos (pow2_pos u), div_lt_iff₀ (pow2_pos u)]
    have h1 := (ilog2_spec hq0).2
    have h2 : pow2 (ilog2 |q| + 1) ≤ pow2 (f.p + u) := pow2_mono (by rw [hu]; unfold ulpExp; omega)
    rw [pow2_add (f.p : Int) u, pow2_natCast] at h2
    push_cast
    exact lt_of_lt_of_le h1 h2
  have hb := abs_lt.1 hlt
  have a1 : rne (q / pow2 u) ≤ 2 ^ f.p := rne_le_int hb.2.le
  have a2 : -2 ^ f.p ≤ rne (q / pow2 u) := int_le_rne (by push_cast; push_cast at hb; exact hb.1.le)
  rcases lt_or_eq_of_le (abs_le.2 ⟨a2, a1⟩) with h | h
  · exact ⟨_, u, rfl, h, hemin⟩
  · rcases eq_or_eq_neg_of_abs_eq h with h' | h'
    · refine ⟨1, f.p + u, ?_, ?_, by omega⟩
      · rw [h', pow2_add, pow2_natCast]; push_cast; ring
      · rw [abs_one]; exact one_lt_pow₀ (by norm_num) hp
    · refine ⟨-1, f.p + u, ?_, ?_, by omega⟩
      · rw [h', pow2_add, pow2_natCast]; push_cast; ring
      · rw [abs_neg, abs_one]; exact one_lt_pow₀ (by norm_num) hp

theorem rnd_nonneg (f : Fmt) {q : ℚ} (h : 0 ≤ q) : 0 ≤ rnd f q := by
  unfold rnd
  split
  · exact le_refl _
  · simp only
    apply mul_nonneg _ (pow2_pos _).le
    have : (0 : Int) ≤ rne (q / pow2 (ulpExp f q)) :=
      int_le_rne (by push_cast; exact div_nonneg h (pow2_pos _).le)
    exact_mod_cast this

theorem rnd_mono_pos (f : Fmt) (hp : f.p ≠ 0) {a b : ℚ} (ha : 0 < a) (h : a ≤ b) :
    rnd f a ≤ rnd f b := by
  have hb : 0 < b := lt_of_lt_of_le ha h
  unfold rnd
  rw [if_neg ha.ne', if_neg hb.ne']
  simp only
  have hil := ilog2_mono ha h
  have hua : ulpExp f a = max (ilog2 a - f.p + 1) f.emin := by unfold ulpExp; rw [abs_of_pos ha]
  have hub : ulpExp f b = max (ilog2 b - f.p + 1) f.emin := by unfold ulpExp; rw [abs_of_pos hb]
  set ua := ulpExp f a
  set ub := ulpExp f b
  have pa := pow2_pos ua
  have pb := pow2_pos ub
  by_cases hu : ua = ub
  · rw [hu]
    apply mul_le_mul_of_nonneg_right _ pb.le
    have := rne_mono (div_le_div_of_nonneg_right h pb.le)
    exact_mod_cast this
  · have hub' : ub = ilog2 b - f.p + 1 := by omega
    have hlt : ilog2 a < ilog2 b := by omega
    have hge : ua ≤ ilog2 b := by
      have : (1:Int) ≤ f.p := by omega
      omega
    have m1 : (rne (a / pow2 ua) : ℚ) * pow2 ua ≤ pow2 (ilog2 b) := by
      have hN : pow2 (ilog2 b) = ((2 ^ (ilog2 b - ua).toNat : Int) : ℚ) * pow2 ua := by
        rw [← pow2_int (by omega), ← pow2_add]; congr 1; ring
      rw [hN]
      apply mul_le_mul_of_nonneg_right _ pa.le
      have : rne (a / pow2 ua) ≤ 2 ^ (ilog2 b - ua).toNat := by
        apply rne_le_int
        rw [div_le_iff₀ pa, ← hN]
        exact ((ilog2_spec ha).2.le).trans (pow2_mono (by omega))
      exact_mod_cast this
    have m2 : pow2 (ilog2 b) ≤ (rne (b / pow2 ub) : ℚ) * pow2 ub := by
      have hN : pow2 (ilog2 b) = ((2 ^ (ilog2 b - ub).toNat : Int) : ℚ) * pow2 ub := by
        rw [← pow2_int (by omega), ← pow2_add]; congr 1; ring
      rw [hN]
      apply mul_le_mul_of_nonneg_right _ pb.le
      have : 2 ^ (ilog2 b - ub).toNat ≤ rne (b / pow2 ub) := by
        apply int_le_rne
        rw [le_div_iff₀ pb, ← hN]
        exact (ilog2_spec hb).1
      exact_mod_cast this
    exact m1.trans m2

/-- Rounding is monotone. -/
theorem rnd_mono (f : Fmt) (hp : f.p ≠ 0) {a b : ℚ} (h : a ≤ b) : rnd f a ≤ rnd f b := by
  rcases lt_trichotomy a 0 with ha | rfl | ha
  · rcases lt_or_ge b 0 with hb | hb
    · have := rnd_mono_pos f hp (a := -b) (b := -a) (by linarith) (by linarith)
      rw [rnd_neg, rnd_neg] at this; linarith
    · have h1 := rnd_nonneg f (q := -a) (by linarith)
      rw [rnd_neg] at h1
      have h2 := rnd_nonneg f hb
      linarith
  · rw [rnd_zero]; exact rnd_nonneg f h
  · exact rnd_mono_pos f hp ha h

theorem rnd_le_of_rep (f : Fmt) (hp : f.p ≠ 0) {a b : ℚ} (hb : Rep f b) (h : a ≤ b) : rnd f a ≤ b := by
  have := rnd_mono f hp h; rwa [rnd_of_rep hb] at this

theorem le_rnd_of_rep (f : Fmt) (hp : f.p ≠ 0) {a b : ℚ} (ha : Rep f a) (h : a ≤ b) : a ≤ rnd f b := by
  have := rnd_mono f hp h; rwa [rnd_of_rep ha] at this

/-- Scaling by a power of two commutes with rounding away from the subnormal range. -/
theorem Rep.mul_pow2 {f : Fmt} {q : ℚ} (h : Rep f q) {k : Int} (hk : 0 ≤ k) : Rep f (q * pow2 k) := by
  obtain ⟨m, e, rfl, hm, he⟩ := h
  exact ⟨m, e + k, by rw [pow2_add]; ring, hm, by omega⟩

/-! ## Values that stay finite -/

theorem FV.ofQ_fin {f : Fmt} {q : ℚ} (h : |rnd f q| < pow2 f.emax) : FV.ofQ f q = .fin (rnd f q) := by
  unfold FV.ofQ; simp only; rw [if_neg (not_le.2 h)]

theorem FV.ofQ_rep {f : Fmt} {q : ℚ} (hr : Rep f q) (h : |q| < pow2 f.emax) : FV.ofQ f q = .fin q := by
  have e := rnd_of_rep hr
  rw [FV.ofQ_fin (by rwa [e]), e]

theorem abs_rnd_le {f : Fmt} (hp : f.p ≠ 0) {q b : ℚ} (hb : Rep f b) (h : |q| ≤ b) : |rnd f q| ≤ b := by
  rw [abs_le] at h ⊢
  exact ⟨le_rnd_of_rep f hp hb.neg h.1, rnd_le_of_rep f hp hb h.2⟩

end BS
