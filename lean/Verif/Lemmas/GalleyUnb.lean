import Verif.Lemmas.GalleyVec
import Verif.Spec.Proportion

/-!
# Lemmas about the vector galley over an unbounded stamp
-/

set_option linter.unusedSectionVars false

namespace BS
open BlobLike

/-! ## Counting and reading the oracles -/

theorem countTarget_range {cm co : Nat} (h1 : 1 ≤ cm) (h2 : cm ≤ 65534) (ho : co ≤ 65535) :
    1 ≤ countTarget cm co ∧ countTarget cm co ≤ cm := by
  unfold countTarget
  simp only
  have hp : cm * co ≤ 65534 * 65535 := Nat.mul_le_mul h2 ho
  have e1 : toSz ((cm : Int) * co) = cm * co := by
    rw [← Nat.cast_mul]; exact toSz_natCast (by omega)
  have hq : cm * co / 65535 ≤ 65534 := by omega
  have e2 : toSz (((cm * co / 65535 : Nat) : Int) + 1) = cm * co / 65535 + 1 := by
    rw [toSz_of_nonneg (by omega) (by omega)]; omega
  rw [e1, e2]
  generalize cm * co / 65535 = q at *
  rw [Nat.mod_eq_of_lt (by omega)]
  split <;> omega

theorem lePairs_succ (n : Nat) (a : Bytes) (h : 2 ≤ a.length) :
    lePairs (n + 1) a = leNat (a.take 2) :: lePairs n (a.drop 2) := by
  match a, h with
  | x :: y :: rest, _ => simp [lePairs, leNat]

theorem sizeOracles_abs (n : Nat) (tot : Nat) (a : ABlob) (hl : 2 * n ≤ a.length)
    (ht : tot + 65535 * n ≤ INT_MAX) :
    ∃ os : List Nat, sizeOracles n (tot : Int) a = (.ok (os, ((tot + os.sum : Nat) : Int)), a.drop (2 * n)) ∧
      os.length = n ∧ (∀ o ∈ os, o ≤ 65535) ∧ os = lePairs n a := by
  induction n generalizing tot a with
  | zero => exact ⟨[], by simp [sizeOracles], rfl, by simp, by simp [lePairs]⟩
  | succ n ih =>
    unfold sizeOracles
    have ho := oracle_abs a
    rw [if_neg (by omega)] at ho
    have hlt := oracle_lt ho
    rw [M.bind_ok ho]
    have hp := lePairs_succ n a (by omega)
    generalize leNat (a.take 2) = o at *
    have e1 : (M.lift (ckInt ((tot : Int) + (o : Int))) : M ABlob Int) (a.drop 2)
        = (.ok ((tot + o : Nat) : Int), a.drop 2) := by
      rw [ckInt_ok (by omega) (by omega)]; push_cast; rfl
    rw [M.bind_ok e1]
    obtain ⟨os, e, h1, h2, h3⟩ := ih (tot + o) (a.drop 2) (by rw [List.length_drop]; omega) (by omega)
    refine ⟨o :: os, ?_, by simp [h1], ?_, by rw [hp, h3]⟩
    · rw [M.bind_ok e, List.drop_drop]
      simp only [List.sum_cons, M.pure_apply]
      rw [show 2 + 2 * n = 2 * (n + 1) by omega, show tot + o + os.sum = tot + (o + os.sum) by omega]
    · intro x hx
      rcases List.mem_cons.1 hx with rfl | hx
      · omega
      · exact h2 x hx

/-! ## Sizes of the pieces -/

/-- `(float) o / size_oracle_total * var_data_size` -/
def shareQ (T var : Nat) (o : Nat) : ℚ :=
  rnd f32 (rnd f32 ((o : ℚ) / rnd f32 (T : ℚ)) * (var : ℚ))

/-- `el_size_f` -/
def elfQ (m T var : Nat) (o : Nat) (r : ℚ) : ℚ :=
  rnd f32 (rnd f32 ((m : ℚ) + shareQ T var o) + r)

/-- The sizes computed one after the other, with the remainder carried along. -/
def unbSizes (m T var : Nat) : List Nat → ℚ → List Nat
  | [], _ => []
  | o :: os, r => ⌊elfQ m T var o r⌋.toNat ::
      unbSizes m T var os (elfQ m T var o r - ⌊elfQ m T var o r⌋)

/-- Cut a list into consecutive pieces of given sizes. -/
def cutSizes : List Nat → Bytes → List Bytes
  | [], _ => []
  | n :: ns, a => a.take n :: cutSizes ns (a.drop n)

theorem cutSizes_flatten (ns : List Nat) (a : Bytes) :
    (cutSizes ns a).flatten ++ a.drop ns.sum = a := by
  induction ns generalizing a with
  | nil => simp [cutSizes]
  | cons n ns ih =>
    simp only [cutSizes, List.flatten_cons, List.sum_cons, List.append_assoc]
    rw [← List.drop_drop, ih, List.take_append_drop]

theorem cutSizes_length (ns : List Nat) (a : Bytes) (h : ns.sum ≤ a.length) :
    (cutSizes ns a).map List.length = ns := by
  induction ns generalizing a with
  | nil => simp [cutSizes]
  | cons n ns ih =>
    rw [List.sum_cons] at h
    simp only [cutSizes, List.map_cons]
    rw [ih _ (by rw [List.length_drop]; omega), List.length_take, Nat.min_eq_left (by omega)]

section
variable {m T var o : Nat} (hT : 1 ≤ T) (hT2 : T ≤ INT_MAX) (hm : m ≤ 4194304) (hv : var ≤ 4194304)
  (ho : o ≤ T)
include hT hT2 ho

/-- Bounds on the ratio. -/
theorem ratio32 : 0 ≤ rnd f32 ((o : ℚ) / rnd f32 (T : ℚ)) ∧
    |rnd f32 ((o : ℚ) / rnd f32 (T : ℚ)) - (o : ℚ) / T| ≤ (o : ℚ) / T * (21 / 10 / 2 ^ 24) + 1 / 2 ^ 100 := by
  have hT' := rnd32_nat_ge_one hT
  have hTq : (1 : ℚ) ≤ T := by exact_mod_cast hT
  have e0 := rnd32_rel (q := (T : ℚ)) (Or.inr (by
    rw [abs_of_nonneg (by linarith)]
    refine le_trans (b := pow2 0) (pow2_mono (by norm_num)) ?_
    rw [pow2_eq]; simpa using hTq))
  rw [abs_of_nonneg (by linarith : (0 : ℚ) ≤ T)] at e0
  obtain ⟨e0a, e0b⟩ := abs_le.1 e0
  set T' := rnd f32 (T : ℚ)
  have ho0 : (0 : ℚ) ≤ o := by positivity
  set y := (o : ℚ) / T' with hy
  have hy0 : 0 ≤ y := by positivity
  refine ⟨rnd_nonneg _ hy0, ?_⟩
  have e1 := rnd32_err y
  rw [abs_of_nonneg hy0] at e1
  set x := (o : ℚ) / T with hx
  have hx0 : 0 ≤ x := by positivity
  have hxy : |y - x| ≤ x * (101 / 100 / 2 ^ 24) := by
    have hyT : y * T' = o := by rw [hy]; field_simp
    have hxT : x * T = o := by rw [hx]; field_simp
    have hTpos : (0 : ℚ) < T := by linarith
    rw [abs_le]
    constructor
    · -- x - y ≤ x * c : from y * T' = x * T
      by_contra hc
      push Not at hc
      have h1 : y < x * (1 - 101 / 100 / 2 ^ 24) := by linarith
      have h2 : y * T' ≤ x * (1 - 101 / 100 / 2 ^ 24) * (T * (1 + 1 / 2 ^ 24)) := by
        have : T' ≤ T * (1 + 1 / 2 ^ 24) := by linarith
        have hnn : 0 ≤ x * (1 - 101 / 100 / 2 ^ 24) := by
          apply mul_nonneg hx0; norm_num
        exact mul_le_mul h1.le this (by linarith) hnn
      have h3 : x * (1 - 101 / 100 / 2 ^ 24) * (T * (1 + 1 / 2 ^ 24))
          = x * T * ((1 - 101 / 100 / 2 ^ 24) * (1 + 1 / 2 ^ 24)) := by ring
      have h4 : (1 - 101 / 100 / 2 ^ 24 : ℚ) * (1 + 1 / 2 ^ 24) < 1 := by norm_num
      rw [hyT, h3, hxT] at h2
      have : (o : ℚ) ≤ 0 := by nlinarith
      have : (o : ℚ) = 0 := by linarith
      rw [hy, this] at h1
      rw [hx, this] at h1
      simp at h1
    · by_contra hc
      push Not at hc
      have h1 : x * (1 + 101 / 100 / 2 ^ 24) < y := by linarith
      have hnn : 0 ≤ x * (1 + 101 / 100 / 2 ^ 24) := by positivity
      have h2 : x * (1 + 101 / 100 / 2 ^ 24) * (T * (1 - 1 / 2 ^ 24)) ≤ y * T' := by
        have : T * (1 - 1 / 2 ^ 24) ≤ T' := by linarith
        exact mul_le_mul h1.le this (by
          apply mul_nonneg hTpos.le; norm_num) hy0
      have h3 : x * (1 + 101 / 100 / 2 ^ 24) * (T * (1 - 1 / 2 ^ 24))
          = x * T * ((1 + 101 / 100 / 2 ^ 24) * (1 - 1 / 2 ^ 24)) := by ring
      have h4 : 1 < (1 + 101 / 100 / 2 ^ 24 : ℚ) * (1 - 1 / 2 ^ 24) := by norm_num
      rw [hyT, h3, hxT] at h2
      have : (o : ℚ) ≤ 0 := by nlinarith
      have : (o : ℚ) = 0 := by linarith
      rw [hy, this] at h1
      rw [hx, this] at h1
      simp at h1
  obtain ⟨a1, a2⟩ := abs_le.1 e1
  obtain ⟨b1, b2⟩ := abs_le.1 hxy
  have hyx : y ≤ x * (1 + 101 / 100 / 2 ^ 24) := by linarith
  have c : y / 2 ^ 24 ≤ x * (108 / 100 / 2 ^ 24) := by
    have : y / 2 ^ 24 ≤ x * (1 + 101 / 100 / 2 ^ 24) / 2 ^ 24 := by
      apply div_le_div_of_nonneg_right hyx; norm_num
    refine this.trans ?_
    have : x * (1 + 101 / 100 / 2 ^ 24) / 2 ^ 24 = x * ((1 + 101 / 100 / 2 ^ 24) / 2 ^ 24) := by ring
    rw [this]
    apply mul_le_mul_of_nonneg_left _ hx0
    norm_num
  have d : x * (21 / 10 / 2 ^ 24) ≥ x * (101 / 100 / 2 ^ 24) + x * (108 / 100 / 2 ^ 24) := by
    rw [← mul_add]; apply mul_le_mul_of_nonneg_left _ hx0; norm_num
  rw [abs_le]
  constructor <;> linarith

include hv

/-- Bounds on the share. -/
theorem share32 : 0 ≤ shareQ T var o ∧
    |shareQ T var o - (o : ℚ) / T * var| ≤ (o : ℚ) / T * var * (311 / 100 / 2 ^ 24) + 1 / 2 ^ 70 := by
  obtain ⟨r0, r1⟩ := ratio32 hT hT2 ho
  unfold shareQ
  set r := rnd f32 ((o : ℚ) / rnd f32 (T : ℚ))
  set x := (o : ℚ) / T with hx
  have hTq : (1 : ℚ) ≤ T := by exact_mod_cast hT
  have hx0 : 0 ≤ x := by positivity
  have hv0 : (0 : ℚ) ≤ var := by positivity
  have hvq : (var : ℚ) ≤ 4194304 := by exact_mod_cast hv
  have hrv : 0 ≤ r * var := mul_nonneg r0 hv0
  refine ⟨rnd_nonneg _ hrv, ?_⟩
  have e := rnd32_err (r * var)
  rw [abs_of_nonneg hrv] at e
  obtain ⟨a1, a2⟩ := abs_le.1 e
  obtain ⟨b1, b2⟩ := abs_le.1 r1
  -- multiply the ratio bound by var
  have c1 : r * var ≤ x * var + x * var * (21 / 10 / 2 ^ 24) + 1 / 2 ^ 78 := by
    have h1 : r ≤ x + x * (21 / 10 / 2 ^ 24) + 1 / 2 ^ 100 := by linarith
    have h2 := mul_le_mul_of_nonneg_right h1 hv0
    have h3 : (1 / 2 ^ 100 : ℚ) * var ≤ 1 / 2 ^ 78 := by
      calc (1 / 2 ^ 100 : ℚ) * var ≤ 1 / 2 ^ 100 * 4194304 := mul_le_mul_of_nonneg_left hvq (by norm_num)
        _ = _ := by norm_num
    nlinarith
  have c2 : x * var - x * var * (21 / 10 / 2 ^ 24) - 1 / 2 ^ 78 ≤ r * var := by
    have h1 : x - x * (21 / 10 / 2 ^ 24) - 1 / 2 ^ 100 ≤ r := by linarith
    have h2 := mul_le_mul_of_nonneg_right h1 hv0
    have h3 : (1 / 2 ^ 100 : ℚ) * var ≤ 1 / 2 ^ 78 := by
      calc (1 / 2 ^ 100 : ℚ) * var ≤ 1 / 2 ^ 100 * 4194304 := mul_le_mul_of_nonneg_left hvq (by norm_num)
        _ = _ := by norm_num
    nlinarith
  have hxv : 0 ≤ x * var := mul_nonneg hx0 hv0
  set w := x * var
  set z := r * var
  have c3 : z / 2 ^ 24 ≤ w * (101 / 100 / 2 ^ 24) + 1 / 2 ^ 78 := by
    have h1 : z / 2 ^ 24 ≤ (w + w * (21 / 10 / 2 ^ 24) + 1 / 2 ^ 78) / 2 ^ 24 :=
      div_le_div_of_nonneg_right c1 (by norm_num)
    refine h1.trans ?_
    have h2 : (w + w * (21 / 10 / 2 ^ 24) + 1 / 2 ^ 78) / 2 ^ 24
        = w * ((1 + 21 / 10 / 2 ^ 24) / 2 ^ 24) + 1 / 2 ^ 78 / 2 ^ 24 := by ring
    rw [h2]
    apply add_le_add
    · apply mul_le_mul_of_nonneg_left _ hxv; norm_num
    · norm_num
  have n1 : (1 : ℚ) / 2 ^ 78 + 1 / 2 ^ 78 + 1 / 2 ^ 100 ≤ 1 / 2 ^ 70 := by norm_num
  have n2 : w * (21 / 10 / 2 ^ 24) + w * (101 / 100 / 2 ^ 24) = w * (311 / 100 / 2 ^ 24) := by ring
  rw [abs_le]
  constructor <;> linarith

include hm

/-- One size: at least `m`, and off the ideal by a small amount. -/
theorem elf32 {r : ℚ} (hr0 : 0 ≤ r) (hr1 : r < 1) :
    (m : ℚ) ≤ elfQ m T var o r ∧
    |elfQ m T var o r - r - m - (o : ℚ) / T * var|
      ≤ ((o : ℚ) / T * var * (52 / 10) + m * (21 / 10) + 12 / 10) / 2 ^ 24 ∧
    elfQ m T var o r ≤ 9000000 := by
  obtain ⟨s0, s1⟩ := share32 hT hT2 hv ho
  unfold elfQ
  set s := shareQ T var o
  have hTq : (1 : ℚ) ≤ T := by exact_mod_cast hT
  have hoq : (o : ℚ) ≤ T := by exact_mod_cast ho
  have hx1 : (o : ℚ) / T ≤ 1 := by rw [div_le_one (by linarith)]; exact hoq
  have hx0 : 0 ≤ (o : ℚ) / T := by positivity
  have hv0 : (0 : ℚ) ≤ var := by positivity
  have hvq : (var : ℚ) ≤ 4194304 := by exact_mod_cast hv
  have hm0 : (0 : ℚ) ≤ m := by positivity
  have hmq : (m : ℚ) ≤ 4194304 := by exact_mod_cast hm
  have hw0 : 0 ≤ (o : ℚ) / T * var := mul_nonneg hx0 hv0
  have hw1 : (o : ℚ) / T * var ≤ 4194304 := by nlinarith
  set w := (o : ℚ) / T * var
  obtain ⟨a1, a2⟩ := abs_le.1 s1
  have e1 := rnd32_err ((m : ℚ) + s)
  have hms : 0 ≤ (m : ℚ) + s := by linarith
  rw [abs_of_nonneg hms] at e1
  obtain ⟨b1, b2⟩ := abs_le.1 e1
  have z0 : (m : ℚ) ≤ rnd f32 ((m : ℚ) + s) :=
    le_rnd_of_rep f32 f32_p (rep32_nat (by omega)) (by linarith)
  set z := rnd f32 ((m : ℚ) + s)
  have hzr : 0 ≤ z + r := by linarith
  have e2 := rnd32_err (z + r)
  rw [abs_of_nonneg hzr] at e2
  obtain ⟨c1, c2⟩ := abs_le.1 e2
  have y0 : (m : ℚ) ≤ rnd f32 (z + r) :=
    le_rnd_of_rep f32 f32_p (rep32_nat (by omega)) (by linarith)
  set y := rnd f32 (z + r)
  have hpos : (0 : ℚ) < 2 ^ 24 := by norm_num
  -- everything multiplied out
  have hs2 : s ≤ w * (1 + 4 / 2 ^ 24) + 1 / 2 ^ 70 := by
    have : w * (311 / 100 / 2 ^ 24) ≤ w * (4 / 2 ^ 24) := by
      apply mul_le_mul_of_nonneg_left _ hw0; norm_num
    linarith
  have hz2 : z ≤ (m + s) * (1 + 1 / 2 ^ 24) + 1 / 2 ^ 100 := by linarith
  refine ⟨y0, ?_, ?_⟩
  · rw [abs_le]
    norm_num at a1 a2 b1 b2 c1 c2 hs2 ⊢
    constructor <;> linarith
  · norm_num at a2 b2 c2 hs2 ⊢; linarith

end

/-- The total of the sizes. -/
theorem unbSizes_sum {m T var : Nat} (hT : 1 ≤ T) (hT2 : T ≤ INT_MAX) (hm : m ≤ 4194304)
    (hv : var ≤ 4194304) (os : List Nat) (hos : ∀ o ∈ os, o ≤ T) (r : ℚ) (hr0 : 0 ≤ r) (hr1 : r < 1) :
    ((unbSizes m T var os r).sum : ℚ) ≤ m * os.length + (os.sum : ℚ) / T * var + r +
      ((os.sum : ℚ) / T * var * (52 / 10) + os.length * (m * (21 / 10) + 12 / 10)) / 2 ^ 24 ∧
    m * os.length + (os.sum : ℚ) / T * var + r - 1 -
      ((os.sum : ℚ) / T * var * (52 / 10) + os.length * (m * (21 / 10) + 12 / 10)) / 2 ^ 24
      < ((unbSizes m T var os r).sum : ℚ) := by
  induction os generalizing r with
  | nil =>
    simp only [unbSizes, List.sum_nil, List.length_nil, Nat.cast_zero, zero_div, zero_mul, mul_zero,
      add_zero]
    constructor <;> linarith
  | cons o os ih =>
    obtain ⟨e1, e2, e3⟩ := elf32 (m := m) hT hT2 hm hv (hos o (by simp)) hr0 hr1
    simp only [unbSizes, List.sum_cons, List.length_cons]
    set y := elfQ m T var o r
    have hm0 : (0 : ℚ) ≤ m := by positivity
    have hf1 := Int.floor_le y
    have hf2 := Int.lt_floor_add_one y
    have hf0 : 0 ≤ ⌊y⌋ := Int.floor_nonneg.2 (by linarith)
    obtain ⟨i1, i2⟩ := ih (fun o' h => hos o' (by simp [h])) (y - ⌊y⌋) (by linarith) (by linarith)
    have hcast : ((⌊y⌋.toNat : Nat) : ℚ) = (⌊y⌋ : ℚ) := by
      have : ((⌊y⌋.toNat : Nat) : Int) = ⌊y⌋ := Int.toNat_of_nonneg hf0
      exact_mod_cast this
    obtain ⟨a1, a2⟩ := abs_le.1 e2
    push_cast
    rw [hcast]
    have hsplit : ((o : ℚ) + (os.sum : ℚ)) / T * var = (o : ℚ) / T * var + (os.sum : ℚ) / T * var := by
      ring
    rw [hsplit]
    set w := (o : ℚ) / T * var
    set W := (os.sum : ℚ) / T * var
    constructor
    · have : ((w + W) * (52 / 10) + ((os.length : ℚ) + 1) * (m * (21 / 10) + 12 / 10)) / 2 ^ 24
          = (w * (52 / 10) + m * (21 / 10) + 12 / 10) / 2 ^ 24
            + (W * (52 / 10) + os.length * (m * (21 / 10) + 12 / 10)) / 2 ^ 24 := by ring
      rw [this]
      linarith
    · have : ((w + W) * (52 / 10) + ((os.length : ℚ) + 1) * (m * (21 / 10) + 12 / 10)) / 2 ^ 24
          = (w * (52 / 10) + m * (21 / 10) + 12 / 10) / 2 ^ 24
            + (W * (52 / 10) + os.length * (m * (21 / 10) + 12 / 10)) / 2 ^ 24 := by ring
      rw [this]
      linarith

theorem unbSizes_ge {m T var : Nat} (hT : 1 ≤ T) (hT2 : T ≤ INT_MAX) (hm : m ≤ 4194304)
    (hv : var ≤ 4194304) (os : List Nat) (hos : ∀ o ∈ os, o ≤ T) (r : ℚ) (hr0 : 0 ≤ r) (hr1 : r < 1) :
    ∀ n ∈ unbSizes m T var os r, m ≤ n := by
  induction os generalizing r with
  | nil => simp [unbSizes]
  | cons o os ih =>
    obtain ⟨e1, e2, e3⟩ := elf32 (m := m) hT hT2 hm hv (hos o (by simp)) hr0 hr1
    simp only [unbSizes]
    set y := elfQ m T var o r
    have hf1 := Int.floor_le y
    have hf2 := Int.lt_floor_add_one y
    have hf0 : (m : Int) ≤ ⌊y⌋ := Int.le_floor.2 (by exact_mod_cast e1)
    intro n hn
    rcases List.mem_cons.1 hn with rfl | hn
    · omega
    · exact ih (fun o' h => hos o' (by simp [h])) (y - ⌊y⌋) (by linarith) (by linarith) n hn

theorem unbSizes_length (m T var : Nat) (os : List Nat) (r : ℚ) :
    (unbSizes m T var os r).length = os.length := by
  induction os generalizing r with
  | nil => rfl
  | cons o os ih => simp [unbSizes, ih]

/-- The chopping loop cuts the computed sizes. -/
theorem unbChopLoop_abs {m T var : Nat} (hT : 1 ≤ T) (hT2 : T ≤ INT_MAX) (hm : m ≤ 4194304)
    (hv : var ≤ 4194304) (os : List Nat) (hos : ∀ o ∈ os, o ≤ T ∧ o ≤ 65535) (r : ℚ) (hr0 : 0 ≤ r) (hr1 : r < 1)
    (a : ABlob) (hs : (unbSizes m T var os r).sum ≤ a.length) :
    unbChopLoop (m : Int) (T : Int) (var : Int) os (.fin r) a =
      (.ok (cutSizes (unbSizes m T var os r) a), a.drop (unbSizes m T var os r).sum) := by
  induction os generalizing r a with
  | nil => simp [unbSizes, unbChopLoop, cutSizes]
  | cons o os ih =>
    obtain ⟨ho, ho2⟩ := hos o (by simp)
    obtain ⟨e1, e2, e3⟩ := elf32 (m := m) hT hT2 hm hv ho hr0 hr1
    obtain ⟨r0, r1⟩ := ratio32 hT hT2 ho
    obtain ⟨s0, s1⟩ := share32 hT hT2 hv ho
    have hTq : (1 : ℚ) ≤ T := by exact_mod_cast hT
    have hTq2 : (T : ℚ) ≤ 2147483647 := by exact_mod_cast hT2
    have hoq : (o : ℚ) ≤ T := by exact_mod_cast ho
    have hx1 : (o : ℚ) / T ≤ 1 := by rw [div_le_one (by linarith)]; exact hoq
    have hx0 : 0 ≤ (o : ℚ) / T := by positivity
    have hv0 : (0 : ℚ) ≤ var := by positivity
    have hvq : (var : ℚ) ≤ 4194304 := by exact_mod_cast hv
    have hm0 : (0 : ℚ) ≤ m := by positivity
    have hmq : (m : ℚ) ≤ 4194304 := by exact_mod_cast hm
    have hw1 : (o : ℚ) / T * var ≤ 4194304 := by nlinarith
    have hw0 : 0 ≤ (o : ℚ) / T * var := mul_nonneg hx0 hv0
    have hT'1 := rnd32_nat_ge_one hT
    have big : (4194304 : ℚ) ≤ 2 ^ 100 := by norm_num
    have hr1' : rnd f32 ((o : ℚ) / rnd f32 (T : ℚ)) ≤ 2 := by
      have := (abs_le.1 r1).2
      have : (o : ℚ) / T * (21 / 10 / 2 ^ 24) ≤ 1 * (21 / 10 / 2 ^ 24) :=
        mul_le_mul_of_nonneg_right hx1 (by norm_num)
      have h4 : (1 : ℚ) * (21 / 10 / 2 ^ 24) + 1 / 2 ^ 100 ≤ 1 := by norm_num
      linarith
    have hsh : shareQ T var o ≤ 5000000 := by
      have := (abs_le.1 s1).2
      have : (o : ℚ) / T * var * (311 / 100 / 2 ^ 24) ≤ 4194304 * (311 / 100 / 2 ^ 24) :=
        mul_le_mul_of_nonneg_right hw1 (by norm_num)
      have h4 : (4194304 : ℚ) * (311 / 100 / 2 ^ 24) + 1 / 2 ^ 70 ≤ 100 := by norm_num
      linarith
    have t1 : FV.ofInt f32 (o : Int) = .fin (o : ℚ) := by
      unfold FV.ofInt
      have h := ofQ32_rep (q := ((o : Nat) : ℚ)) (by
        rw [abs_of_nonneg (by positivity)]
        have : (o : ℚ) ≤ 65535 := by exact_mod_cast ho2
        norm_num; linarith) (rep32_nat (by omega))
      exact_mod_cast h
    have t2 : FV.ofInt f32 (T : Int) = .fin (rnd f32 (T : ℚ)) := by
      unfold FV.ofInt
      have h := ofQ32 (q := ((T : Nat) : ℚ)) (by
        rw [abs_of_nonneg (by positivity)]; norm_num; linarith)
      exact_mod_cast h
    have t3 : FV.ofInt f32 (var : Int) = .fin (var : ℚ) := by
      unfold FV.ofInt
      have h := ofQ32_rep (q := ((var : Nat) : ℚ)) (by
        rw [abs_of_nonneg (by positivity)]; norm_num; linarith) (rep32_nat (by omega))
      exact_mod_cast h
    have t4 : FV.ofInt f32 (m : Int) = .fin (m : ℚ) := by
      unfold FV.ofInt
      have h := ofQ32_rep (q := ((m : Nat) : ℚ)) (by
        rw [abs_of_nonneg (by positivity)]; norm_num; linarith) (rep32_nat (by omega))
      exact_mod_cast h
    have t5 : FV.add f32 (FV.add f32 (.fin (m : ℚ)) (FV.mul f32 (FV.div f32 (.fin (o : ℚ))
        (.fin (rnd f32 (T : ℚ)))) (.fin (var : ℚ)))) (.fin r) = .fin (elfQ m T var o r) := by
      rw [FV.div_fin _ _ (by linarith), ofQ32 (by
          rw [abs_of_nonneg (by positivity), div_le_iff₀ (by linarith)]
          have h1 : (o : ℚ) ≤ 65535 := by exact_mod_cast ho2
          have h2 : (2 : ℚ) ^ 100 * 1 ≤ 2 ^ 100 * rnd f32 (T : ℚ) :=
            mul_le_mul_of_nonneg_left hT'1 (by norm_num)
          have h3 : (65535 : ℚ) ≤ 2 ^ 100 * 1 := by norm_num
          exact h1.trans (h3.trans h2)),
        FV.mul_fin, ofQ32 (by
          rw [abs_of_nonneg (mul_nonneg r0 hv0)]
          calc _ ≤ (2 : ℚ) * 4194304 := mul_le_mul hr1' hvq hv0 (by norm_num)
            _ ≤ _ := by norm_num),
        FV.add_fin, ofQ32 (by
          show |(m : ℚ) + shareQ T var o| ≤ _
          rw [abs_of_nonneg (by linarith)]; norm_num; linarith), FV.add_fin, ofQ32]
      · rfl
      · have hz := abs_rnd_le f32_p (b := ((16777216 : Nat) : ℚ)) (q := (m : ℚ) + shareQ T var o)
          (rep32_nat (by norm_num)) (by
            rw [abs_of_nonneg (by linarith)]; push_cast; linarith)
        have hz0 : 0 ≤ rnd f32 ((m : ℚ) + shareQ T var o) := rnd_nonneg _ (by linarith)
        rw [abs_of_nonneg hz0] at hz
        show |rnd f32 ((m : ℚ) + shareQ T var o) + r| ≤ _
        rw [abs_of_nonneg (by linarith)]
        push_cast at hz
        norm_num; linarith
    set y := elfQ m T var o r with hy
    have hyrep : Rep f32 y := rnd_rep f32 f32_p _
    have hy0 : 0 ≤ y := by linarith
    have hf1 := Int.floor_le y
    have hf2 := Int.lt_floor_add_one y
    have hf0 : 0 ≤ ⌊y⌋ := Int.floor_nonneg.2 hy0
    have hf3 : ⌊y⌋ ≤ 9000000 := by
      have : (⌊y⌋ : ℚ) ≤ (9000000 : Int) := by push_cast; linarith
      exact_mod_cast this
    obtain ⟨p1, p2⟩ := hyrep.floor_frac (by decide) hy0
    have t6 : FV.toCInt (.fin y) = .ok ⌊y⌋ := by
      show (if (-W31 : Int) ≤ truncQ y ∧ truncQ y ≤ W31 - 1 then Out.ok (truncQ y) else .ub .floatToInt) = _
      have : truncQ y = ⌊y⌋ := by unfold truncQ; rw [if_pos hy0]
      rw [this, if_pos ⟨by omega, by omega⟩]
    have t7 : FV.ofInt f32 ⌊y⌋ = .fin (⌊y⌋ : ℚ) := by
      unfold FV.ofInt
      refine ofQ32_rep ?_ p1
      rw [abs_of_nonneg (by exact_mod_cast hf0)]
      norm_num; linarith
    have t8 : FV.sub f32 (.fin y) (.fin (⌊y⌋ : ℚ)) = .fin (y - ⌊y⌋) := by
      rw [FV.sub_fin]
      refine ofQ32_rep ?_ p2
      rw [abs_of_nonneg (sub_nonneg.2 hf1)]
      exact le_trans (b := (1 : ℚ)) (by linarith) (by norm_num)
    simp only [unbSizes, List.sum_cons] at hs ⊢
    rw [← hy] at hs ⊢
    simp only [unbChopLoop, cutSizes]
    rw [t1, t2, t3, t4, t5]
    have u1 : (M.lift (FV.toCInt (.fin y)) : M ABlob Int) a = (.ok ⌊y⌋, a) := by rw [t6]; rfl
    rw [M.bind_ok u1, t7, t8]
    have u2 : toSz ⌊y⌋ = ⌊y⌋.toNat := toSz_of_nonneg hf0 (by omega)
    rw [u2]
    set n := ⌊y⌋.toNat
    have u3 : (chop n : M ABlob ABlob) a = (.ok (a.take n), a.drop n) := by
      rw [chop_abs, if_neg (by omega)]
    rw [M.bind_ok u3, M.bind_ok (ih (fun o' h => hos o' (by simp [h])) (y - ⌊y⌋) (by linarith)
      (by linarith) (a.drop n) (by rw [List.length_drop]; omega)), List.drop_drop]
    rfl

/-- The whole split over an unbounded stamp, with the sizes. -/
theorem vecUnbounded_full {m : Nat} (a : ABlob) (hS : a.length ≤ 3000000) (hmin : m + 4 ≤ a.length)
    (hc : (a.length - 2) / (m + 2) ≤ 32768) :
    ∃ (parts : List ABlob) (left : ABlob),
      vecUnbounded (m : Int) a = (.ok parts, left) ∧ 1 ≤ parts.length ∧
      parts.length = countTarget ((a.length - 2) / (m + 2)) (leNat (a.take 2)) ∧
      parts.flatten ++ left = a.drop (2 + 2 * parts.length) ∧ left.length ≤ 1 ∧
      2 + 2 * parts.length ≤ a.length ∧ (∀ p ∈ parts, m ≤ p.length) ∧
      ∃ os : List Nat, os.length = parts.length ∧ 1 ≤ os.sum ∧ (∀ o ∈ os, o ≤ 65535) ∧
        os = weightsOf parts.length (a.drop 2) ∧
        parts.map List.length = unbSizes m os.sum (a.length - (2 + 2 * parts.length) - m * parts.length) os 0 := by
  have hm4 : m ≤ 4194304 := by omega
  unfold vecUnbounded
  rw [M.bind_ok (M.get_apply a)]
  have d1 : toSz ((toSz (m : Int) : Int) + 2) = m + 2 := by
    rw [toSz_natCast (by omega), toSz_of_nonneg (by omega) (by omega)]; omega
  have d2 : toSz ((BlobLike.size a : Int) - 2) = a.length - 2 := by
    rw [size_abs, toSz_of_nonneg (by omega) (by omega)]; omega
  simp only
  rw [d1, d2, if_neg (by omega)]
  have ho := oracle_abs a
  rw [if_neg (by omega)] at ho
  have hlt := oracle_lt ho
  rw [M.bind_ok ho]
  set cm := (a.length - 2) / (m + 2) with hcm
  clear_value cm
  have hcm1 : 1 ≤ cm := by rw [hcm, Nat.le_div_iff_mul_le (by omega)]; omega
  obtain ⟨c1, c2⟩ := countTarget_range (cm := cm) (co := leNat (a.take 2)) hcm1 (by omega) (by omega)
  set ct := countTarget cm (leNat (a.take 2)) with hct
  clear_value ct
  have hmul : ct * (m + 2) ≤ a.length - 2 := by
    calc ct * (m + 2) ≤ cm * (m + 2) := Nat.mul_le_mul_right _ c2
      _ ≤ _ := by rw [hcm]; exact Nat.div_mul_le_self _ _
  have hmul' : ct * (m + 2) = m * ct + 2 * ct := by ring
  have hdl : (a.drop 2).length = a.length - 2 := List.length_drop
  obtain ⟨os, e, hlen, hos, hosP⟩ := sizeOracles_abs ct 0 (a.drop 2) (by omega) (by omega)
  have e' : sizeOracles ct 0 (a.drop 2) = (.ok (os, ((os.sum : Nat) : Int)), a.drop (2 + 2 * ct)) := by
    have := e
    rw [List.drop_drop, Nat.zero_add] at this
    exact_mod_cast this
  rw [M.bind_ok e', M.bind_ok (M.get_apply _)]
  have hsum : os.sum ≤ 65535 * ct := by
    rw [← hlen]
    clear e e' hlen hosP
    induction os with
    | nil => simp
    | cons o os ih =>
      have := hos o (by simp)
      have := ih (fun x hx => hos x (by simp [hx]))
      simp only [List.sum_cons, List.length_cons]; omega
  -- the oracles finally used
  obtain ⟨os', T, hos', hT', hT1, hT2, hlen', hsum', hle', hw'⟩ : ∃ (os' : List Nat) (T : Nat),
      (if ((os.sum : Nat) : Int) = 0 then List.replicate ct 1 else os) = os' ∧
      (if ((os.sum : Nat) : Int) = 0 then (ct : Int) else ((os.sum : Nat) : Int)) = (T : Int) ∧
      1 ≤ T ∧ T ≤ INT_MAX ∧ os'.length = ct ∧ os'.sum = T ∧ (∀ o ∈ os', o ≤ T ∧ o ≤ 65535) ∧
      os' = weightsOf ct (a.drop 2) := by
    unfold weightsOf
    rw [← hosP]
    by_cases h0 : os.sum = 0
    · refine ⟨List.replicate ct 1, ct, by rw [if_pos (by omega)], by rw [if_pos (by omega)], c1,
        by omega, by simp, by simp, ?_, by rw [if_pos h0]⟩
      intro o ho'
      rw [List.mem_replicate] at ho'
      omega
    · refine ⟨os, os.sum, by rw [if_neg (by omega)], by rw [if_neg (by omega)], by omega, by omega,
        hlen, rfl, ?_, by rw [if_neg h0]⟩
      intro o ho'
      exact ⟨List.le_sum_of_mem ho', hos o ho'⟩
  simp only
  rw [hos', hT']
  clear hos' hT'
  set a' : ABlob := a.drop (2 + 2 * ct) with ha'
  clear_value a'
  have hal : a'.length = a.length - (2 + 2 * ct) := by rw [ha', List.length_drop]
  have e3 : (M.lift (ckInt ((m : Int) * (ct : Int))) : M ABlob Int) a' = (.ok ((m * ct : Nat) : Int), a') := by
    have : (m : Int) * (ct : Int) = ((m * ct : Nat) : Int) := by push_cast; rfl
    rw [this, ckInt_ok (by omega) (by omega)]; rfl
  rw [M.bind_ok e3]
  set var := a'.length - m * ct with hvar
  clear_value var
  have hPL : m * ct ≤ a'.length := by omega
  have hv4 : var ≤ 4194304 :=
    (hvar.le.trans (Nat.sub_le _ _)).trans ((hal.le.trans (Nat.sub_le _ _)).trans (hS.trans (by norm_num)))
  have e4 : (M.lift (ckInt (wrap32 (BlobLike.size a' : Int) - ((m * ct : Nat) : Int))) : M ABlob Int) a'
      = (.ok (var : Int), a') := by
    have hw : wrap32 (BlobLike.size a' : Int) = (a'.length : Int) :=
      wrap32_of_fits (by rw [size_abs]; omega) (by rw [size_abs]; omega)
    have : (a'.length : Int) - ((m * ct : Nat) : Int) = (var : Int) := by rw [hvar, Nat.cast_sub hPL]
    rw [hw, this, ckInt_ok (le_trans (by norm_num) (Int.natCast_nonneg var))
      (lt_of_le_of_lt (Int.ofNat_le.2 hv4) (by norm_num))]; rfl
  rw [M.bind_ok e4]
  obtain ⟨b1, b2⟩ := unbSizes_sum (m := m) (var := var) hT1 hT2 hm4 hv4 os' (fun o h => (hle' o h).1) 0
    (le_refl _) (by norm_num)
  have hTq : (1 : ℚ) ≤ T := by exact_mod_cast hT1
  rw [hsum', hlen', div_self (by linarith), one_mul] at b1 b2
  set N := (unbSizes m T var os' 0).sum with hN
  -- the error is below one
  have herr : ((var : ℚ) * (52 / 10) + (ct : ℚ) * ((m : ℚ) * (21 / 10) + 12 / 10)) / 2 ^ 24 < 1 := by
    have h1 : (var : ℚ) + (m : ℚ) * ct ≤ 3000000 := by exact_mod_cast (by omega : var + m * ct ≤ 3000000)
    have h2 : (ct : ℚ) ≤ 32768 := by exact_mod_cast (by omega : ct ≤ 32768)
    have h3 : (0 : ℚ) ≤ (m : ℚ) * ct := by positivity
    have h4 : (0 : ℚ) ≤ var := by positivity
    rw [div_lt_one (by norm_num)]
    norm_num
    nlinarith
  have hD : (m : ℚ) * ct + var = (a'.length : ℚ) := by
    exact_mod_cast (by omega : m * ct + var = a'.length)
  have hup : N ≤ a'.length := by
    have : (N : ℚ) < ((a'.length + 1 : Nat) : ℚ) := by push_cast; linarith
    have : N < a'.length + 1 := by exact_mod_cast this
    omega
  have hlo : a'.length ≤ N + 1 := by
    have : (a'.length : ℚ) < ((N + 2 : Nat) : ℚ) := by push_cast; linarith
    have : a'.length < N + 2 := by exact_mod_cast this
    omega
  rw [unbChopLoop_abs hT1 hT2 hm4 hv4 os' hle' 0 (le_refl _) (by norm_num) a' hup]
  have hpl : (cutSizes (unbSizes m T var os' 0) a').length = ct := by
    have := congrArg List.length (cutSizes_length _ a' hup)
    rwa [List.length_map, unbSizes_length, hlen'] at this
  refine ⟨_, _, rfl, by rw [hpl]; exact c1, hpl, ?_, ?_, by omega, ?_, os', by rw [hpl, hlen'], by omega,
    fun o h => (hle' o h).2, by rw [hpl]; exact hw', ?_⟩
  · rw [hpl, ← ha']; exact cutSizes_flatten _ _
  · rw [List.length_drop]; omega
  · intro p hp
    have : p.length ∈ unbSizes m T var os' 0 := by
      rw [← cutSizes_length _ a' hup]; exact List.mem_map_of_mem hp
    exact unbSizes_ge hT1 hT2 hm4 hv4 os' (fun o h => (hle' o h).1) 0 (le_refl _) (by norm_num) _ this
  · rw [cutSizes_length _ a' hup, hsum', hpl, hvar, hal]

/-- The whole split over an unbounded stamp. -/
theorem vecUnbounded_abs {m : Nat} (a : ABlob) (hS : a.length ≤ 3000000) (hmin : m + 4 ≤ a.length)
    (hc : (a.length - 2) / (m + 2) ≤ 32768) :
    ∃ (parts : List ABlob) (left : ABlob),
      vecUnbounded (m : Int) a = (.ok parts, left) ∧ 1 ≤ parts.length ∧
      parts.length = countTarget ((a.length - 2) / (m + 2)) (leNat (a.take 2)) ∧
      parts.flatten ++ left = a.drop (2 + 2 * parts.length) ∧ left.length ≤ 1 ∧
      2 + 2 * parts.length ≤ a.length ∧ ∀ p ∈ parts, m ≤ p.length := by
  obtain ⟨parts, left, h1, h2, h3, h4, h5, h6, h7, -⟩ := vecUnbounded_full a hS hmin hc
  exact ⟨parts, left, h1, h2, h3, h4, h5, h6, h7⟩

end BS
