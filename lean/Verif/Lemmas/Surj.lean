import Verif.Lemmas.Dict

/-!
# Every index of a list can be drawn
-/

namespace BS

theorem tiny64 {q : ℚ} (h : 1 / 2 ^ 100 ≤ q) : pow2 (-1022) ≤ |q| := by
  have hp : (0 : ℚ) < 1 / 2 ^ 100 := by norm_num
  rw [abs_of_pos (by linarith)]
  refine le_trans ?_ h
  have e : (1 : ℚ) / 2 ^ 100 = pow2 (-100) := by
    rw [pow2_eq, show (-100 : Int) = -((100 : Nat) : Int) by norm_num, zpow_neg, zpow_natCast, one_div]
  rw [e]; exact pow2_mono (by norm_num)

theorem rnd64_two {q : ℚ} (h : 1 / 2 ^ 100 ≤ q) :
    q * (1 - 1 / 2 ^ 53) ≤ rnd f64 q ∧ rnd f64 q ≤ q * (1 + 1 / 2 ^ 53) := by
  have hp : (0 : ℚ) < 1 / 2 ^ 100 := by norm_num
  have hq : 0 < q := by linarith
  have e := rnd64_rel (q := q) (Or.inr (tiny64 h))
  rw [abs_of_pos hq] at e
  obtain ⟨e1, e2⟩ := abs_le.1 e
  constructor <;> linarith

/-- The computed value lies near the exact one. -/
theorem scaledQ_near {o M n : Nat} (ho1 : 1 ≤ o) (ho : o ≤ M) (hM : M < W64) (hn1 : 1 ≤ n)
    (hn : n ≤ 2 ^ 53) :
    (o : ℚ) * n / M * (1 - 1 / 2 ^ 50) ≤ scaledQ o M n ∧ scaledQ o M n ≤ (o : ℚ) * n / M * (1 + 1 / 2 ^ 50) := by
  have hoq : (1 : ℚ) ≤ o := by exact_mod_cast ho1
  have hMq : (1 : ℚ) ≤ M := by exact_mod_cast ho1.trans ho
  have hMq2 : (M : ℚ) ≤ 2 ^ 64 := by exact_mod_cast (by omega : M ≤ 18446744073709551616)
  have hnq : (1 : ℚ) ≤ n := by exact_mod_cast hn1
  unfold scaledQ
  rw [rnd64_nat hn]
  obtain ⟨a1, a2⟩ := rnd64_two (q := (o : ℚ)) (le_trans (by norm_num) hoq)
  obtain ⟨b1, b2⟩ := rnd64_two (q := (M : ℚ)) (le_trans (by norm_num) hMq)
  set a := rnd f64 (o : ℚ)
  set b := rnd f64 (M : ℚ)
  have ha0 : (1 : ℚ) / 2 ≤ a := le_trans (by linarith) a1
  have hb0 : (1 : ℚ) / 2 ≤ b := le_trans (by linarith) b1
  have hb1 : b ≤ 2 ^ 65 := b2.trans (by linarith)
  have hM0 : (0 : ℚ) < M := by linarith
  have hb00 : (0 : ℚ) < b := by linarith
  -- the quotient
  have q1 : (o : ℚ) / M * (1 - 1 / 2 ^ 52) ≤ a / b := by
    rw [div_mul_eq_mul_div, div_le_div_iff₀ hM0 hb00]
    have h1 : (o : ℚ) * (1 - 1 / 2 ^ 52) * b ≤ o * (1 - 1 / 2 ^ 52) * (M * (1 + 1 / 2 ^ 53)) :=
      mul_le_mul_of_nonneg_left b2 (by norm_num)
    have h2 : (o : ℚ) * (1 - 1 / 2 ^ 53) * M ≤ a * M := mul_le_mul_of_nonneg_right a1 hM0.le
    refine h1.trans (le_trans ?_ h2)
    have : (1 - 1 / 2 ^ 52 : ℚ) * (1 + 1 / 2 ^ 53) ≤ 1 - 1 / 2 ^ 53 := by norm_num
    have := mul_le_mul_of_nonneg_left this (by positivity : (0 : ℚ) ≤ o * M)
    linarith
  have q2 : a / b ≤ (o : ℚ) / M * (1 + 1 / 2 ^ 51) := by
    rw [div_mul_eq_mul_div, div_le_div_iff₀ hb00 hM0]
    have h1 : (o : ℚ) * (1 + 1 / 2 ^ 51) * (M * (1 - 1 / 2 ^ 53)) ≤ o * (1 + 1 / 2 ^ 51) * b :=
      mul_le_mul_of_nonneg_left b1 (by positivity)
    have h2 : a * M ≤ (o : ℚ) * (1 + 1 / 2 ^ 53) * M := mul_le_mul_of_nonneg_right a2 hM0.le
    refine h2.trans (le_trans ?_ h1)
    have : (1 + 1 / 2 ^ 53 : ℚ) ≤ (1 + 1 / 2 ^ 51) * (1 - 1 / 2 ^ 53) := by norm_num
    have := mul_le_mul_of_nonneg_left this (by positivity : (0 : ℚ) ≤ o * M)
    linarith
  have hy0 : (1 : ℚ) / 2 ^ 70 ≤ a / b := by
    rw [div_le_div_iff₀ (by norm_num) hb00]
    have : (1 : ℚ) / 2 * 2 ^ 70 ≤ a * 2 ^ 70 := mul_le_mul_of_nonneg_right ha0 (by norm_num)
    linarith
  obtain ⟨r1, r2⟩ := rnd64_two (q := a / b) (le_trans (by norm_num) hy0)
  set y := a / b
  set r := rnd f64 y
  have hr0 : (1 : ℚ) / 2 ^ 80 ≤ r := by
    refine le_trans ?_ r1
    calc (1 : ℚ) / 2 ^ 80 ≤ 1 / 2 ^ 70 * (1 - 1 / 2 ^ 53) := by norm_num
      _ ≤ _ := mul_le_mul_of_nonneg_right hy0 (by norm_num)
  have hr00 : (0 : ℚ) ≤ r := le_trans (by norm_num) hr0
  have hz0 : (1 : ℚ) / 2 ^ 80 ≤ r * n := by nlinarith
  obtain ⟨x1, x2⟩ := rnd64_two (q := r * n) (le_trans (by norm_num) hz0)
  set x := rnd f64 (r * n)
  have hy00 : (0 : ℚ) ≤ y := le_trans (by norm_num) hy0
  set w := (o : ℚ) / M with hw
  have hw0 : 0 ≤ w := by positivity
  have et : (o : ℚ) * n / M = w * n := by rw [hw]; ring
  rw [et]
  have hn0 : (0 : ℚ) ≤ n := by linarith
  constructor
  · refine le_trans ?_ x1
    have h1 : w * (1 - 1 / 2 ^ 52) * (1 - 1 / 2 ^ 53) ≤ r :=
      le_trans (mul_le_mul_of_nonneg_right q1 (by norm_num)) r1
    have h2 := mul_le_mul_of_nonneg_right (mul_le_mul_of_nonneg_right h1 hn0)
      (by norm_num : (0 : ℚ) ≤ 1 - 1 / 2 ^ 53)
    refine le_trans ?_ h2
    have : (1 - 1 / 2 ^ 50 : ℚ) ≤ (1 - 1 / 2 ^ 52) * (1 - 1 / 2 ^ 53) * (1 - 1 / 2 ^ 53) := by norm_num
    have := mul_le_mul_of_nonneg_left this (by positivity : (0 : ℚ) ≤ w * n)
    linarith
  · refine le_trans x2 ?_
    have h1 : r ≤ w * (1 + 1 / 2 ^ 51) * (1 + 1 / 2 ^ 53) :=
      le_trans r2 (mul_le_mul_of_nonneg_right q2 (by norm_num))
    have h2 := mul_le_mul_of_nonneg_right (mul_le_mul_of_nonneg_right h1 hn0)
      (by norm_num : (0 : ℚ) ≤ 1 + 1 / 2 ^ 53)
    refine h2.trans ?_
    have : (1 + 1 / 2 ^ 51 : ℚ) * (1 + 1 / 2 ^ 53) * (1 + 1 / 2 ^ 53) ≤ 1 + 1 / 2 ^ 50 := by norm_num
    have := mul_le_mul_of_nonneg_left this (by positivity : (0 : ℚ) ≤ w * n)
    linarith

/-- Every index is hit when there are at least four oracle values for each. -/
theorem scaledIndex_mid {M n i : Nat} (hM : M < W64) (hn : 4 * n ≤ M) (hn2 : n ≤ 2 ^ 47) (hi : i < n) :
    ∃ o, o ≤ M ∧ scaledIndex o M n = .ok (i : Int) := by
  have hn0 : 0 < n := by omega
  set o := (2 * i + 1) * M / (2 * n) with ho
  have l1 : o * (2 * n) ≤ (2 * i + 1) * M := Nat.div_mul_le_self _ _
  have l2 : (2 * i + 1) * M < o * (2 * n) + 2 * n := by
    have h1 := Nat.div_add_mod ((2 * i + 1) * M) (2 * n)
    have h2 := Nat.mod_lt ((2 * i + 1) * M) (by omega : 0 < 2 * n)
    rw [← ho, Nat.mul_comm] at h1
    omega
  have ho1 : 1 ≤ o := by
    rw [ho, Nat.le_div_iff_mul_le (by omega)]
    have : M ≤ (2 * i + 1) * M := Nat.le_mul_of_pos_left _ (by omega)
    omega
  have hoM : o ≤ M := by
    have h1 : (2 * i + 1) * M ≤ (2 * n) * M := Nat.mul_le_mul_right _ (by omega)
    have h2 : o * (2 * n) ≤ M * (2 * n) := by rw [Nat.mul_comm M]; exact l1.trans h1
    exact Nat.le_of_mul_le_mul_right h2 (by omega)
  refine ⟨o, hoM, ?_⟩
  obtain ⟨s1, s2⟩ := scaledQ_near ho1 hoM hM hn0 (by omega)
  rw [scaledIndex_eq (ho1.trans hoM) hoM hM (by omega)]
  have hfl : ⌊scaledQ o M n⌋ = (i : Int) := by
    have hM0 : (0 : ℚ) < M := by exact_mod_cast (by omega : 0 < M)
    have c1 : (o : ℚ) * (2 * n) ≤ (2 * i + 1) * M := by exact_mod_cast l1
    have c2 : (2 * i + 1 : ℚ) * M ≤ o * (2 * n) + 2 * n := by exact_mod_cast l2.le
    have c3 : (4 : ℚ) * n ≤ M := by exact_mod_cast hn
    have c4 : (n : ℚ) ≤ 2 ^ 47 := by exact_mod_cast hn2
    have c5 : (i : ℚ) + 1 ≤ n := by exact_mod_cast hi
    set t := (o : ℚ) * n / M with ht
    have tM : t * M = o * n := by rw [ht]; field_simp
    have t1 : t ≤ i + 1 / 2 := by
      rw [← mul_le_mul_iff_left₀ hM0, tM]; linarith
    have t2 : (i : ℚ) + 1 / 4 ≤ t := by
      rw [← mul_le_mul_iff_left₀ hM0, tM]; linarith
    have hi0 : (0 : ℚ) ≤ i := by positivity
    rw [Int.floor_eq_iff]
    push_cast
    constructor
    · refine le_trans ?_ s1; linarith
    · refine lt_of_le_of_lt s2 ?_; linarith
  rw [hfl, if_neg (by omega)]

/-! ## As many words as oracle values -/

theorem rne_near {x : ℚ} {k : Int} (h : |x - k| < 1 / 2) : rne x = k := by
  have h1 := rne_err x
  rw [abs_le] at h1
  rw [abs_lt] at h
  have h2 : ((rne x - k : Int) : ℚ) < 1 := by push_cast; linarith
  have h3 : (-1 : ℚ) < ((rne x - k : Int) : ℚ) := by push_cast; linarith
  have h4 : rne x - k < 1 := by exact_mod_cast h2
  have h5 : -1 < rne x - k := by exact_mod_cast h3
  omega

theorem rnd64_near {z : ℚ} {e k : Int} (h1 : pow2 e ≤ z) (h2 : z < pow2 (e + 1)) (he : -1000 ≤ e)
    (hk : |z - k * pow2 (e - 52)| < pow2 (e - 53)) : rnd f64 z = k * pow2 (e - 52) := by
  have hz : 0 < z := lt_of_lt_of_le (pow2_pos _) h1
  have hu : ulpExp f64 z = e - 52 := by
    unfold ulpExp
    rw [abs_of_pos hz, ilog2_unique h1 h2]
    show max (e - ((53 : Nat) : Int) + 1) (-1074) = _
    omega
  unfold rnd
  rw [if_neg hz.ne']
  simp only
  rw [hu]
  have hp := pow2_pos (e - 52)
  rw [rne_near]
  have : z / pow2 (e - 52) - k = (z - k * pow2 (e - 52)) / pow2 (e - 52) := by field_simp
  rw [this, abs_div, abs_of_pos hp, div_lt_iff₀ hp]
  refine lt_of_lt_of_le hk ?_
  rw [show e - 52 = (e - 53) + 1 by ring, pow2_add, pow2_two_eq]
  linarith [pow2_pos (e - 53)]

theorem pow2_scaled : ∀ j : Fin 16, scaledIndex (2 ^ j.val) 65535 65535 = .ok ((2 ^ j.val : Nat) : Int) := by
  decide +kernel

/-- `o / 65535 * 65535` computed in `double` is `o`. -/
theorem scaledIndex_65535 {i : Nat} (hi : i < 65535) : scaledIndex i 65535 65535 = .ok (i : Int) := by
  rcases Nat.eq_zero_or_pos i with rfl | hpos
  · decide +kernel
  by_cases hp : ∃ j, j < 16 ∧ i = 2 ^ j
  · obtain ⟨j, hj, rfl⟩ := hp
    exact pow2_scaled ⟨j, hj⟩
  -- the binade of i
  set j := Nat.log 2 i with hj
  have j1 : 2 ^ j ≤ i := Nat.pow_log_le_self 2 hpos.ne'
  have j2 : i < 2 ^ (j + 1) := Nat.lt_pow_succ_log_self (by norm_num) i
  have j3 : j < 16 := (Nat.pow_lt_pow_iff_right (by norm_num : 1 < 2)).1 (lt_of_le_of_lt j1 (by omega))
  have j4 : 2 ^ j + 1 ≤ i := by
    rcases Nat.lt_or_ge (2 ^ j) i with h | h
    · omega
    · exact absurd ⟨j, j3, by omega⟩ hp
  have hiq : (0 : ℚ) < i := by exact_mod_cast hpos
  have k1 : (2 : ℚ) ^ j + 1 ≤ i := by exact_mod_cast j4
  have k2 : (i : ℚ) + 1 ≤ 2 ^ (j + 1) := by exact_mod_cast j2
  have k3 : (i : ℚ) + 1 ≤ 65535 := by exact_mod_cast hi
  have kj : (1 : ℚ) ≤ 2 ^ j := one_le_pow₀ (by norm_num)
  have kj16 : (2 : ℚ) ^ j ≤ 32768 := by
    calc (2 : ℚ) ^ j ≤ 2 ^ 15 := pow_le_pow_right₀ (by norm_num) (by omega)
      _ = _ := by norm_num
  set y : ℚ := (i : ℚ) / 65535 with hy
  have hy0 : 0 < y := by positivity
  -- exponent of the quotient
  have e16 : ∀ k : Int, pow2 (k - 16) = pow2 k / 65536 := by
    intro k; rw [pow2_sub, pow2_eq 16]; norm_num
  have ey1 : pow2 ((j : Int) - 16) ≤ y := by
    rw [e16, pow2_natCast, hy, div_le_div_iff₀ (by norm_num) (by norm_num)]; linarith
  have ey2 : y < pow2 ((j : Int) - 16 + 1) := by
    rw [show ((j : Int) - 16 + 1) = ((j + 1 : Nat) : Int) - 16 by push_cast; ring, e16, pow2_natCast, hy,
      div_lt_div_iff₀ (by norm_num) (by norm_num)]
    nlinarith
  have hu : ulpExp f64 y = (j : Int) - 68 := by
    unfold ulpExp
    rw [abs_of_pos hy0, ilog2_unique ey1 ey2]
    show max ((j : Int) - 16 - ((53 : Nat) : Int) + 1) (-1074) = _
    omega
  have hr := rnd_ulp f64 y
  rw [hu] at hr
  set r := rnd f64 y with hrd
  have hz : |r * 65535 - i| < pow2 ((j : Int) - 53) := by
    have e1 : r * 65535 - i = (r - y) * 65535 := by rw [hy]; ring
    rw [e1, abs_mul, abs_of_pos (by norm_num : (0 : ℚ) < 65535)]
    have e2 : pow2 ((j : Int) - 68) / 2 = pow2 ((j : Int) - 53) / 65536 := by
      rw [show (j : Int) - 53 = (j : Int) - 68 + 15 by ring, pow2_add, pow2_eq 15]; norm_num; ring
    rw [e2] at hr
    have := mul_le_mul_of_nonneg_right hr (by norm_num : (0 : ℚ) ≤ 65535)
    have hp := pow2_pos ((j : Int) - 53)
    linarith
  have hsm : pow2 ((j : Int) - 53) ≤ 1 / 2 := by
    have e : (1 : ℚ) / 2 = pow2 (-1) := by rw [pow2_eq]; norm_num
    rw [e]; exact pow2_mono (by omega)
  obtain ⟨z1, z2⟩ := abs_lt.1 hz
  have hx : rnd f64 (r * 65535) = i := by
    have hi' : ((i : Int) * 2 ^ (52 - j) : Int) * pow2 ((j : Int) - 52) = (i : ℚ) := by
      have e : ((2 : ℚ) ^ (52 - j)) * pow2 ((j : Int) - 52) = 1 := by
        rw [← pow2_natCast, ← pow2_add, show (((52 - j : Nat) : Int) + ((j : Int) - 52)) = 0 by omega, pow2_eq]
        norm_num
      push_cast
      rw [mul_assoc, e, mul_one]
    rw [rnd64_near (e := j) (k := (i : Int) * 2 ^ (52 - j)) ?_ ?_ (by omega) ?_, hi']
    · rw [pow2_natCast]; linarith
    · rw [show ((j : Int) + 1) = ((j + 1 : Nat) : Int) by push_cast; ring, pow2_natCast]; linarith
    · rw [hi']; exact hz
  rw [scaledIndex_eq (by norm_num) (by omega) (by norm_num) (by norm_num)]
  have hq : scaledQ i 65535 65535 = i := by
    unfold scaledQ
    rw [rnd64_nat (by omega : i ≤ 2 ^ 53), rnd64_nat (by norm_num : 65535 ≤ 2 ^ 53)]
    push_cast
    exact hx
  rw [hq, Int.floor_natCast, if_neg (by omega)]

/-- One word more than the largest oracle value. -/
theorem scaledIndex_65536 {i : Nat} (hi : i < 65536) : scaledIndex i 65535 65536 = .ok (i : Int) := by
  rcases Nat.eq_zero_or_pos i with rfl | hpos
  · decide +kernel
  rcases (by omega : i = 65535 ∨ i < 65535) with rfl | hi
  · decide +kernel
  obtain ⟨s1, s2⟩ := scaledQ_near (o := i) (M := 65535) (n := 65536) hpos (by omega) (by norm_num) (by norm_num)
    (by norm_num)
  rw [scaledIndex_eq (by norm_num) (by omega) (by norm_num) (by norm_num)]
  have h1 : (1 : ℚ) ≤ i := by exact_mod_cast hpos
  have h2 : (i : ℚ) + 1 ≤ 65535 := by exact_mod_cast hi
  have hfl : ⌊scaledQ i 65535 65536⌋ = (i : Int) := by
    rw [Int.floor_eq_iff]
    push_cast at s1 s2 ⊢
    constructor
    · refine le_trans ?_ s1
      have : (i : ℚ) * 65536 / 65535 * (1 - 1 / 2 ^ 50) = i * (65536 / 65535 * (1 - 1 / 2 ^ 50)) := by ring
      rw [this]
      exact le_mul_of_one_le_right (by linarith) (by norm_num)
    · refine lt_of_le_of_lt s2 ?_
      have : (i : ℚ) * 65536 / 65535 * (1 + 1 / 2 ^ 50) = i + i * (65536 / 65535 * (1 + 1 / 2 ^ 50) - 1) := by ring
      rw [this]
      have h3 : (i : ℚ) * (65536 / 65535 * (1 + 1 / 2 ^ 50) - 1) ≤ 65534 * (65536 / 65535 * (1 + 1 / 2 ^ 50) - 1) :=
        mul_le_mul_of_nonneg_right (by linarith) (by norm_num)
      have h4 : (65534 : ℚ) * (65536 / 65535 * (1 + 1 / 2 ^ 50) - 1) < 1 := by norm_num
      linarith
  rw [hfl, if_neg (by omega)]

end BS
