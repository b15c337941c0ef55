import Verif.Lemmas.Oracle

/-!
# Error bounds for binary32 and binary64 arithmetic
-/

namespace BS

/-- The integer part and the fractional part of a floating value are floating values. -/
theorem Rep.floor_frac {f : Fmt} (he : f.emin ≤ 0) {x : ℚ} (h : Rep f x) (h0 : 0 ≤ x) :
    Rep f (⌊x⌋ : ℚ) ∧ Rep f (x - ⌊x⌋) := by
  obtain ⟨m, e, hx, hm, hem⟩ := h
  by_cases hn : 0 ≤ e
  · have hi : x = ((m * 2 ^ e.toNat : Int) : ℚ) := by
      rw [hx, pow2_int hn]; push_cast; rfl
    have hf : ((⌊x⌋ : Int) : ℚ) = x := by rw [hi, Int.floor_intCast]
    refine ⟨?_, ?_⟩
    · rw [hf]; exact ⟨m, e, hx, hm, hem⟩
    · rw [hf, sub_self]; exact Rep.zero f
  · have hk : pow2 e = 1 / (((2 ^ (-e).toNat : Nat)) : ℚ) := by
      unfold pow2; rw [if_neg hn]
    set K : Nat := 2 ^ (-e).toNat with hK
    have hKpos : 0 < K := by positivity
    have hKq : (0 : ℚ) < K := by exact_mod_cast hKpos
    have hxm : x = (m : ℚ) / (K : ℚ) := by rw [hx, hk]; ring
    have hm0 : 0 ≤ m := by
      have : 0 ≤ (m : ℚ) := by
        have := mul_nonneg h0 hKq.le
        rwa [hxm, div_mul_cancel₀ _ hKq.ne'] at this
      exact_mod_cast this
    have hfl : ⌊x⌋ = m / (K : Int) := by
      rw [hxm]; exact_mod_cast Rat.floor_intCast_div_natCast m K
    have hdiv : m / (K : Int) ≤ m := Int.ediv_le_self _ hm0
    have hdiv0 : 0 ≤ m / (K : Int) := Int.ediv_nonneg hm0 (by omega)
    have hmod0 : 0 ≤ m % (K : Int) := Int.emod_nonneg _ (by omega)
    have hmodle : m % (K : Int) ≤ m := by
      have h1 := Int.mul_ediv_add_emod m K
      have : 0 ≤ (K : Int) * (m / K) := mul_nonneg (by omega) hdiv0
      omega
    rw [abs_of_nonneg hm0] at hm
    refine ⟨⟨m / (K : Int), 0, ?_, ?_, he⟩, ⟨m % (K : Int), e, ?_, ?_, hem⟩⟩
    · rw [hfl, pow2_eq]; simp
    · rw [abs_of_nonneg hdiv0]; omega
    · rw [hfl, hxm, hk]
      have h1 := Int.mul_ediv_add_emod m K
      have h2 : (m : ℚ) = (K : ℚ) * ((m / (K : Int) : Int) : ℚ) + ((m % (K : Int) : Int) : ℚ) := by
        exact_mod_cast h1.symm
      rw [h2]
      field_simp
      ring
    · rw [abs_of_nonneg hmod0]; omega

/-- Error of binary32 rounding, with no condition on the size. -/
theorem rnd32_err (q : ℚ) : |rnd f32 q - q| ≤ |q| / 2 ^ 24 + 1 / 2 ^ 100 := by
  by_cases h : q = 0 ∨ pow2 (-126) ≤ |q|
  · have := rnd32_rel h
    have : (0 : ℚ) ≤ 1 / 2 ^ 100 := by positivity
    linarith
  · push Not at h
    obtain ⟨h0, h1⟩ := h
    have hq : 0 < |q| := abs_pos.2 h0
    have h2 := rnd_ulp f32 q
    have hil : ilog2 |q| < -126 := pow2_lt_iff.1 (lt_of_le_of_lt (ilog2_spec hq).1 h1)
    have hu : ulpExp f32 q ≤ -149 := by
      unfold ulpExp
      show max (ilog2 |q| - 24 + 1) (-149) ≤ -149
      omega
    have h3 : pow2 (ulpExp f32 q) ≤ pow2 (-100) := pow2_mono (by omega)
    have h4 : pow2 (-100) = 1 / 2 ^ 100 := by
      rw [show (-100 : Int) = -((100 : Nat) : Int) by rfl, pow2_eq, zpow_neg, zpow_natCast]; norm_num
    have h5 := pow2_pos (ulpExp f32 q)
    have h6 : 0 ≤ |q| / 2 ^ 24 := by positivity
    linarith

theorem rnd64_err (q : ℚ) : |rnd f64 q - q| ≤ |q| / 2 ^ 53 + 1 / 2 ^ 200 := by
  by_cases h : q = 0 ∨ pow2 (-1022) ≤ |q|
  · have := rnd64_rel h
    have : (0 : ℚ) ≤ 1 / 2 ^ 200 := by positivity
    linarith
  · push Not at h
    obtain ⟨h0, h1⟩ := h
    have hq : 0 < |q| := abs_pos.2 h0
    have h2 := rnd_ulp f64 q
    have hil : ilog2 |q| < -1022 := pow2_lt_iff.1 (lt_of_le_of_lt (ilog2_spec hq).1 h1)
    have hu : ulpExp f64 q ≤ -1074 := by
      unfold ulpExp
      show max (ilog2 |q| - 53 + 1) (-1074) ≤ -1074
      omega
    have h3 : pow2 (ulpExp f64 q) ≤ pow2 (-200) := pow2_mono (by omega)
    have h4 : pow2 (-200) = 1 / 2 ^ 200 := by
      rw [show (-200 : Int) = -((200 : Nat) : Int) by rfl, pow2_eq, zpow_neg, zpow_natCast, one_div]
    have h5 := pow2_pos (ulpExp f64 q)
    have h6 : 0 ≤ |q| / 2 ^ 53 := by positivity
    linarith

end BS
