import Verif.Oracle

/-!
# Lemmas about `OracleProportion`
-/

namespace BS

theorem FV.add_fin (f : Fmt) (a b : ℚ) : FV.add f (.fin a) (.fin b) = FV.ofQ f (a + b) := rfl
theorem FV.sub_fin (f : Fmt) (a b : ℚ) : FV.sub f (.fin a) (.fin b) = FV.ofQ f (a - b) := by
  rw [sub_eq_add_neg]; rfl
theorem FV.mul_fin (f : Fmt) (a b : ℚ) : FV.mul f (.fin a) (.fin b) = FV.ofQ f (a * b) := rfl
theorem FV.div_fin (f : Fmt) (a : ℚ) {b : ℚ} (h : b ≠ 0) :
    FV.div f (.fin a) (.fin b) = FV.ofQ f (a / b) := by
  unfold FV.div; simp [h]

theorem f32_p : f32.p ≠ 0 := by decide
theorem f64_p : f64.p ≠ 0 := by decide

theorem rep32_nat {n : Nat} (h : n ≤ 2 ^ 24) : Rep f32 (n : ℚ) := by
  have := Rep.int (f := f32) (by decide) f32_p (n := (n : Int)) (by
    rw [abs_of_nonneg (by omega)]; show (n : Int) ≤ 2 ^ 24; exact_mod_cast h)
  exact_mod_cast this

theorem rep64_nat {n : Nat} (h : n ≤ 2 ^ 53) : Rep f64 (n : ℚ) := by
  have := Rep.int (f := f64) (by decide) f64_p (n := (n : Int)) (by
    rw [abs_of_nonneg (by omega)]; show (n : Int) ≤ 2 ^ 53; exact_mod_cast h)
  exact_mod_cast this

theorem rep32_int {n : Int} (h : |n| ≤ 2 ^ 24) : Rep f32 (n : ℚ) :=
  Rep.int (f := f32) (by decide) f32_p h

theorem rep64_int {n : Int} (h : |n| ≤ 2 ^ 53) : Rep f64 (n : ℚ) :=
  Rep.int (f := f64) (by decide) f64_p h

theorem lt_emax32 {q : ℚ} (h : |q| ≤ 2 ^ 100) : |q| < pow2 f32.emax := by
  refine lt_of_le_of_lt h ?_
  show (2 : ℚ) ^ 100 < pow2 128
  rw [show (128 : Int) = ((128 : Nat) : Int) by rfl, pow2_natCast]; norm_num

theorem lt_emax64 {q : ℚ} (h : |q| ≤ 2 ^ 100) : |q| < pow2 f64.emax := by
  refine lt_of_le_of_lt h ?_
  show (2 : ℚ) ^ 100 < pow2 1024
  have h1 : (2 : ℚ) ^ 100 = pow2 100 := by
    rw [show (100 : Int) = ((100 : Nat) : Int) by rfl, pow2_natCast]
  rw [h1]; exact pow2_lt (by norm_num)

theorem rep32_pow100 : Rep f32 ((2 : ℚ) ^ 100) :=
  ⟨1, 100, by rw [show (100 : Int) = ((100 : Nat) : Int) by rfl, pow2_natCast]; norm_num,
    by decide, by decide⟩

theorem rep64_pow100 : Rep f64 ((2 : ℚ) ^ 100) :=
  ⟨1, 100, by rw [show (100 : Int) = ((100 : Nat) : Int) by rfl, pow2_natCast]; norm_num,
    by decide, by decide⟩

/-- No overflow below 2^100. -/
theorem ofQ32 {q : ℚ} (h : |q| ≤ 2 ^ 100) : FV.ofQ f32 q = .fin (rnd f32 q) :=
  FV.ofQ_fin (lt_emax32 (abs_rnd_le f32_p rep32_pow100 h))

theorem ofQ64 {q : ℚ} (h : |q| ≤ 2 ^ 100) : FV.ofQ f64 q = .fin (rnd f64 q) :=
  FV.ofQ_fin (lt_emax64 (abs_rnd_le f64_p rep64_pow100 h))

theorem ofQ32_rep {q : ℚ} (h : |q| ≤ 2 ^ 100) (hr : Rep f32 q) : FV.ofQ f32 q = .fin q := by
  rw [ofQ32 h, rnd_of_rep hr]

theorem ofQ64_rep {q : ℚ} (h : |q| ≤ 2 ^ 100) (hr : Rep f64 q) : FV.ofQ f64 q = .fin q := by
  rw [ofQ64 h, rnd_of_rep hr]

/-- Relative error of binary32 rounding, for values that are zero or not tiny. -/
theorem rnd32_rel {q : ℚ} (h : q = 0 ∨ pow2 (-126) ≤ |q|) : |rnd f32 q - q| ≤ |q| / 2 ^ 24 := by
  rcases h with rfl | h
  · rw [rnd_zero]; simp
  · have := rnd_rel f32 q (by exact h)
    have e : pow2 (-((24 : Nat) : Int)) = 1 / 2 ^ 24 := by rw [pow2_eq, zpow_neg, zpow_natCast]; norm_num
    have e' : pow2 (-(f32.p : Int)) = 1 / 2 ^ 24 := e
    rw [e'] at this
    calc _ ≤ _ := this
      _ = _ := by ring

theorem rnd64_rel {q : ℚ} (h : q = 0 ∨ pow2 (-1022) ≤ |q|) : |rnd f64 q - q| ≤ |q| / 2 ^ 53 := by
  rcases h with rfl | h
  · rw [rnd_zero]; simp
  · have := rnd_rel f64 q (by exact h)
    have e : pow2 (-((53 : Nat) : Int)) = 1 / 2 ^ 53 := by rw [pow2_eq, zpow_neg, zpow_natCast]; norm_num
    have e' : pow2 (-(f64.p : Int)) = 1 / 2 ^ 53 := e
    rw [e'] at this
    calc _ ≤ _ := this
      _ = _ := by ring

/-- The floating-point value computed by `OracleProportion` before `floor`. -/
def propQ (o delta : Nat) : ℚ := rnd f32 ((o : ℚ) / 65536 * rnd f32 (delta : ℚ))

theorem rnd32_nat_le {d : Nat} (h : d < W64) : 0 ≤ rnd f32 (d : ℚ) ∧ rnd f32 (d : ℚ) ≤ 2 ^ 64 := by
  refine ⟨rnd_nonneg _ (by positivity), rnd_le_of_rep f32 f32_p ?_ ?_⟩
  · exact ⟨1, 64, by rw [show (64 : Int) = ((64 : Nat) : Int) by rfl, pow2_natCast]; norm_num,
      by decide, by decide⟩
  · have : (d : ℚ) < W64 := by exact_mod_cast h
    norm_num; linarith

theorem propQ_nonneg (o d : Nat) : 0 ≤ propQ o d := by
  unfold propQ
  have h1 : 0 ≤ rnd f32 (d : ℚ) := rnd_nonneg _ (by positivity)
  exact rnd_nonneg _ (by positivity)

theorem rnd32_nat_upper (d : Nat) : rnd f32 (d : ℚ) ≤ d * (1 + 1 / 2 ^ 24) := by
  have := rnd32_rel (q := (d : ℚ)) (by
    rcases Nat.eq_zero_or_pos d with rfl | h
    · left; simp
    · right
      have h1 : (1 : ℚ) ≤ d := by exact_mod_cast h
      rw [abs_of_nonneg (by positivity)]
      refine le_trans (b := pow2 0) (pow2_mono (by norm_num)) ?_
      rw [pow2_eq]; simpa using h1)
  rw [abs_of_nonneg (by positivity : (0 : ℚ) ≤ d)] at this
  have := (abs_le.1 this).2
  linarith

theorem rnd32_nat_ge_one {d : Nat} (h : 1 ≤ d) : 1 ≤ rnd f32 (d : ℚ) := by
  have := le_rnd_of_rep f32 f32_p (a := ((1 : Nat) : ℚ)) (b := (d : ℚ)) (rep32_nat (by norm_num))
    (by exact_mod_cast h)
  simpa using this

/-- The value stays strictly below the number of choices. -/
theorem propQ_lt {o d : Nat} (ho : o < 65536) (hd : 1 ≤ d) : propQ o d < d := by
  unfold propQ
  have h1 := rnd32_nat_upper d
  have h1' := rnd32_nat_ge_one hd
  set r := rnd f32 (d : ℚ)
  have hdq : (1 : ℚ) ≤ d := by exact_mod_cast hd
  have hoq : (o : ℚ) ≤ 65535 := by exact_mod_cast (by omega : o ≤ 65535)
  set y := (o : ℚ) / 65536 * r with hy
  have hy0 : 0 ≤ y := by positivity
  have h2 : |rnd f32 y - y| ≤ |y| / 2 ^ 24 := by
    apply rnd32_rel
    rcases Nat.eq_zero_or_pos o with rfl | h
    · left; rw [hy]; simp
    · right
      have : (1 : ℚ) ≤ o := by exact_mod_cast h
      rw [abs_of_nonneg hy0]
      have hle : (1 : ℚ) / 65536 ≤ y := by
        rw [hy]
        calc (1 : ℚ) / 65536 = 1 / 65536 * 1 := by ring
          _ ≤ _ := by
            apply mul_le_mul _ h1' (by norm_num) (by positivity)
            gcongr
      refine le_trans ?_ hle
      refine le_trans (pow2_mono (by norm_num : (-126 : Int) ≤ -16)) ?_
      rw [pow2_eq]; norm_num
  rw [abs_of_nonneg hy0] at h2
  have h3 := (abs_le.1 h2).2
  have h4 : y ≤ 65535 / 65536 * (d * (1 + 1 / 2 ^ 24)) := by
    rw [hy]
    apply mul_le_mul _ h1 (by linarith) (by norm_num)
    gcongr
  have h5 : rnd f32 y ≤ y * (1 + 1 / 2 ^ 24) := by linarith
  have h6 : y * (1 + 1 / 2 ^ 24) ≤ 65535 / 65536 * (d * (1 + 1 / 2 ^ 24)) * (1 + 1 / 2 ^ 24) := by
    apply mul_le_mul_of_nonneg_right h4 (by norm_num)
  have h7 : (65535 : ℚ) / 65536 * (d * (1 + 1 / 2 ^ 24)) * (1 + 1 / 2 ^ 24)
      = d * (65535 / 65536 * (1 + 1 / 2 ^ 24) * (1 + 1 / 2 ^ 24)) := by ring
  have h8 : (65535 : ℚ) / 65536 * (1 + 1 / 2 ^ 24) * (1 + 1 / 2 ^ 24) < 1 := by norm_num
  rw [h7] at h6
  have h9 : (d : ℚ) * (65535 / 65536 * (1 + 1 / 2 ^ 24) * (1 + 1 / 2 ^ 24)) < d * 1 :=
    mul_lt_mul_of_pos_left h8 (by linarith)
  linarith

theorem propQ_zero_count (o : Nat) : propQ o 0 = 0 := by
  unfold propQ; simp [rnd_zero]

theorem propQ_mono {o o' d : Nat} (h : o ≤ o') : propQ o d ≤ propQ o' d := by
  unfold propQ
  apply rnd_mono f32 f32_p
  have h1 : 0 ≤ rnd f32 (d : ℚ) := rnd_nonneg _ (by positivity)
  have h2 : (o : ℚ) ≤ o' := by exact_mod_cast h
  gcongr

/-- Exact for ranges of at most 256 values. -/
theorem propQ_small {o d : Nat} (ho : o < 65536) (hd : d ≤ 256) :
    propQ o d = (o : ℚ) * d / 65536 := by
  unfold propQ
  rw [rnd_of_rep (rep32_nat (by omega : d ≤ 2 ^ 24))]
  rw [rnd_of_rep]
  · ring
  · refine ⟨o * d, -16, ?_, ?_, by decide⟩
    · rw [pow2_eq]; push_cast; norm_num; ring
    · rw [abs_of_nonneg (by positivity)]
      show (o : Int) * d < 2 ^ 24
      have : o * d ≤ 65535 * 256 := Nat.mul_le_mul (by omega) hd
      have h2 : ((o * d : Nat) : Int) ≤ 65535 * 256 := by exact_mod_cast this
      push_cast at h2
      omega

theorem oracleProportion_eq {o mn mx : Nat} (ho : o < 65536) :
    oracleProportion o mn mx =
      .ok (toSz ((mn : Int) + ⌊propQ o (toSz ((mx : Int) - mn + 1))⌋)) := by
  unfold oracleProportion
  simp only
  set d := toSz ((mx : Int) - mn + 1) with hd
  have hdlt : d < W64 := toSz_lt _
  have i1 : ∀ n : Nat, n ≤ 65536 → FV.ofInt f32 (n : Int) = .fin (n : ℚ) := by
    intro n hn
    unfold FV.ofInt
    have : (n : ℚ) ≤ 65536 := by exact_mod_cast hn
    rw [ofQ32_rep]
    · push_cast; rfl
    · push_cast; rw [abs_of_nonneg (by positivity)]; norm_num; linarith
    · push_cast; exact rep32_nat (by omega)
  have e1 : FV.ofInt f32 65535 = .fin 65535 := i1 65535 (by norm_num)
  have e2 : FV.ofInt f32 1 = .fin 1 := by have := i1 1 (by norm_num); simpa using this
  have e3 : FV.add f32 (.fin 65535) (.fin 1) = .fin 65536 := by
    show FV.ofQ f32 (65535 + 1) = _
    rw [show (65535 : ℚ) + 1 = ((65536 : Nat) : ℚ) by norm_num, ofQ32_rep]
    · norm_num
    · rw [abs_of_nonneg (by positivity)]; norm_num
    · exact rep32_nat (by norm_num)
  have hoq : (o : ℚ) ≤ 65536 := by exact_mod_cast ho.le
  have e4 : FV.div f32 (FV.ofInt f32 o) (.fin 65536) = .fin ((o : ℚ) / 65536) := by
    rw [i1 o ho.le]
    rw [FV.div_fin _ _ (by norm_num), ofQ32_rep]
    · rw [abs_of_nonneg (by positivity), div_le_iff₀ (by norm_num)]
      refine hoq.trans (by norm_num)
    · refine ⟨o, -16, ?_, ?_, by decide⟩
      · rw [pow2_eq]; push_cast; norm_num; ring
      · rw [abs_of_nonneg (by positivity)]; show (o : Int) < 2 ^ 24; omega
  have hr := rnd32_nat_le hdlt
  have e5 : FV.ofInt f32 d = .fin (rnd f32 (d : ℚ)) := by
    unfold FV.ofInt
    rw [ofQ32]
    · push_cast; rfl
    · have : (d : ℚ) < W64 := by exact_mod_cast hdlt
      push_cast; rw [abs_of_nonneg (by positivity)]; norm_num; linarith
  have e6 : FV.mul f32 (.fin ((o : ℚ) / 65536)) (.fin (rnd f32 (d : ℚ))) = .fin (propQ o d) := by
    show FV.ofQ f32 _ = _
    rw [ofQ32]
    · rfl
    · rw [abs_of_nonneg (mul_nonneg (by positivity) hr.1)]
      have : (o : ℚ) / 65536 ≤ 1 := by rw [div_le_one (by norm_num)]; exact hoq
      calc (o : ℚ) / 65536 * rnd f32 (d : ℚ) ≤ 1 * 2 ^ 64 :=
            mul_le_mul this hr.2 hr.1 (by norm_num)
        _ ≤ _ := by norm_num
  rw [e1, e2, e3, e4, e5, e6]
  have hfl : 0 ≤ ⌊propQ o d⌋ := Int.floor_nonneg.2 (propQ_nonneg o d)
  have hfl2 : ⌊propQ o d⌋ ≤ W64 - 1 := by
    rcases Nat.eq_zero_or_pos d with h0 | h0
    · rw [h0, propQ_zero_count]; norm_num
    · have := propQ_lt ho h0
      have h3 : ⌊propQ o d⌋ < (d : Int) := by
        rw [Int.floor_lt]; exact_mod_cast this
      omega
  have htr : truncQ ((⌊propQ o d⌋ : Int) : ℚ) = ⌊propQ o d⌋ := by
    unfold truncQ
    rw [if_pos (by exact_mod_cast hfl), Int.floor_intCast]
  show (FV.toIntRange 0 (W64 - 1) (FV.fin ((⌊propQ o d⌋ : Int) : ℚ))).bind _ = _
  unfold FV.toIntRange
  simp only [htr]
  rw [if_pos ⟨hfl, hfl2⟩]
  rfl

/-- Closed form on an ordinary range. -/
theorem oracleProportion_range {o mn mx : Nat} (ho : o < 65536) (h : mn ≤ mx) (hx : mx < W64) :
    (mx - mn + 1 < W64 → oracleProportion o mn mx =
      .ok (mn + (⌊propQ o (mx - mn + 1)⌋).toNat) ∧ (⌊propQ o (mx - mn + 1)⌋).toNat ≤ mx - mn) ∧
    (mx - mn + 1 = W64 → oracleProportion o mn mx = .ok mn) := by
  rw [oracleProportion_eq ho]
  constructor
  · intro hd
    have e : toSz ((mx : Int) - mn + 1) = mx - mn + 1 := by
      unfold toSz; omega
    rw [e]
    have hfl : 0 ≤ ⌊propQ o (mx - mn + 1)⌋ := Int.floor_nonneg.2 (propQ_nonneg o _)
    have h3 : ⌊propQ o (mx - mn + 1)⌋ < ((mx - mn + 1 : Nat) : Int) := by
      rw [Int.floor_lt]
      have := propQ_lt ho (by omega : 1 ≤ mx - mn + 1)
      exact_mod_cast this
    generalize ⌊propQ o (mx - mn + 1)⌋ = z at *
    constructor
    · congr 1; unfold toSz; omega
    · omega
  · intro hd
    have e : toSz ((mx : Int) - mn + 1) = 0 := by
      unfold toSz; omega
    rw [e, propQ_zero_count]
    congr 1
    simp only [Int.floor_zero]; unfold toSz; omega

end BS
