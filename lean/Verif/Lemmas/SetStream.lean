import Verif.Lemmas.FloatErr

/-!
# Lemmas about sharing a size in proportion to weights, in binary64 (for the set galley)
-/

namespace BS

local notation "R" => rnd f64

/-! ## C `round` -/

theorem roundHA_err (q : ℚ) : |q - roundHA q| ≤ 1 / 2 := by
  unfold roundHA
  split
  · have h1 := Int.floor_le (q + 1 / 2)
    have h2 := Int.lt_floor_add_one (q + 1 / 2)
    rw [abs_le]; constructor <;> linarith
  · have h1 := Int.le_ceil (q - 1 / 2)
    have h2 := Int.ceil_lt_add_one (q - 1 / 2)
    rw [abs_le]; constructor <;> linarith

theorem roundHA_nonneg {q : ℚ} (h : -(1 / 2) < q) : 0 ≤ roundHA q := by
  have h1 := abs_le.1 (roundHA_err q)
  unfold roundHA at *
  split
  · exact Int.floor_nonneg.2 (by linarith)
  · have : (-1 : ℚ) < q - 1 / 2 := by linarith
    have h2 := Int.le_ceil (q - 1 / 2)
    have h3 : (-1 : ℚ) < (⌈q - 1 / 2⌉ : ℚ) := by linarith
    have : (-1 : Int) < ⌈q - 1 / 2⌉ := by exact_mod_cast h3
    omega

theorem roundHA_int (n : Int) : roundHA (n : ℚ) = n := by
  have h := abs_le.1 (roundHA_err (n : ℚ))
  have h1 : (roundHA (n : ℚ) : ℚ) < ((n + 1 : Int) : ℚ) := by push_cast; linarith
  have h2 : ((n - 1 : Int) : ℚ) < (roundHA (n : ℚ) : ℚ) := by push_cast; linarith
  have h1 : roundHA (n : ℚ) < n + 1 := by exact_mod_cast h1
  have h2 : n - 1 < roundHA (n : ℚ) := by exact_mod_cast h2
  omega

theorem roundHA_zero : roundHA 0 = 0 := by simpa using roundHA_int 0

/-- Subtracting the rounded value is exact. -/
theorem Rep.round_frac {f : Fmt} {x : ℚ} (h : Rep f x) : Rep f (x - roundHA x) := by
  obtain ⟨m, e, hx, hm, hem⟩ := h
  have herr := roundHA_err x
  by_cases hn : 0 ≤ e
  · have hi : x = ((m * 2 ^ e.toNat : Int) : ℚ) := by rw [hx, pow2_int hn]; push_cast; rfl
    have : (roundHA x : ℚ) = x := by rw [hi, roundHA_int]
    rw [this, sub_self]; exact Rep.zero f
  · have hk : pow2 e = 1 / (((2 ^ (-e).toNat : Nat)) : ℚ) := by unfold pow2; rw [if_neg hn]
    set K : Nat := 2 ^ (-e).toNat with hK
    have hKq : (0 : ℚ) < K := by exact_mod_cast (by positivity : 0 < K)
    have hxm : x * K = m := by rw [hx, hk]; field_simp
    set n := roundHA x
    by_cases h0 : n = 0
    · rw [h0]; simp only [Int.cast_zero, sub_zero]; exact ⟨m, e, hx, hm, hem⟩
    refine ⟨m - n * K, e, ?_, ?_, hem⟩
    · push_cast; rw [← hxm, hk]; field_simp
    · have h1 : (1 : ℚ) ≤ |(n : ℚ)| := by
        rw [← Int.cast_abs]; exact_mod_cast Int.one_le_abs h0
      have h2 : (1 / 2 : ℚ) ≤ |x| := by
        have := abs_sub_abs_le_abs_sub (n : ℚ) x
        rw [abs_sub_comm] at this
        linarith
      have h3 : |((m - n * K : Int) : ℚ)| ≤ |(m : ℚ)| := by
        push_cast
        rw [← hxm, ← sub_mul, abs_mul, abs_mul, abs_of_pos hKq]
        exact mul_le_mul_of_nonneg_right (herr.trans h2) hKq.le
      have h4 : |m - n * (K : Int)| ≤ |m| := by exact_mod_cast h3
      exact lt_of_le_of_lt h4 hm

/-! ## One share -/

/-- `weight * k + remainder` -/
def lenQ (k w r : ℚ) : ℚ := R (R (w * k) + r)

theorem rep_half : Rep f64 (-(1 / 2)) :=
  ⟨-1, -1, by rw [pow2_eq]; norm_num, by decide, by decide⟩

theorem lenQ_step {k w r : ℚ} (hk : 0 ≤ k) (hw : 0 ≤ w) (hr : |r| ≤ 1 / 2) :
    -(1 / 2) ≤ lenQ k w r ∧
    |lenQ k w r - (w * k + r)| ≤ (w * k * (201 / 100) + 51 / 100) / 2 ^ 53 ∧
    Rep f64 (lenQ k w r) ∧ Rep f64 (R (w * k)) := by
  obtain ⟨r1, r2⟩ := abs_le.1 hr
  have hx0 : 0 ≤ w * k := mul_nonneg hw hk
  unfold lenQ
  have e1 := rnd64_err (w * k)
  rw [abs_of_nonneg hx0] at e1
  have hX0 : 0 ≤ R (w * k) := rnd_nonneg _ hx0
  have hXr : Rep f64 (R (w * k)) := rnd_rep f64 f64_p _
  obtain ⟨a1, a2⟩ := abs_le.1 e1
  set x := w * k
  set X := R x
  have e2 := rnd64_err (X + r)
  have h3 : |X + r| ≤ X + 1 / 2 := by rw [abs_le]; constructor <;> linarith
  obtain ⟨b1, b2⟩ := abs_le.1 e2
  have h4 : |X + r| / 2 ^ 53 ≤ (X + 1 / 2) / 2 ^ 53 := div_le_div_of_nonneg_right h3 (by norm_num)
  refine ⟨le_rnd_of_rep f64 f64_p rep_half (by linarith), ?_, rnd_rep f64 f64_p _, hXr⟩
  norm_num at a1 a2 b1 b2 h4
  rw [abs_le]
  norm_num
  constructor <;> linarith

/-- The share of a weight that is not tiny does not round below zero. -/
theorem lenQ_pos {k w r : ℚ} (h : 1 / 2 ^ 50 ≤ w * k) (hr : |r| ≤ 1 / 2) : -(1 / 2) < lenQ k w r := by
  obtain ⟨r1, r2⟩ := abs_le.1 hr
  have h1 : (1 / 2 ^ 50 : ℚ) ≤ R (w * k) :=
    le_rnd_of_rep f64 f64_p ⟨1, -50, by rw [pow2_eq]; norm_num, by decide, by decide⟩ h
  have h2 : (-(1 / 2) + 1 / 2 ^ 50 : ℚ) ≤ lenQ k w r := by
    unfold lenQ
    refine le_rnd_of_rep f64 f64_p ⟨-(2 ^ 49 - 1), -50, ?_, by decide, by decide⟩ (by linarith)
    rw [pow2_eq]; norm_num
  have h3 : (0 : ℚ) < 1 / 2 ^ 50 := by norm_num
  linarith

theorem lenQ_zero {w r : ℚ} (hr : Rep f64 r) : lenQ 0 w r = r := by
  unfold lenQ; rw [mul_zero, rnd_zero, zero_add, rnd_of_rep hr]

/-! ## The stream of shares -/

/-- The rounded shares, the remainder carried along. -/
def streamEls (k : ℚ) : List ℚ → ℚ → List Int
  | [], _ => []
  | w :: ws, r => roundHA (lenQ k w r) :: streamEls k ws (lenQ k w r - roundHA (lenQ k w r))

/-- Weights added up in a `double`. -/
def sumW : List ℚ → ℚ → ℚ
  | [], a => a
  | w :: ws, a => sumW ws (R (a + w))

theorem streamEls_sum {k : ℚ} (hk : 0 ≤ k) (ws : List ℚ) (hw : ∀ w ∈ ws, 0 ≤ w) (r : ℚ) (hr : |r| ≤ 1 / 2) :
    |((streamEls k ws r).sum : ℚ) - (k * ws.sum + r)|
      ≤ 1 / 2 + (k * ws.sum * (201 / 100) + ws.length * (51 / 100)) / 2 ^ 53 := by
  induction ws generalizing r with
  | nil =>
    simp only [streamEls, List.sum_nil, Int.cast_zero, mul_zero, List.length_nil, Nat.cast_zero, zero_mul,
      zero_add, zero_div, add_zero, zero_sub, abs_neg]
    exact hr
  | cons w ws ih =>
    obtain ⟨h1, h2, _, _⟩ := lenQ_step hk (hw w (by simp)) hr
    simp only [streamEls, List.sum_cons, List.length_cons]
    set y := lenQ k w r
    have h3 := roundHA_err y
    have h4 := ih (fun w' h => hw w' (by simp [h])) (y - roundHA y) h3
    obtain ⟨a1, a2⟩ := abs_le.1 h2
    obtain ⟨b1, b2⟩ := abs_le.1 h4
    push_cast
    have hs : (k * (w + ws.sum) * (201 / 100) + ((ws.length : ℚ) + 1) * (51 / 100)) / 2 ^ 53
        = (w * k * (201 / 100) + 51 / 100) / 2 ^ 53
          + (k * ws.sum * (201 / 100) + ws.length * (51 / 100)) / 2 ^ 53 := by ring
    rw [hs, abs_le]
    have hd : k * (w + ws.sum) = w * k + k * ws.sum := by ring
    rw [hd]
    constructor <;> linarith

theorem sumW_ge (ws : List ℚ) (hw : ∀ w ∈ ws, 0 ≤ w) (a : ℚ) (ha : Rep f64 a) : a ≤ sumW ws a := by
  induction ws generalizing a with
  | nil => exact le_refl _
  | cons w ws ih =>
    have h1 : a ≤ R (a + w) := le_rnd_of_rep f64 f64_p ha (by have := hw w (by simp); linarith)
    exact h1.trans (ih (fun w' h => hw w' (by simp [h])) _ (rnd_rep f64 f64_p _))

/-- Every weight is below the total. -/
theorem le_sumW (ws : List ℚ) (hw : ∀ w ∈ ws, 0 ≤ w ∧ Rep f64 w) (a : ℚ) (ha0 : 0 ≤ a) :
    ∀ w ∈ ws, w ≤ sumW ws a := by
  induction ws generalizing a with
  | nil => simp
  | cons w ws ih =>
    obtain ⟨h0, h1⟩ := hw w (by simp)
    have h2 : w ≤ R (a + w) := le_rnd_of_rep f64 f64_p h1 (by linarith)
    have h3 : 0 ≤ R (a + w) := h0.trans h2
    have hw' : ∀ w ∈ ws, 0 ≤ w ∧ Rep f64 w := fun w' h => hw w' (by simp [h])
    intro v hv
    rcases List.mem_cons.1 hv with rfl | hv
    · exact h2.trans (sumW_ge ws (fun w' h => (hw' w' h).1) _ (rnd_rep f64 f64_p _))
    · exact ih hw' _ h3 v hv

theorem sumW_rep (ws : List ℚ) (a : ℚ) (ha : Rep f64 a) : Rep f64 (sumW ws a) := by
  induction ws generalizing a with
  | nil => exact ha
  | cons w ws ih => exact ih _ (rnd_rep f64 f64_p _)

theorem rnd64_err' {q : ℚ} (h : 0 ≤ q) : |R q - q| ≤ R q * (101 / 100) / 2 ^ 53 + 1 / 2 ^ 199 := by
  have h1 := rnd64_err q
  rw [abs_of_nonneg h] at h1
  obtain ⟨a1, a2⟩ := abs_le.1 h1
  have h0 : 0 ≤ R q := rnd_nonneg _ h
  norm_num at a1 a2
  rw [abs_le]
  norm_num
  constructor <;> linarith

theorem sumW_err (ws : List ℚ) (hw : ∀ w ∈ ws, 0 ≤ w) (a : ℚ) (ha0 : 0 ≤ a) :
    |sumW ws a - (a + ws.sum)| ≤ ws.length * (sumW ws a * (101 / 100) / 2 ^ 53 + 1 / 2 ^ 199) := by
  induction ws generalizing a with
  | nil => simp [sumW]
  | cons w ws ih =>
    have h0 := hw w (by simp)
    have hw' : ∀ w ∈ ws, 0 ≤ w := fun w' h => hw w' (by simp [h])
    have h1 := rnd64_err' (q := a + w) (by linarith)
    have h2 : 0 ≤ R (a + w) := rnd_nonneg _ (by linarith)
    have h3 := ih hw' (R (a + w)) h2
    have h4 : R (a + w) ≤ sumW ws (R (a + w)) := sumW_ge ws hw' _ (rnd_rep f64 f64_p _)
    simp only [sumW, List.sum_cons, List.length_cons]
    set S := sumW ws (R (a + w))
    set q := R (a + w)
    have h5 : q * (101 / 100) / 2 ^ 53 ≤ S * (101 / 100) / 2 ^ 53 := by
      apply div_le_div_of_nonneg_right _ (by norm_num); linarith
    obtain ⟨a1, a2⟩ := abs_le.1 h1
    obtain ⟨b1, b2⟩ := abs_le.1 h3
    have hs : (((ws.length + 1 : Nat)) : ℚ) * (S * (101 / 100) / 2 ^ 53 + 1 / 2 ^ 199)
        = ws.length * (S * (101 / 100) / 2 ^ 53 + 1 / 2 ^ 199) + (S * (101 / 100) / 2 ^ 53 + 1 / 2 ^ 199) := by
      push_cast; ring
    rw [hs, abs_le]
    constructor <;> linarith

/-- `k` times the weights add up to the size that is shared. -/
theorem share_sum {F n : Nat} {W S k : ℚ} (hW : 1 / 2 ^ 17 ≤ W) (hW2 : W ≤ 2 ^ 31) (hn : 1 ≤ n)
    (hF : F ≤ INT_MAX) (hnF : n * (F + 1) ≤ 2 ^ 49) (hk : k = R ((F : ℚ) / W))
    (hS : |W - S| ≤ n * (W * (101 / 100) / 2 ^ 53 + 1 / 2 ^ 199)) :
    0 ≤ k ∧ |k * S - F| ≤ (102 / 100 * n * (F + 1) + 102 / 100 * F + 1) / 2 ^ 53 ∧
      |k * W - F| ≤ F / 2 ^ 53 + 1 / 2 ^ 150 := by
  have hWpos : 0 < W := lt_of_lt_of_le (by norm_num) hW
  have hF0 : (0 : ℚ) ≤ F := by positivity
  have hFq : (F : ℚ) ≤ 2147483647 := by exact_mod_cast hF
  have hnq : (1 : ℚ) ≤ n := by exact_mod_cast hn
  have hnFq : (n : ℚ) * (F + 1) ≤ 2 ^ 49 := by exact_mod_cast hnF
  have hn49 : (n : ℚ) ≤ 2 ^ 49 := by nlinarith
  have hq0 : 0 ≤ (F : ℚ) / W := by positivity
  have e := rnd64_err ((F : ℚ) / W)
  rw [abs_of_nonneg hq0, ← hk] at e
  have hk0 : 0 ≤ k := by rw [hk]; exact rnd_nonneg _ hq0
  have hqW : (F : ℚ) / W * W = F := by field_simp
  have hkW : |k * W - F| ≤ F / 2 ^ 53 + 1 / 2 ^ 150 := by
    have h1 : k * W - F = (k - F / W) * W := by rw [sub_mul, hqW]
    rw [h1, abs_mul, abs_of_pos hWpos]
    calc |k - F / W| * W ≤ ((F : ℚ) / W / 2 ^ 53 + 1 / 2 ^ 200) * W := mul_le_mul_of_nonneg_right e hWpos.le
      _ = F / 2 ^ 53 + W / 2 ^ 200 := by rw [add_mul, div_mul_eq_mul_div, hqW]; ring
      _ ≤ F / 2 ^ 53 + 2 ^ 31 / 2 ^ 200 := by
        have : W / 2 ^ 200 ≤ 2 ^ 31 / 2 ^ 200 := div_le_div_of_nonneg_right hW2 (by norm_num)
        linarith
      _ ≤ _ := by norm_num
  refine ⟨hk0, ?_, hkW⟩
  obtain ⟨c1, c2⟩ := abs_le.1 hkW
  have hkWup : k * W ≤ F + F / 2 ^ 53 + 1 / 2 ^ 150 := by linarith
  have hkup : k ≤ 2 ^ 50 := by
    have h1 : k * (1 / 2 ^ 17) ≤ k * W := mul_le_mul_of_nonneg_left hW hk0
    norm_num at h1 hkWup ⊢
    linarith
  have h1 : |k * S - k * W| ≤ n * (k * W * (101 / 100) / 2 ^ 53 + k / 2 ^ 199) := by
    rw [← mul_sub, abs_mul, abs_of_nonneg hk0, abs_sub_comm]
    calc k * |W - S| ≤ k * (n * (W * (101 / 100) / 2 ^ 53 + 1 / 2 ^ 199)) :=
          mul_le_mul_of_nonneg_left hS hk0
      _ = _ := by ring
  have h2 : k * W * (101 / 100) / 2 ^ 53 + k / 2 ^ 199 ≤ (F + 1) * (102 / 100) / 2 ^ 53 := by
    have h3 : k / 2 ^ 199 ≤ 2 ^ 50 / 2 ^ 199 := div_le_div_of_nonneg_right hkup (by norm_num)
    norm_num at h3 hkWup ⊢
    linarith
  have h4 : (n : ℚ) * (k * W * (101 / 100) / 2 ^ 53 + k / 2 ^ 199) ≤ n * ((F + 1) * (102 / 100) / 2 ^ 53) :=
    mul_le_mul_of_nonneg_left h2 (by linarith)
  obtain ⟨d1, d2⟩ := abs_le.1 (h1.trans h4)
  have h5 : (n : ℚ) * ((F + 1) * (102 / 100) / 2 ^ 53) = 102 / 100 * n * (F + 1) / 2 ^ 53 := by ring
  rw [h5] at d1 d2
  have h6 : (102 / 100 * n * (F + 1) + 102 / 100 * F + 1) / 2 ^ 53
      = 102 / 100 * n * (F + 1) / 2 ^ 53 + (102 / 100 * F + 1) / (2 ^ 53 : ℚ) := by ring
  have h7 : (F : ℚ) / 2 ^ 53 + 1 / 2 ^ 150 ≤ (102 / 100 * F + 1) / (2 ^ 53 : ℚ) := by
    norm_num; linarith
  rw [h6, abs_le]
  constructor <;> linarith

/-- **The shares add up to exactly the size that is shared.** -/
theorem streamEls_exact {F : Nat} {ws : List ℚ} (hne : ws ≠ []) (hw : ∀ w ∈ ws, 0 ≤ w)
    (hW : 1 / 2 ^ 17 ≤ sumW ws 0) (hW2 : sumW ws 0 ≤ 2 ^ 31) (hF : F ≤ INT_MAX)
    (hnF : ws.length * (F + 1) ≤ 2 ^ 49) :
    (streamEls (R ((F : ℚ) / sumW ws 0)) ws 0).sum = F := by
  have hn : 1 ≤ ws.length := by
    rcases ws with _ | ⟨_, _⟩
    · exact absurd rfl hne
    · simp
  have e := sumW_err ws hw 0 (le_refl _)
  rw [zero_add] at e
  obtain ⟨hk0, h1, _⟩ := share_sum hW hW2 hn hF hnF rfl e
  set k := R ((F : ℚ) / sumW ws 0)
  have h2 := streamEls_sum hk0 ws hw 0 (by norm_num)
  rw [add_zero] at h2
  set Z := (streamEls k ws 0).sum
  obtain ⟨a1, a2⟩ := abs_le.1 h1
  obtain ⟨b1, b2⟩ := abs_le.1 h2
  have hnq : (1 : ℚ) ≤ ws.length := by exact_mod_cast hn
  have hnFq : (ws.length : ℚ) * (F + 1) ≤ 2 ^ 49 := by exact_mod_cast hnF
  have hF0 : (0 : ℚ) ≤ F := by positivity
  have hFq : (F : ℚ) ≤ 2147483647 := by exact_mod_cast hF
  have hnn : (ws.length : ℚ) ≤ ws.length * (F + 1) := by nlinarith
  have hFn : (F : ℚ) + 1 ≤ ws.length * (F + 1) := by nlinarith
  have hmul : 102 / 100 * (ws.length : ℚ) * (F + 1) = 102 / 100 * (ws.length * (F + 1)) := by ring
  rw [hmul] at a1 a2
  set P := (ws.length : ℚ) * (F + 1)
  set n := (ws.length : ℚ)
  set q := k * ws.sum
  have hq : q ≤ F + 1 := by norm_num at a2 hnFq ⊢; linarith
  norm_num at a1 a2 b1 b2 hnFq
  have c1 : (Z : ℚ) < ((F + 1 : Int) : ℚ) := by push_cast; linarith
  have c2 : ((F - 1 : Int) : ℚ) < (Z : ℚ) := by push_cast; linarith
  have c1 : Z < F + 1 := by exact_mod_cast c1
  have c2 : (F : Int) - 1 < Z := by exact_mod_cast c2
  omega

end BS
