import Verif.Props.FitSizes

/-!
# C76: `VariantPicker` of t/320
-/

namespace BS

theorem FV.le_fin {a b : ℚ} : FV.le (.fin a) (.fin b) = true ↔ a ≤ b := by
  unfold FV.le FV.lt FV.beq
  simp [le_iff_lt_or_eq]

section
variable {n : Nat} (hn : 0 < n) (hn' : n ≤ 1000000)
include hn hn'

/-- The quotient `max / total`. -/
theorem vp_step : FV.div f64 (.fin 255) (FV.ofInt f64 (n : Int)) = .fin (rnd f64 (255 / n)) := by
  have hq : (1 : ℚ) ≤ n := by exact_mod_cast hn
  rw [ofNat64 (by omega)]
  show (if (n : ℚ) = 0 then _ else FV.ofQ f64 (255 / (n : ℚ))) = _
  rw [if_neg (by linarith)]
  refine ofQ64 ?_
  rw [abs_of_nonneg (by positivity), div_le_iff₀ (by linarith)]
  have : (255 : ℚ) ≤ 2 ^ 100 := by norm_num
  nlinarith

omit hn' in
theorem vp_step_err : |rnd f64 (255 / n) - 255 / n| ≤ 1 / 2 ^ 45 - 1 / 2 ^ 60 := by
  have e := rnd64_err (255 / (n : ℚ))
  have hq : (1 : ℚ) ≤ n := by exact_mod_cast hn
  have : (255 : ℚ) / n ≤ 255 := by rw [div_le_iff₀ (by linarith)]; nlinarith
  rw [abs_of_nonneg (a := (255 : ℚ) / n) (by positivity)] at e
  refine le_trans e ?_
  have : (255 : ℚ) / n / 2 ^ 53 ≤ 255 / 2 ^ 53 := by
    apply div_le_div_of_nonneg_right this (by positivity)
  refine le_trans (add_le_add this (le_refl _)) (by norm_num)

/-- One addition to `sum`. -/
theorem vp_add {s : ℚ} {k : Nat} (hk : k + 1 ≤ n) (hs : |s - 255 * k / n| ≤ k / 2 ^ 44) :
    FV.add f64 (.fin s) (.fin (rnd f64 (255 / n))) = .fin (rnd f64 (s + rnd f64 (255 / n))) ∧
      |rnd f64 (s + rnd f64 (255 / n)) - 255 * (k + 1 : Nat) / n| ≤ (k + 1 : Nat) / 2 ^ 44 := by
  have e1 := abs_le.1 (vp_step_err (n := n) hn)
  set p := rnd f64 (255 / (n : ℚ)) with hp
  have hq : (0 : ℚ) < n := by exact_mod_cast hn
  have hs' := abs_le.1 hs
  have hk1 : (k : ℚ) / 2 ^ 44 ≤ 1 / 2 ^ 24 := by
    have : (k : ℚ) ≤ 1000000 := by exact_mod_cast (by omega : k ≤ 1000000)
    rw [div_le_iff₀ (by positivity)]
    refine le_trans this (by norm_num)
  have hx : (255 : ℚ) * k / n + 255 / n ≤ 255 := by
    rw [← add_div, div_le_iff₀ hq]
    have : ((k + 1 : Nat) : ℚ) ≤ n := by exact_mod_cast hk
    push_cast at this
    linarith
  have h0 : (0 : ℚ) ≤ 255 * k / n := by positivity
  have h1 : (0 : ℚ) ≤ 255 / n := by positivity
  have ha : |s + p| ≤ 255 + 1 / 2 := by
    rw [abs_le]
    constructor <;> linarith
  refine ⟨?_, ?_⟩
  · show FV.ofQ f64 (s + p) = _
    refine ofQ64 (le_trans ha (by norm_num))
  · have e2 := rnd64_err (s + p)
    have : |s + p| / 2 ^ 53 + 1 / 2 ^ 200 ≤ 1 / 2 ^ 45 - 1 / 2 ^ 57 := by
      have : |s + p| / 2 ^ 53 ≤ (255 + 1 / 2) / 2 ^ 53 := div_le_div_of_nonneg_right ha (by positivity)
      refine le_trans (add_le_add this (le_refl _)) (by norm_num)
    have e3 := abs_le.1 (le_trans e2 this)
    rw [show (255 : ℚ) * (k + 1 : Nat) / n = 255 * k / n + 255 / n by push_cast; ring,
      show (((k + 1 : Nat) : ℚ)) / 2 ^ 44 = k / 2 ^ 44 + 1 / 2 ^ 44 by push_cast; ring, abs_le]
    constructor <;> linarith

/-- `seed <= sum` decides exactly, but for equality. -/
theorem vp_cmp {s : ℚ} {k seed : Nat} (hk : k ≤ n) (hs : |s - 255 * k / n| ≤ k / 2 ^ 43) :
    ((seed : ℚ) ≤ s → seed * n ≤ 255 * k) ∧ (¬ (seed : ℚ) ≤ s → 255 * k ≤ seed * n) := by
  have hq : (0 : ℚ) < n := by exact_mod_cast hn
  have hq1 : (n : ℚ) ≤ 1000000 := by exact_mod_cast hn'
  have hs' := abs_le.1 hs
  have hk1 : (k : ℚ) / 2 ^ 43 ≤ 1 / 2 ^ 23 := by
    have : (k : ℚ) ≤ 1000000 := by exact_mod_cast (by omega : k ≤ 1000000)
    rw [div_le_iff₀ (by positivity)]
    refine le_trans this (by norm_num)
  have e : (255 : ℚ) * k / n * n = 255 * k := by field_simp
  have hm : (1 : ℚ) / 2 ^ 23 * n < 1 := by
    have : (1 : ℚ) / 2 ^ 23 * 1000000 < 1 := by norm_num
    nlinarith
  constructor
  · intro h
    have : (seed : ℚ) ≤ 255 * k / n + 1 / 2 ^ 23 := by linarith
    have : (seed : ℚ) * n ≤ 255 * k + 1 / 2 ^ 23 * n := by
      rw [← e]; nlinarith
    have : ((seed * n : Nat) : ℚ) < ((255 * k + 1 : Nat) : ℚ) := by push_cast; linarith
    have : seed * n < 255 * k + 1 := by exact_mod_cast this
    omega
  · intro h
    have : 255 * k / n - 1 / 2 ^ 23 ≤ (seed : ℚ) := by linarith
    have : (255 : ℚ) * k - 1 / 2 ^ 23 * n ≤ seed * n := by
      rw [← e]; nlinarith
    have : ((255 * k : Nat) : ℚ) < ((seed * n + 1 : Nat) : ℚ) := by push_cast; linarith
    have : 255 * k < seed * n + 1 := by exact_mod_cast this
    omega

/-- The inner loop. -/
theorem variantLoop_run {seed : Nat} (hseed : seed ≤ 255) {left i k : Nat} {s : ℚ} (hk : k + left ≤ n)
    (hs : |s - 255 * k / n| ≤ k / 2 ^ 44) (hlo : 255 * k ≤ seed * n) :
    (∃ j v, variantLoop (.fin (rnd f64 (255 / n))) seed left i (.fin s) = (some (i + j), v) ∧ j < left ∧
      255 * (k + j) ≤ seed * n ∧ seed * n ≤ 255 * (k + j + 1)) ∨
    ∃ s', variantLoop (.fin (rnd f64 (255 / n))) seed left i (.fin s) = (none, .fin s') ∧
      |s' - 255 * (k + left : Nat) / n| ≤ (k + left : Nat) / 2 ^ 44 ∧ 255 * (k + left) ≤ seed * n := by
  induction left generalizing i k s with
  | zero => exact .inr ⟨s, rfl, hs, hlo⟩
  | succ left ih =>
    obtain ⟨a1, a2⟩ := vp_add hn hn' (k := k) (by omega) hs
    have hc := vp_cmp hn hn' (seed := seed) (k := k + 1) (by omega) (le_trans a2 (by
      rw [div_le_div_iff₀ (by positivity) (by positivity)]
      have : (0 : ℚ) ≤ ((k + 1 : Nat) : ℚ) := by positivity
      nlinarith))
    have hu : variantLoop (.fin (rnd f64 (255 / n))) seed (left + 1) i (.fin s) =
        if FV.le (.fin (seed : ℚ)) (.fin (rnd f64 (s + rnd f64 (255 / n)))) then
          (some i, .fin (rnd f64 (s + rnd f64 (255 / n))))
        else variantLoop (.fin (rnd f64 (255 / n))) seed left (i + 1) (.fin (rnd f64 (s + rnd f64 (255 / n)))) := by
      rw [variantLoop, a1, ofNat64 (by omega)]
    rw [hu]
    by_cases h : (seed : ℚ) ≤ rnd f64 (s + rnd f64 (255 / n))
    · rw [if_pos (FV.le_fin.2 h)]
      exact .inl ⟨0, _, rfl, by omega, by omega, by have := hc.1 h; omega⟩
    · rw [if_neg (fun e => h (FV.le_fin.1 e))]
      rcases ih (i := i + 1) (k := k + 1) (by omega) a2 (hc.2 h) with ⟨j, v, e, h1, h2, h3⟩ | ⟨s', e, h1, h2⟩
      · exact .inl ⟨j + 1, v, by rw [e]; congr 2; omega, by omega, by omega, by omega⟩
      · refine .inr ⟨s', e, ?_, by omega⟩
        rw [show k + (left + 1) = k + 1 + left by omega]
        exact h1

omit hn hn' in
theorem vp_end {seed : Nat} {s : ℚ} (hseed : seed ≤ 255) (hs : |(seed : ℚ) - s| ≤ 1 / 2 ^ 20) (step : FV) (len place : Nat)
    (l : Nat × Nat) :
    variantsLoop step seed len place [] (.fin s) (some l) = .ok ⟨len - 1, l.1, l.2 - 1⟩ ∧
      (0 < len → weightedLoop step seed len place [] (.fin s) = .ok (len - 1)) := by
  have e1 : FV.sub f64 (FV.ofInt f64 (seed : Int)) (.fin s) = .fin (rnd f64 ((seed : ℚ) - s)) := by
    rw [ofNat64 (by omega)]
    show FV.ofQ f64 ((seed : ℚ) + -s) = _
    rw [← sub_eq_add_neg]
    exact ofQ64 (le_trans hs (by norm_num))
  have e2 : FV.ofQ f64 (1 / 10) = .fin (rnd f64 (1 / 10)) := ofQ64 (by norm_num [abs_of_pos])
  have e3 := abs_le.1 (rnd64_err (1 / 10))
  have e4 := rnd64_err ((seed : ℚ) - s)
  have e5 : |(seed : ℚ) - s| / 2 ^ 53 ≤ 1 := by
    rw [div_le_iff₀ (by positivity)]
    exact le_trans hs (by norm_num)
  have e6 : |(seed : ℚ) - s| / 2 ^ 53 ≤ 1 / 2 ^ 20 / 2 ^ 53 := div_le_div_of_nonneg_right hs (by positivity)
  have e4 := abs_le.1 e4
  have hs' := abs_le.1 hs
  rw [abs_of_nonneg (a := (1 : ℚ) / 10) (by norm_num)] at e3
  have n1 : ¬ rnd f64 (1 / 10) < rnd f64 ((seed : ℚ) - s) := by
    have : (1 : ℚ) / 2 ^ 20 / 2 ^ 53 + 1 / 2 ^ 200 + 1 / 2 ^ 20 + 1 / 10 / 2 ^ 53 + 1 / 2 ^ 200 < 1 / 10 := by norm_num
    linarith
  have n2 : ¬ rnd f64 (1 / 10) < -rnd f64 ((seed : ℚ) - s) := by
    have : (1 : ℚ) / 2 ^ 20 / 2 ^ 53 + 1 / 2 ^ 200 + 1 / 2 ^ 20 + 1 / 10 / 2 ^ 53 + 1 / 2 ^ 200 < 1 / 10 := by norm_num
    linarith
  have n3 : (FV.lt (.fin (rnd f64 (1 / 10))) (.fin (rnd f64 ((seed : ℚ) - s))) ||
      FV.lt (.fin (rnd f64 (1 / 10))) (FV.fin (rnd f64 ((seed : ℚ) - s))).neg) = false := by
    simp only [FV.lt, FV.neg, decide_eq_false n1, decide_eq_false n2, Bool.or_self]
  constructor
  · unfold variantsLoop
    rw [e1, e2]
    simp only [n3]
    rfl
  · intro hl
    unfold weightedLoop
    rw [e1, e2]
    simp only [n3]
    rw [if_neg (by simp), if_neg (by omega)]

/-- The outer loop, after the objects `pre`. -/
theorem variantsLoop_run {seed : Nat} (hseed : seed ≤ 255) {cs pre : List Nat} {s : ℚ} {last : Option (Nat × Nat)}
    (hS : (pre ++ cs).sum = n) (hs : |s - 255 * pre.sum / n| ≤ pre.sum / 2 ^ 44) (hlo : 255 * pre.sum ≤ seed * n)
    (hlast : pre.sum = 0 ∨ ∃ pl c, last = some (pl, c) ∧ (pre ++ cs)[pl]? = some c ∧ 0 < c ∧
      ((pre ++ cs).take pl).sum + c = pre.sum) :
    ∃ p c, variantsLoop (.fin (rnd f64 (255 / n))) seed (pre ++ cs).length pre.length cs (.fin s) last = .ok p ∧
      (pre ++ cs)[p.marked]? = some c ∧ p.variant < c ∧
      255 * (((pre ++ cs).take p.marked).sum + p.variant) ≤ seed * n ∧
      seed * n ≤ 255 * (((pre ++ cs).take p.marked).sum + p.variant + 1) ∧
      (p.returned = p.marked ∨ seed = 255 ∧ p.returned = (pre ++ cs).length - 1 ∧
        ((pre ++ cs).take p.marked).sum + p.variant + 1 = n) := by
  induction cs generalizing pre s last with
  | nil =>
    rw [List.append_nil] at hS
    rcases hlast with h | ⟨pl, c, rfl, h1, h2, h3⟩
    · omega
    have h255 : seed = 255 := by
      rw [hS] at hlo
      have := Nat.le_of_mul_le_mul_right hlo hn
      omega
    have hq : (0 : ℚ) < n := by exact_mod_cast hn
    have hb : |(seed : ℚ) - s| ≤ 1 / 2 ^ 20 := by
      rw [hS] at hs
      have e : (255 : ℚ) * n / n = 255 := by field_simp
      rw [e] at hs
      rw [h255, abs_sub_comm]
      refine le_trans hs ?_
      have : (n : ℚ) ≤ 1000000 := by exact_mod_cast hn'
      rw [div_le_iff₀ (by positivity)]
      refine le_trans this (by norm_num)
    refine ⟨_, c, (vp_end hseed hb _ _ _ _).1, h1, by dsimp only; omega, ?_, ?_, .inr ⟨h255, rfl, ?_⟩⟩
    · show 255 * (((pre ++ []).take pl).sum + (c - 1)) ≤ _
      rw [hS] at hlo h3
      omega
    · show _ ≤ 255 * (((pre ++ []).take pl).sum + (c - 1) + 1)
      have : ((pre ++ []).take pl).sum + (c - 1) + 1 = n := by omega
      rw [this, h255]
    · show ((pre ++ []).take pl).sum + (c - 1) + 1 = n
      omega
  | cons c cs ih =>
    have hsum : pre.sum + (c + cs.sum) = n := by
      rw [← hS, List.sum_append, List.sum_cons]
    have hap : pre ++ c :: cs = pre ++ [c] ++ cs := by simp
    have htake : ((pre ++ c :: cs).take pre.length).sum = pre.sum := by simp
    have hget : (pre ++ c :: cs)[pre.length]? = some c := by simp
    have hlen : (pre ++ [c]).length = pre.length + 1 := by simp
    have hsm : (pre ++ [c]).sum = pre.sum + c := by simp
    rw [variantsLoop]
    by_cases hc : c = 0
    · rw [if_pos hc]
      have hc' : pre.sum + c = pre.sum := by omega
      have := ih (pre := pre ++ [c]) (s := s) (last := last) (by rw [← hap]; exact hS)
        (by rw [hsm, hc']; exact hs) (by rw [hsm, hc']; exact hlo) (by rw [← hap, hsm, hc']; exact hlast)
      rw [hlen, ← hap] at this
      exact this
    · rw [if_neg hc]
      rcases variantLoop_run hn hn' hseed (left := c) (i := 0) (k := pre.sum) (by omega) hs hlo with
        ⟨j, v, e, h1, h2, h3⟩ | ⟨s', e, h1, h2⟩
      · rw [e]
        refine ⟨⟨pre.length, pre.length, 0 + j⟩, c, rfl, hget, by dsimp only; omega, ?_, ?_, .inl rfl⟩
        · dsimp only; rw [htake]; simpa using h2
        · dsimp only; rw [htake]; simpa using h3
      · rw [e]
        have := ih (pre := pre ++ [c]) (s := s') (last := some (pre.length, c)) (by rw [← hap]; exact hS)
          (by rw [hsm]; exact h1) (by rw [hsm]; exact h2)
          (.inr ⟨pre.length, c, rfl, by rw [← hap]; exact hget, by omega, by rw [← hap, htake, hsm]⟩)
        rw [hlen, ← hap] at this
        exact this

/-- One addition to `sum` in `WeightedRefPicker`. -/
theorem wp_add {s : ℚ} {W w : Nat} (hw : 1 ≤ w) (hk : W + w ≤ n) (hs : |s - 255 * W / n| ≤ W / 2 ^ 43) :
    ∃ s', FV.add f64 (.fin s) (FV.mul f64 (.fin (rnd f64 (255 / n))) (FV.ofInt f64 (w : Int))) = .fin s' ∧
      |s' - 255 * (W + w : Nat) / n| ≤ (W + w : Nat) / 2 ^ 43 := by
  have e1 := abs_le.1 (vp_step_err (n := n) hn)
  set p := rnd f64 (255 / (n : ℚ)) with hp
  have hq : (0 : ℚ) < n := by exact_mod_cast hn
  have hs' := abs_le.1 hs
  have hw1 : (1 : ℚ) ≤ w := by exact_mod_cast hw
  have hk1 : (W : ℚ) / 2 ^ 43 ≤ 1 / 2 ^ 23 := by
    have : (W : ℚ) ≤ 1000000 := by exact_mod_cast (by omega : W ≤ 1000000)
    rw [div_le_iff₀ (by positivity)]
    refine le_trans this (by norm_num)
  have hwn : (w : ℚ) / 2 ^ 45 ≤ 1 / 2 ^ 25 := by
    have : (w : ℚ) ≤ 1000000 := by exact_mod_cast (by omega : w ≤ 1000000)
    rw [div_le_iff₀ (by positivity)]
    refine le_trans this (by norm_num)
  have hx : (255 : ℚ) * W / n + 255 * w / n ≤ 255 := by
    rw [← add_div, div_le_iff₀ hq]
    have : ((W + w : Nat) : ℚ) ≤ n := by exact_mod_cast hk
    push_cast at this
    linarith
  have h0 : (0 : ℚ) ≤ 255 * W / n := by positivity
  have h1 : (0 : ℚ) ≤ 255 * w / n := by positivity
  have hpw : |p * w - 255 * w / n| ≤ w / 2 ^ 45 := by
    rw [show p * w - 255 * w / n = w * (p - 255 / n) by ring, abs_mul, abs_of_nonneg (show (0 : ℚ) ≤ w by linarith)]
    have : |p - 255 / n| ≤ 1 / 2 ^ 45 := by
      have := vp_step_err (n := n) hn
      rw [← hp] at this
      refine le_trans this (by norm_num)
    calc (w : ℚ) * |p - 255 / n| ≤ w * (1 / 2 ^ 45) := mul_le_mul_of_nonneg_left this (by linarith)
      _ = w / 2 ^ 45 := by ring
  have hpw' := abs_le.1 hpw
  have ha : |p * w| ≤ 255 + 1 / 4 := by
    rw [abs_le]; constructor <;> linarith
  have em : FV.mul f64 (.fin p) (FV.ofInt f64 (w : Int)) = .fin (rnd f64 (p * w)) := by
    rw [ofNat64 (by omega)]
    exact ofQ64 (le_trans ha (by norm_num))
  have e2 : |rnd f64 (p * w) - p * w| ≤ 1 / 2 ^ 45 - 1 / 2 ^ 57 := by
    refine le_trans (rnd64_err (p * w)) ?_
    have : |p * w| / 2 ^ 53 ≤ (255 + 1 / 4) / 2 ^ 53 := div_le_div_of_nonneg_right ha (by positivity)
    refine le_trans (add_le_add this (le_refl _)) (by norm_num)
  have e2' := abs_le.1 e2
  have hb : |s + rnd f64 (p * w)| ≤ 255 + 1 / 2 := by
    rw [abs_le]; constructor <;> linarith
  refine ⟨rnd f64 (s + rnd f64 (p * w)), ?_, ?_⟩
  · rw [em]
    exact ofQ64 (le_trans hb (by norm_num))
  · have e3 := rnd64_err (s + rnd f64 (p * w))
    have : |s + rnd f64 (p * w)| / 2 ^ 53 + 1 / 2 ^ 200 ≤ 1 / 2 ^ 45 - 1 / 2 ^ 57 := by
      have : |s + rnd f64 (p * w)| / 2 ^ 53 ≤ (255 + 1 / 2) / 2 ^ 53 := div_le_div_of_nonneg_right hb (by positivity)
      refine le_trans (add_le_add this (le_refl _)) (by norm_num)
    have e3 := abs_le.1 (le_trans e3 this)
    have e4 : (w : ℚ) / 2 ^ 43 = w / 2 ^ 45 + 3 * (w / 2 ^ 45) := by ring
    have e5 : (1 : ℚ) / 2 ^ 45 ≤ w / 2 ^ 45 := div_le_div_of_nonneg_right hw1 (by positivity)
    rw [show (255 : ℚ) * (W + w : Nat) / n = 255 * W / n + 255 * w / n by push_cast; ring,
      show (((W + w : Nat) : ℚ)) / 2 ^ 43 = W / 2 ^ 43 + w / 2 ^ 43 by push_cast; ring, abs_le]
    constructor <;> linarith

/-- The loop of `WeightedRefPicker`, after the weights `pre`. -/
theorem weightedLoop_run {c : Nat} (hc : c ≤ 255) {ws pre : List Nat} {s : ℚ} (hpos : ∀ w ∈ ws, 1 ≤ w)
    (hS : (pre ++ ws).sum = n) (hs : |s - 255 * pre.sum / n| ≤ pre.sum / 2 ^ 43) (hlo : 255 * pre.sum ≤ c * n) :
    ∃ i, weightedLoop (.fin (rnd f64 (255 / n))) c (pre ++ ws).length pre.length (ws.map fun (w : Nat) => (w : Int)) (.fin s) = .ok i ∧
      i < (pre ++ ws).length ∧ 255 * ((pre ++ ws).take i).sum ≤ c * n ∧
      c * n ≤ 255 * ((pre ++ ws).take (i + 1)).sum := by
  induction ws generalizing pre s with
  | nil =>
    rw [List.append_nil] at *
    have h255 : c = 255 := by
      rw [hS] at hlo
      have := Nat.le_of_mul_le_mul_right hlo hn
      omega
    have hq : (0 : ℚ) < n := by exact_mod_cast hn
    have hb : |(c : ℚ) - s| ≤ 1 / 2 ^ 20 := by
      rw [hS] at hs
      have e : (255 : ℚ) * n / n = 255 := by field_simp
      rw [e] at hs
      rw [h255, abs_sub_comm]
      refine le_trans hs ?_
      have : (n : ℚ) ≤ 1000000 := by exact_mod_cast hn'
      rw [div_le_iff₀ (by positivity)]
      refine le_trans this (by norm_num)
    have hlen : 0 < pre.length := by
      cases pre with
      | nil => simp at hS; omega
      | cons => simp
    refine ⟨pre.length - 1, (vp_end hc hb _ _ _ (0, 0)).2 hlen, by omega, ?_, ?_⟩
    · have := List.sum_take_add_sum_drop pre (pre.length - 1)
      rw [h255]
      exact Nat.mul_le_mul_left _ (by omega)
    · rw [show pre.length - 1 + 1 = pre.length by omega, List.take_length, hS, h255]
  | cons w ws ih =>
    have hsum : pre.sum + (w + ws.sum) = n := by
      rw [← hS, List.sum_append, List.sum_cons]
    have hap : pre ++ w :: ws = pre ++ [w] ++ ws := by simp
    have hlen : (pre ++ [w]).length = pre.length + 1 := by simp
    have hsm : (pre ++ [w]).sum = pre.sum + w := by simp
    have ht1 : ((pre ++ w :: ws).take pre.length).sum = pre.sum := by simp
    have ht2 : ((pre ++ w :: ws).take (pre.length + 1)).sum = pre.sum + w := by
      rw [hap, ← hlen, List.take_left, hsm]
    obtain ⟨s', a1, a2⟩ := wp_add hn hn' (hpos w List.mem_cons_self) (W := pre.sum) (by omega) hs
    have hcmp := vp_cmp hn hn' (seed := c) (k := pre.sum + w) (by omega) a2
    rw [List.map_cons, weightedLoop]
    rw [a1, ofNat64 (n := c) (by omega)]
    by_cases h : (c : ℚ) ≤ s'
    · rw [if_pos (FV.le_fin.2 h)]
      exact ⟨pre.length, rfl, by simp, by rw [ht1]; exact hlo, by rw [ht2]; exact hcmp.1 h⟩
    · rw [if_neg (fun e => h (FV.le_fin.1 e))]
      have := ih (pre := pre ++ [w]) (s := s') (fun t ht => hpos t (List.mem_cons_of_mem _ ht)) (by rw [← hap]; exact hS)
        (by rw [hsm]; exact a2) (by rw [hsm]; exact hcmp.2 h)
      rw [hlen, ← hap] at this
      exact this

end

theorem variantPicker_run {counts : List Nat} (h0 : 0 < counts.sum) (h1 : counts.sum ≤ 1000000) (seed : UInt8) :
    ∃ p c, variantPicker counts seed = .ok p ∧ counts[p.marked]? = some c ∧ p.variant < c ∧
      255 * ((counts.take p.marked).sum + p.variant) ≤ seed.toNat * counts.sum ∧
      seed.toNat * counts.sum ≤ 255 * ((counts.take p.marked).sum + p.variant + 1) ∧
      (p.returned = p.marked ∨ seed.toNat = 255 ∧ p.returned = counts.length - 1 ∧
        (counts.take p.marked).sum + p.variant + 1 = counts.sum) := by
  have hseed : seed.toNat ≤ 255 := by have := seed.toNat_lt; omega
  unfold variantPicker
  rw [vp_step h0 h1]
  exact variantsLoop_run h0 h1 hseed (pre := []) (cs := counts) (s := 0) (last := none) rfl (by simp) (by simp)
    (.inl rfl)

/-- **C76.** Numbering all variants of all objects in order, the picker marks the variant whose share of the range from 0
to 255, cut evenly, contains the seed (either neighbour if the seed is on a boundary): the accumulated rounding never shows, and
the program is never stopped. For 1 to 1,000,000 variants. -/
theorem C76_pick {counts : List Nat} (h0 : 0 < counts.sum) (h1 : counts.sum ≤ 1000000) (seed : UInt8) :
    ∃ p c, variantPicker counts seed = .ok p ∧ counts[p.marked]? = some c ∧ p.variant < c ∧
      255 * ((counts.take p.marked).sum + p.variant) ≤ seed.toNat * counts.sum ∧
      seed.toNat * counts.sum ≤ 255 * ((counts.take p.marked).sum + p.variant + 1) := by
  obtain ⟨p, c, e, h1, h2, h3, h4, _⟩ := variantPicker_run h0 h1 seed
  exact ⟨p, c, e, h1, h2, h3, h4⟩

/-- Two places in a list of counts with the same number are the same. -/
theorem place_inj {counts : List Nat} {i j c d v w : Nat} (hi : counts[i]? = some c) (hj : counts[j]? = some d)
    (hv : v < c) (hw : w < d) (h : (counts.take i).sum + v = (counts.take j).sum + w) : i = j ∧ v = w := by
  induction counts generalizing i j with
  | nil => simp at hi
  | cons a l ih =>
    cases i with
    | zero =>
      cases j with
      | zero => simp at h; exact ⟨rfl, h⟩
      | succ j =>
        simp at hi h
        omega
    | succ i =>
      cases j with
      | zero =>
        simp at hj h
        omega
      | succ j =>
        simp only [List.take_succ_cons, List.sum_cons, List.getElem?_cons_succ] at hi hj h
        have := ih hi hj (by omega)
        omega

/-- The object returned is the one marked, unless the last object has no variants. -/
theorem C76_returned_partial {counts : List Nat} {c : Nat} (h1 : counts.sum ≤ 1000000) (hl : counts.getLast? = some c)
    (hc : 0 < c) (seed : UInt8) : ∃ p, variantPicker counts seed = .ok p ∧ p.returned = p.marked := by
  have hlast : counts[counts.length - 1]? = some c := by rw [← List.getLast?_eq_getElem?]; exact hl
  have hle : (counts.take (counts.length - 1)).sum + c = counts.sum := by
    obtain ⟨l, rfl⟩ := List.getLast?_eq_some_iff.1 hl
    simp
  obtain ⟨p, d, e, g1, g2, _, _, g⟩ := variantPicker_run (counts := counts) (by omega) h1 seed
  refine ⟨p, e, ?_⟩
  rcases g with g | ⟨_, g3, g4⟩
  · exact g
  · have := (place_inj g1 hlast g2 (show c - 1 < c by omega) (by omega)).1
    omega

/-- With up to 254 variants, every variant of every object is chosen for some seed, and its object returned. -/
theorem C76_every {counts : List Nat} (h1 : counts.sum ≤ 254) {i c v : Nat} (hi : counts[i]? = some c) (hv : v < c) :
    ∃ seed, variantPicker counts seed = .ok ⟨i, i, v⟩ := by
  have hle : (counts.take i).sum + c ≤ counts.sum := by
    have := List.sum_take_add_sum_drop counts i
    have h2 : counts.drop i = c :: counts.drop (i + 1) := by
      obtain ⟨hlt, rfl⟩ := List.getElem?_eq_some_iff.1 hi
      exact List.drop_eq_getElem_cons hlt
    rw [h2, List.sum_cons] at this
    omega
  set q := (counts.take i).sum + v with hq
  set n := counts.sum with hn
  have hn0 : 0 < n := by omega
  have hdm := Nat.div_add_mod (255 * q) n
  have hmod := Nat.mod_lt (255 * q) hn0
  set d := 255 * q / n with hd
  have hd' : (d + 1) * n = n * d + n := by ring
  have hlt : d + 1 < 256 := by
    by_contra h
    have : 255 * n ≤ d * n := Nat.mul_le_mul_right n (by omega)
    have : d * n = n * d := Nat.mul_comm _ _
    omega
  have hlt' : d + 1 < 255 := by
    by_contra h
    have : d + 1 = 255 := by omega
    rw [this] at hd'
    omega
  refine ⟨UInt8.ofNat (d + 1), ?_⟩
  have ht : (UInt8.ofNat (d + 1)).toNat = d + 1 := by
    simp [UInt8.toNat_ofNat']; omega
  obtain ⟨p, e, he, g1, g2, g3, g4, g⟩ := variantPicker_run (counts := counts) (by omega) (by omega) (UInt8.ofNat (d + 1))
  rw [ht, ← hn] at g3 g4
  rw [ht] at g
  have hsame : (counts.take p.marked).sum + p.variant = q := by omega
  obtain ⟨a, b⟩ := place_inj g1 hi g2 hv (by omega)
  have hr : p.returned = p.marked := by
    rcases g with g | ⟨g, _⟩
    · exact g
    · omega
  rw [he]
  cases p
  simp only at a b hr
  subst a b hr
  rfl

/-- Three objects with 5, 1 and 1 variants: seed 200 is in the sixth of seven shares, the second object's only variant. -/
example : ∃ p, variantPicker [5, 1, 1] 200 = .ok p ∧ p = ⟨1, 1, 0⟩ := ⟨_, by decide +kernel, rfl⟩

example : ∃ p c, variantPicker [5, 1, 1] 200 = .ok p ∧ [5, 1, 1][p.marked]? = some c ∧ p.variant < c := by
  obtain ⟨p, c, h⟩ := C76_pick (counts := [5, 1, 1]) (by decide) (by decide) 200
  exact ⟨p, c, h.1, h.2.1, h.2.2.1⟩

example : ∃ seed, variantPicker [5, 0, 3] seed = .ok ⟨2, 2, 1⟩ := C76_every (by decide) (c := 3) rfl (by decide)

/-- If the last object is disabled, rounding can make the picker return it, with the choice marked in another. -/
theorem C76_returned_wrong : variantPicker [18, 0] 255 = .ok ⟨1, 0, 17⟩ := by decide +kernel

/-- So the object returned is not always the one marked. -/
theorem C76_returned_needed : ¬ ∀ (counts : List Nat) (seed : UInt8), 0 < counts.sum → counts.sum ≤ 1000000 →
    ∃ p, variantPicker counts seed = .ok p ∧ p.returned = p.marked := by
  intro h
  obtain ⟨p, e, h⟩ := h [18, 0] 255 (by decide) (by decide)
  rw [C76_returned_wrong] at e
  cases e
  exact absurd h (by decide)

/-- With no variants at all the program is stopped, or an uninitialised pointer is used. -/
theorem C76_no_variants : variantPicker [0, 0] 7 = .abort ∧ variantPicker [0] 0 = .ub .nullDeref := by decide +kernel

/-! ## `WeightedRefPicker` -/

/-- **C76 (weights).** The range from 0 to 255 is cut in proportion to the weights, and the reference whose part contains the
byte is returned (either neighbour on a boundary). For positive weights that add up to at most 1,000,000. -/
theorem C76_weighted {weights : List Nat} (hpos : ∀ w ∈ weights, 1 ≤ w) (h0 : weights ≠ []) (h1 : weights.sum ≤ 1000000)
    (c : UInt8) : ∃ i, weightedPick (weights.map fun (w : Nat) => (w : Int)) c = .ok i ∧ i < weights.length ∧
      255 * (weights.take i).sum ≤ c.toNat * weights.sum ∧ c.toNat * weights.sum ≤ 255 * (weights.take (i + 1)).sum := by
  have hseed : c.toNat ≤ 255 := by have := c.toNat_lt; omega
  have hn : 0 < weights.sum := by
    cases weights with
    | nil => exact absurd rfl h0
    | cons w ws => have := hpos w List.mem_cons_self; rw [List.sum_cons]; omega
  unfold weightedPick
  rw [sum_mapCast, vp_step hn h1, List.length_map]
  exact weightedLoop_run hn h1 hseed (pre := []) (ws := weights) (s := 0) hpos rfl (by simp) (by simp)

/-- The commented-out call of lines 397-409: weights 1, 2, 3, 4, byte 128. -/
example : ∃ i, weightedPick [1, 2, 3, 4] 128 = .ok i ∧ i < 4 ∧ 255 * ([1, 2, 3, 4].take i).sum ≤ 1280 ∧
    1280 ≤ 255 * ([1, 2, 3, 4].take (i + 1)).sum :=
  C76_weighted (weights := [1, 2, 3, 4]) (by decide) (by decide) (by decide) 128

/-- A reference of weight 0 can be returned. -/
theorem C76_weight_zero : weightedPick [0, 1] 0 = .ok 0 := by decide +kernel

end BS
