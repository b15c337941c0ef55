import Verif.Lemmas.Dict
import Mathlib.Data.Finset.Card

/-!
# How many oracle values lead to the same index
-/

namespace BS

/-- The scaled value is close to `o * n / M`. -/
theorem scaledQ_close {o M n : Nat} (hM1 : 1 ≤ M) (ho : o ≤ M) (hM : M < W64) (hn1 : 1 ≤ n) (hn : n ≤ 2 ^ 53) :
    |scaledQ o M n - (o : ℚ) * n / M| ≤ (n : ℚ) / 2 ^ 50 := by
  have hn0 : (1 : ℚ) ≤ n := by exact_mod_cast hn1
  rcases Nat.eq_zero_or_pos o with rfl | hpos
  · unfold scaledQ
    simp only [Nat.cast_zero, rnd_zero, zero_div, zero_mul, sub_zero, abs_zero]
    positivity
  have hMq : (1 : ℚ) ≤ M := by exact_mod_cast hM1
  have hMu : (M : ℚ) ≤ 2 ^ 64 := by
    have : M ≤ 2 ^ 64 := by norm_num; omega
    exact_mod_cast this
  have hoq : (1 : ℚ) ≤ o := by exact_mod_cast hpos
  have hoM : (o : ℚ) ≤ M := by exact_mod_cast ho
  have tiny : ∀ q : ℚ, 1 / 2 ^ 66 ≤ q → pow2 (-1022) ≤ |q| := by
    intro q hq
    have e : (1 : ℚ) / 2 ^ 66 = pow2 (-66) := by rw [pow2_eq]; norm_num
    rw [abs_of_nonneg (le_trans (by norm_num) hq)]
    refine le_trans ?_ hq
    rw [e]; exact pow2_mono (by norm_num)
  unfold scaledQ
  rw [rnd64_nat hn]
  have a := rnd64_rel (q := (o : ℚ)) (Or.inr (tiny _ (le_trans (by norm_num) hoq)))
  have b := rnd64_rel (q := (M : ℚ)) (Or.inr (tiny _ (le_trans (by norm_num) hMq)))
  rw [abs_of_nonneg (by linarith : (0 : ℚ) ≤ o)] at a
  rw [abs_of_nonneg (by linarith : (0 : ℚ) ≤ M)] at b
  obtain ⟨a1, a2⟩ := abs_le.1 a
  obtain ⟨b1, b2⟩ := abs_le.1 b
  generalize rnd f64 (o : ℚ) = A at *
  generalize rnd f64 (M : ℚ) = B at *
  set t : ℚ := (o : ℚ) / M with ht
  have ht0 : 1 / 2 ^ 64 ≤ t := by
    rw [ht, div_le_div_iff₀ (by norm_num) (by linarith)]; nlinarith
  have ht1 : t ≤ 1 := by rw [ht, div_le_one (by linarith)]; exact hoM
  have hot : (o : ℚ) = t * M := by rw [ht]; field_simp
  have hBpos : 0 < B := by
    have : (M : ℚ) * (1 - 1 / 2 ^ 53) ≤ B := by linarith
    have h2 : (0 : ℚ) < M * (1 - 1 / 2 ^ 53) := mul_pos (by linarith) (by norm_num)
    linarith
  have htpos : 0 < t := lt_of_lt_of_le (by norm_num) ht0
  have hMpos : (0 : ℚ) < M := by linarith
  have htM : 0 < t * M := mul_pos htpos hMpos
  have q1 : A / B ≤ t * (1 + 3 / 2 ^ 53) := by
    rw [div_le_iff₀ hBpos]
    have h1 : A ≤ t * M * (1 + 1 / 2 ^ 53) := by rw [← hot]; linarith
    have h2 : (M : ℚ) * (1 - 1 / 2 ^ 53) ≤ B := by linarith
    have h3 : t * (1 + 3 / 2 ^ 53) * (M * (1 - 1 / 2 ^ 53)) ≤ t * (1 + 3 / 2 ^ 53) * B :=
      mul_le_mul_of_nonneg_left h2 (mul_nonneg htpos.le (by norm_num))
    have h4 : t * M * (1 + 1 / 2 ^ 53) ≤ t * (1 + 3 / 2 ^ 53) * (M * (1 - 1 / 2 ^ 53)) := by
      have : t * (1 + 3 / 2 ^ 53) * (M * (1 - 1 / 2 ^ 53)) = t * M * ((1 + 3 / 2 ^ 53) * (1 - 1 / 2 ^ 53)) := by ring
      rw [this]
      exact mul_le_mul_of_nonneg_left (by norm_num) htM.le
    linarith
  have q2 : t * (1 - 2 / 2 ^ 53) ≤ A / B := by
    rw [le_div_iff₀ hBpos]
    have h1 : t * M * (1 - 1 / 2 ^ 53) ≤ A := by rw [← hot]; linarith
    have h2 : B ≤ (M : ℚ) * (1 + 1 / 2 ^ 53) := by linarith
    have h3 : t * (1 - 2 / 2 ^ 53) * B ≤ t * (1 - 2 / 2 ^ 53) * (M * (1 + 1 / 2 ^ 53)) :=
      mul_le_mul_of_nonneg_left h2 (mul_nonneg htpos.le (by norm_num))
    have h4 : t * (1 - 2 / 2 ^ 53) * (M * (1 + 1 / 2 ^ 53)) ≤ t * M * (1 - 1 / 2 ^ 53) := by
      have : t * (1 - 2 / 2 ^ 53) * (M * (1 + 1 / 2 ^ 53)) = t * M * ((1 - 2 / 2 ^ 53) * (1 + 1 / 2 ^ 53)) := by ring
      rw [this]
      exact mul_le_mul_of_nonneg_left (by norm_num) htM.le
    linarith
  generalize A / B = q at *
  have hq0 : 1 / 2 ^ 65 ≤ q := by
    refine le_trans ?_ q2
    calc (1 : ℚ) / 2 ^ 65 ≤ 1 / 2 ^ 64 * (1 - 2 / 2 ^ 53) := by norm_num
      _ ≤ _ := mul_le_mul_of_nonneg_right ht0 (by norm_num)
  have r := rnd64_rel (q := q) (Or.inr (tiny _ (le_trans (by norm_num) hq0)))
  have hqpos : 0 < q := lt_of_lt_of_le (by norm_num) hq0
  rw [abs_of_pos hqpos] at r
  obtain ⟨r1, r2⟩ := abs_le.1 r
  generalize rnd f64 q = R at *
  have R1 : R ≤ t * (1 + 5 / 2 ^ 53) := by
    have h1 : R ≤ q * (1 + 1 / 2 ^ 53) := by linarith
    have h2 : q * (1 + 1 / 2 ^ 53) ≤ t * (1 + 3 / 2 ^ 53) * (1 + 1 / 2 ^ 53) :=
      mul_le_mul_of_nonneg_right q1 (by norm_num)
    have h3 : t * (1 + 3 / 2 ^ 53) * (1 + 1 / 2 ^ 53) = t * ((1 + 3 / 2 ^ 53) * (1 + 1 / 2 ^ 53)) := by ring
    have h4 : t * ((1 + 3 / 2 ^ 53) * (1 + 1 / 2 ^ 53)) ≤ t * (1 + 5 / 2 ^ 53) :=
      mul_le_mul_of_nonneg_left (by norm_num) htpos.le
    linarith
  have R2 : t * (1 - 4 / 2 ^ 53) ≤ R := by
    have h1 : q * (1 - 1 / 2 ^ 53) ≤ R := by linarith
    have h2 : t * (1 - 2 / 2 ^ 53) * (1 - 1 / 2 ^ 53) ≤ q * (1 - 1 / 2 ^ 53) :=
      mul_le_mul_of_nonneg_right q2 (by norm_num)
    have h3 : t * (1 - 2 / 2 ^ 53) * (1 - 1 / 2 ^ 53) = t * ((1 - 2 / 2 ^ 53) * (1 - 1 / 2 ^ 53)) := by ring
    have h4 : t * (1 - 4 / 2 ^ 53) ≤ t * ((1 - 2 / 2 ^ 53) * (1 - 1 / 2 ^ 53)) :=
      mul_le_mul_of_nonneg_left (by norm_num) htpos.le
    linarith
  have hR0 : 1 / 2 ^ 65 ≤ R := by
    refine le_trans ?_ R2
    calc (1 : ℚ) / 2 ^ 65 ≤ 1 / 2 ^ 64 * (1 - 4 / 2 ^ 53) := by norm_num
      _ ≤ _ := mul_le_mul_of_nonneg_right ht0 (by norm_num)
  have hRpos : 0 < R := lt_of_lt_of_le (by norm_num) hR0
  have hz0 : 1 / 2 ^ 65 ≤ R * n := by nlinarith
  have x := rnd64_rel (q := R * n) (Or.inr (tiny _ (le_trans (by norm_num) hz0)))
  rw [abs_of_pos (mul_pos hRpos (by linarith) : (0 : ℚ) < R * n)] at x
  obtain ⟨x1, x2⟩ := abs_le.1 x
  generalize rnd f64 (R * n) = X at *
  have htn : 0 < t * n := mul_pos htpos (by linarith)
  have htn1 : t * n ≤ n := by nlinarith
  have z1 : R * n ≤ t * n * (1 + 5 / 2 ^ 53) := by nlinarith
  have z2 : t * n * (1 - 4 / 2 ^ 53) ≤ R * n := by nlinarith
  generalize R * n = z at *
  have e : (o : ℚ) * n / M = t * n := by rw [ht]; ring
  rw [e]
  generalize t * n = y at *
  rw [abs_le]
  constructor
  · have h1 : z * (1 - 1 / 2 ^ 53) ≤ X := by linarith
    have h2 : y * (1 - 4 / 2 ^ 53) * (1 - 1 / 2 ^ 53) ≤ z * (1 - 1 / 2 ^ 53) :=
      mul_le_mul_of_nonneg_right z2 (by norm_num)
    have h3 : y * (1 - 8 / 2 ^ 53) ≤ y * ((1 - 4 / 2 ^ 53) * (1 - 1 / 2 ^ 53)) :=
      mul_le_mul_of_nonneg_left (by norm_num) htn.le
    have h4 : y * 8 / 2 ^ 53 ≤ (n : ℚ) / 2 ^ 50 := by
      have : y * 8 / 2 ^ 53 = y / 2 ^ 50 := by ring
      rw [this]; linarith
    linarith
  · have h1 : X ≤ z * (1 + 1 / 2 ^ 53) := by linarith
    have h2 : z * (1 + 1 / 2 ^ 53) ≤ y * (1 + 5 / 2 ^ 53) * (1 + 1 / 2 ^ 53) :=
      mul_le_mul_of_nonneg_right z1 (by norm_num)
    have h3 : y * ((1 + 5 / 2 ^ 53) * (1 + 1 / 2 ^ 53)) ≤ y * (1 + 8 / 2 ^ 53) :=
      mul_le_mul_of_nonneg_left (by norm_num) htn.le
    have h4 : y * 8 / 2 ^ 53 ≤ (n : ℚ) / 2 ^ 50 := by
      have : y * 8 / 2 ^ 53 = y / 2 ^ 50 := by ring
      rw [this]; linarith
    linarith

/-- Number of oracle values whose scaled value lies below `k`. -/
noncomputable def below (M n k : Nat) : Finset Nat := (Finset.range (M + 1)).filter fun o => scaledQ o M n < k

theorem below_lower {M n k : Nat} (hM1 : 1 ≤ M) (hM : M < W64) (hn1 : 1 ≤ n) (hn : n ≤ 2 ^ 53) (hk : k ≤ n) :
    k * M * 2 ^ 50 ≤ (below M n k).card * n * 2 ^ 50 + n * M := by
  obtain ⟨E, hE⟩ : ∃ E : Nat, E = 2 ^ 50 := ⟨_, rfl⟩
  have hEq : (2 : ℚ) ^ 50 = E := by rw [hE]; norm_num
  have hE0 : (0 : ℚ) < E := by rw [← hEq]; norm_num
  rw [← hE]
  by_contra hc
  push Not at hc
  set c := (below M n k).card with hcd
  have hcM : c < M := by
    have h1 : c * n * E < n * M * E := by
      have : k * M * E ≤ n * M * E := Nat.mul_le_mul_right _ (Nat.mul_le_mul_right _ hk)
      omega
    have h2 : c * n < n * M := Nat.lt_of_mul_lt_mul_right h1
    rw [Nat.mul_comm n M] at h2
    exact Nat.lt_of_mul_lt_mul_right h2
  have hsub : Finset.range (c + 1) ⊆ below M n k := by
    intro o ho
    rw [Finset.mem_range] at ho
    unfold below
    rw [Finset.mem_filter, Finset.mem_range]
    refine ⟨by omega, ?_⟩
    have h1 := (abs_le.1 (scaledQ_close (o := o) hM1 (by omega) hM hn1 hn)).2
    rw [hEq] at h1
    have h2 : o * n * E + n * M < k * M * E := by
      have : o * n * E ≤ c * n * E := Nat.mul_le_mul_right _ (Nat.mul_le_mul_right _ (by omega))
      omega
    have h3 : (o : ℚ) * n * E + n * M < k * M * E := by exact_mod_cast h2
    have hMq : (0 : ℚ) < M := by exact_mod_cast hM1
    have h4 : (o : ℚ) * n / M + n / E < k := by
      have : (o : ℚ) * n / M + n / E = (o * n * E + n * M) / (M * E) := by field_simp
      rw [this, div_lt_iff₀ (by positivity)]
      linarith
    linarith
  have := Finset.card_le_card hsub
  rw [Finset.card_range] at this
  omega

theorem below_upper {M n k : Nat} (hM1 : 1 ≤ M) (hM : M < W64) (hn1 : 1 ≤ n) (hn : n ≤ 2 ^ 53) :
    (below M n k).card * n * 2 ^ 50 ≤ k * M * 2 ^ 50 + n * M + n * 2 ^ 50 := by
  obtain ⟨E, hE⟩ : ∃ E : Nat, E = 2 ^ 50 := ⟨_, rfl⟩
  have hEq : (2 : ℚ) ^ 50 = E := by rw [hE]; norm_num
  have hE0 : (0 : ℚ) < E := by rw [← hEq]; norm_num
  rw [← hE]
  by_contra hc
  push Not at hc
  set c := (below M n k).card with hcd
  rcases Nat.eq_zero_or_pos c with h0 | hpos
  · rw [h0] at hc; simp at hc
  obtain ⟨d, hd⟩ : ∃ d, c = d + 1 := ⟨c - 1, by omega⟩
  rw [hd] at hc
  have hc' : k * M * E + n * M < d * n * E := by
    have e : (d + 1) * n * E = d * n * E + n * E := by ring
    omega
  have hsub : below M n k ⊆ Finset.range d := by
    intro o ho
    unfold below at ho
    rw [Finset.mem_filter, Finset.mem_range] at ho
    rw [Finset.mem_range]
    by_contra hge
    have h1 := (abs_le.1 (scaledQ_close (o := o) hM1 (by omega) hM hn1 hn)).1
    rw [hEq] at h1
    have h2 : k * M * E + n * M < o * n * E :=
      lt_of_lt_of_le hc' (Nat.mul_le_mul_right _ (Nat.mul_le_mul_right _ (by omega)))
    have h3 : (k : ℚ) * M * E + n * M < o * n * E := by exact_mod_cast h2
    have hMq : (0 : ℚ) < M := by exact_mod_cast hM1
    have h4 : (k : ℚ) + n / E < o * n / M := by
      have : (k : ℚ) + n / E = (k * M * E + n * M) / (M * E) := by field_simp
      rw [this, div_lt_div_iff₀ (by positivity) hMq]
      nlinarith
    linarith [ho.2]
  have := Finset.card_le_card hsub
  rw [Finset.card_range] at this
  omega

/-- The oracle values that lead to index `k`. -/
noncomputable def hits (M n k : Nat) : Finset Nat :=
  (Finset.range (M + 1)).filter fun o => scaledIndex o M n = .ok (k : Int)

theorem hits_card {M n k : Nat} (hM1 : 1 ≤ M) (hM : M < W64) (hn1 : 1 ≤ n) (hn : n ≤ 2 ^ 53) (hk : k < n) :
    n * (hits M n k).card * 2 ^ 49 ≤ (M + n) * 2 ^ 49 + n * M ∧
    M * 2 ^ 49 ≤ n * ((hits M n k).card + 1) * 2 ^ 49 + n * M := by
  have hmem : ∀ o, o ∈ hits M n k ↔ o ≤ M ∧ ((⌊scaledQ o M n⌋ = (k : Int)) ∨ (k + 1 = n ∧ ⌊scaledQ o M n⌋ = (n : Int))) := by
    intro o
    unfold hits
    rw [Finset.mem_filter, Finset.mem_range]
    constructor
    · rintro ⟨h1, h2⟩
      refine ⟨by omega, ?_⟩
      rw [scaledIndex_eq hM1 (by omega) hM hn] at h2
      injection h2 with h2
      generalize ⌊scaledQ o M n⌋ = z at *
      split at h2 <;> omega
    · rintro ⟨h1, h2⟩
      refine ⟨by omega, ?_⟩
      rw [scaledIndex_eq hM1 h1 hM hn]
      congr 1
      generalize ⌊scaledQ o M n⌋ = z at *
      split <;> omega
  have hlt : ∀ o (j : Nat), scaledQ o M n < j ↔ ⌊scaledQ o M n⌋ < (j : Int) := by
    intro o j
    rw [Int.floor_lt]; simp
  have hb : ∀ j o, o ∈ below M n j ↔ o ≤ M ∧ ⌊scaledQ o M n⌋ < (j : Int) := by
    intro j o
    unfold below
    rw [Finset.mem_filter, Finset.mem_range, hlt, Nat.lt_succ_iff]
  have L1 := below_lower (k := k) hM1 hM hn1 hn (by omega)
  have U1 := below_upper (k := k) hM1 hM hn1 hn
  rcases Nat.lt_or_ge (k + 1) n with h | h
  · have L2 := below_lower (k := k + 1) hM1 hM hn1 hn (by omega)
    have U2 := below_upper (k := k + 1) hM1 hM hn1 hn
    have e : below M n (k + 1) = below M n k ∪ hits M n k := by
      ext o
      rw [Finset.mem_union, hb, hb, hmem]
      generalize ⌊scaledQ o M n⌋ = z
      push_cast
      omega
    have hdis : Disjoint (below M n k) (hits M n k) := by
      rw [Finset.disjoint_left]
      intro o h1 h2
      rw [hb] at h1
      rw [hmem] at h2
      generalize ⌊scaledQ o M n⌋ = z at *
      omega
    have hc : (below M n (k + 1)).card = (below M n k).card + (hits M n k).card := by
      rw [e, Finset.card_union_of_disjoint hdis]
    rw [hc] at L2 U2
    generalize (below M n k).card = a at *
    generalize (hits M n k).card = c at *
    constructor <;> nlinarith
  · have hkn : n = k + 1 := by omega
    have e : Finset.range (M + 1) = below M n k ∪ hits M n k := by
      ext o
      rw [Finset.mem_union, hb, hmem, Finset.mem_range]
      constructor
      · intro ho
        obtain ⟨b0, b1⟩ := scaledQ_bounds hM1 (by omega : o ≤ M) hn
        have hfl2 : ⌊scaledQ o M n⌋ ≤ (n : Int) := by
          have := Int.floor_le_floor b1
          rwa [Int.floor_natCast] at this
        generalize ⌊scaledQ o M n⌋ = z at *
        omega
      · rintro (h | h) <;> omega
    have hdis : Disjoint (below M n k) (hits M n k) := by
      rw [Finset.disjoint_left]
      intro o h1 h2
      rw [hb] at h1
      rw [hmem] at h2
      generalize ⌊scaledQ o M n⌋ = z at *
      omega
    have hc : M + 1 = (below M n k).card + (hits M n k).card := by
      rw [← Finset.card_union_of_disjoint hdis, ← e, Finset.card_range]
    generalize (below M n k).card = a at *
    generalize (hits M n k).card = c at *
    subst hkn
    constructor <;> nlinarith

end BS
