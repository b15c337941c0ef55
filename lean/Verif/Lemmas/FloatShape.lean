import Verif.Spec.FloatText
import Verif.Lemmas.Arith

/-!
# The shape of `%.999g`
-/

namespace BS

theorem fracPart_shape {l : List Nat} (h : ∀ d ∈ l, d < 10) : FracShape (fracPart l) := by
  unfold fracPart
  have hmem : ∀ d ∈ l.dropWhile (fun d => d.beq 0), d < 10 := fun d hd =>
    h d ((List.dropWhile_sublist _).mem hd)
  have hhead : ∀ d, (l.dropWhile (fun d => d.beq 0)).head? = some d → d ≠ 0 := by
    intro d hd h0
    have := List.head?_dropWhile_not (fun d : Nat => d.beq 0) l
    rw [hd] at this
    subst h0
    simp at this
  generalize l.dropWhile (fun d => d.beq 0) = l' at hmem hhead
  cases l' with
  | nil => exact Or.inl rfl
  | cons d t =>
    refine Or.inr ⟨_, rfl, by simp, digits_map_rev hmem, ?_⟩
    rw [List.reverse_cons, List.map_append, List.map_singleton, List.getLast?_concat]
    intro he
    have h1 := hhead d rfl
    have h2 := hmem d List.mem_cons_self
    have : digitChar d = 48 := by simpa using he
    interval_cases d <;> first | omega | (revert this; decide)

theorem natDec_head {n : Nat} (h : n ≠ 0) : (natDec n).head? ≠ some 48 := by
  obtain ⟨h1, h2⟩ := natDec_spec n
  intro hh
  have := h1.2.2 hh
  rw [this] at h2
  simp [digitsVal] at h2
  omega

theorem expPart_shape {x : Int} (h : x < 0) : ∃ e, expPart x = 101 :: 45 :: e ∧ (∀ c ∈ e, IsDigit c) ∧
    2 ≤ e.length ∧ (e.head? = some 48 → e.length = 2) := by
  unfold expPart
  obtain ⟨h1, h2⟩ := natDec_spec x.natAbs
  rw [if_pos h]
  refine ⟨if x.natAbs < 10 then 48 :: natDec x.natAbs else natDec x.natAbs, rfl, ?_, ?_, ?_⟩
  · intro c hc
    split at hc
    · rcases List.mem_cons.1 hc with rfl | hc
      · exact ⟨by decide, by decide⟩
      · exact h1.2.1 c hc
    · exact h1.2.1 c hc
  · have hp := List.length_pos_of_ne_nil h1.1
    split
    · rw [List.length_cons]; omega
    · next hn =>
      by_contra hc
      have hl : (natDec x.natAbs).length = 1 := by omega
      obtain ⟨c, hc'⟩ := List.length_eq_one_iff.1 hl
      rw [hc'] at h2
      have hd := h1.2.1 c (by rw [hc']; simp)
      have : digitsVal [c] = c.toNat - 48 := by simp [digitsVal]
      unfold IsDigit at hd
      omega
  · intro hh
    split
    · next hn =>
      have := natDec_length (n := x.natAbs) (k := 1) (by omega) (by omega)
      have := List.length_pos_of_ne_nil h1.1
      rw [List.length_cons]; omega
    · next hn =>
      rw [if_neg hn] at hh
      exact absurd hh (natDec_head (by omega))

/-- The shape of `%.Pg`, for exact values below `10^P`. -/
theorem fmtGpos_shape {P : Nat} (hP : 1 ≤ P) {q : ℚ} (hq : 0 < q) {N : Nat}
    (hN : q * pow10 ((P : Int) - 1 - ilog10 q) = N) (hx : ilog10 q < P) :
    ((1 / 10000 : ℚ) ≤ q → FixedShape (fmtGpos P q)) ∧ (q < 1 / 10000 → SmallShape (fmtGpos P q)) := by
  obtain ⟨K, rfl⟩ : ∃ K, P = K + 1 := ⟨P - 1, by omega⟩
  obtain ⟨s1, s2⟩ := ilog10_spec hq
  have h4 : pow10 (-4) = 1 / 10000 := by rw [pow10_eq]; norm_num
  have hiff : (1 / 10000 : ℚ) ≤ q ↔ -4 ≤ ilog10 q := by
    rw [← h4]
    constructor
    · intro h
      have := pow10_lt_iff.1 (lt_of_le_of_lt h s2)
      omega
    · intro h; exact le_trans (pow10_mono h) s1
  set x := ilog10 q with hxd
  have hKx : ((K + 1 : Nat) : Int) - 1 - x = (K : Int) - x := by push_cast; ring
  rw [hKx] at hN
  have b1 : 10 ^ K ≤ N := by
    have : (10 : ℚ) ^ K ≤ N := by
      rw [← hN, ← pow10_natCast]
      have := mul_le_mul_of_nonneg_right s1 (pow10_pos ((K : Int) - x)).le
      rw [← pow10_add] at this
      rwa [show x + ((K : Int) - x) = K by ring] at this
    exact_mod_cast this
  have b2 : N < 10 ^ (K + 1) := by
    have : (N : ℚ) < 10 ^ (K + 1) := by
      rw [← hN, ← pow10_natCast]
      have := mul_lt_mul_of_pos_right s2 (pow10_pos ((K : Int) - x))
      rw [← pow10_add] at this
      rwa [show x + 1 + ((K : Int) - x) = ((K + 1 : Nat) : Int) by push_cast; ring] at this
    exact_mod_cast this
  have hd0 : rne (q * pow10 (((K + 1 : Nat) : Int) - 1 - x)) = (N : Int) := by
    rw [hKx, hN]
    exact rne_int N
  have hne : ¬ ((N : Int) = 10 ^ (K + 1)) := by
    intro h
    have : N = 10 ^ (K + 1) := by exact_mod_cast h
    omega
  have hl := lowDigs_lt (K + 1) N
  unfold fmtGpos
  simp only [← hxd, hd0, if_neg hne, Int.toNat_natCast]
  constructor
  · intro h
    rw [if_pos ⟨hiff.1 h, hx⟩]
    split
    · next h0 =>
      have hj : K + 1 - 1 - x.toNat = K - x.toNat := by omega
      rw [hj]
      set j := K - x.toNat with hjj
      have hsplit : K + 1 = j + (x.toNat + 1) := by omega
      rw [hsplit, lowDigs_drop, lowDigs_take]
      have c1 : 10 ^ x.toNat ≤ N / 10 ^ j := by
        rw [Nat.le_div_iff_mul_le (by positivity), ← pow_add]
        rwa [show x.toNat + j = K by omega]
      have c2 : N / 10 ^ j < 10 ^ (x.toNat + 1) := by
        rw [Nat.div_lt_iff_lt_mul (by positivity), ← pow_add]
        rwa [show x.toNat + 1 + j = K + 1 by omega]
      exact ⟨_, _, rfl, (numeral_of_lowDigs c1 c2).1, fracPart_shape (lowDigs_lt j N)⟩
    · next h0 =>
      refine ⟨[48], _, rfl, ⟨by simp, ?_, by simp⟩, fracPart_shape ?_⟩
      · intro c hc
        rw [List.mem_singleton] at hc
        subst hc; exact ⟨by decide, by decide⟩
      · intro d hd
        rcases List.mem_append.1 hd with hd | hd
        · exact hl d hd
        · have := List.eq_of_mem_replicate hd; omega
  · intro h
    have hxl : ¬ -4 ≤ x := fun h' => absurd (hiff.2 h') (not_le.2 h)
    rw [if_neg (fun hc => hxl hc.1)]
    obtain ⟨e, he, e1, e2, e3⟩ := expPart_shape (x := x) (by omega)
    have hj : K + 1 - 1 = K := by omega
    rw [hj, lowDigs_drop K 1 N, lowDigs_take K 1 N, he]
    have c1 : 10 ^ 0 ≤ N / 10 ^ K := by
      rw [Nat.le_div_iff_mul_le (by positivity)]; simpa using b1
    have c2 : N / 10 ^ K < 10 ^ (0 + 1) := by
      rw [Nat.div_lt_iff_lt_mul (by positivity), ← pow_add]
      rwa [show 0 + 1 + K = K + 1 by omega]
    obtain ⟨n1, n2⟩ := numeral_of_lowDigs c1 c2
    have hlen : ((lowDigs (0 + 1) (N / 10 ^ K)).reverse.map digitChar).length = 1 := by simp [lowDigs_length]
    obtain ⟨d, hd⟩ := List.length_eq_one_iff.1 hlen
    rw [hd] at n1 n2
    rw [show (1 : Nat) = 0 + 1 from rfl, hd]
    refine ⟨d, fracPart (lowDigs K N), e, by simp, n1.2.1 d (by simp), ?_, fracPart_shape (lowDigs_lt K N), e1, e2, e3⟩
    rintro rfl
    have : digitsVal [48] = 0 := rfl
    omega

theorem fmtG999_shape {m : Nat} {k : Int} (hm2 : m < 2 ^ 53) (hk : -1074 ≤ k) (hk2 : k ≤ 971) (s : Bool) :
    ∃ body, fmtG999 (.fin s ((m : ℚ) * pow2 k)) = (if s then [45] else []) ++ body ∧
      (m = 0 → body = [48]) ∧ ((1 / 10000 : ℚ) ≤ (m : ℚ) * pow2 k → FixedShape body) ∧
      (0 < m → (m : ℚ) * pow2 k < 1 / 10000 → SmallShape body) := by
  refine ⟨_, rfl, ?_, ?_, ?_⟩
  · rintro rfl
    rw [if_pos (by simp)]
  · intro h
    have hm : 0 < m := by
      rcases Nat.eq_zero_or_pos m with rfl | h'
      · simp at h; linarith
      · exact h'
    have hq : (0 : ℚ) < (m : ℚ) * pow2 k := mul_pos (by exact_mod_cast hm) (pow2_pos k)
    obtain ⟨N, hN⟩ := scaled_int hm hm2 hk hk2
    rw [if_neg hq.ne']
    have hx := ilog10_dyadic hm hm2 hk hk2
    exact (fmtGpos_shape (P := 999) (by norm_num) hq (N := N) hN (by omega)).1 h
  · intro hm h
    have hq : (0 : ℚ) < (m : ℚ) * pow2 k := mul_pos (by exact_mod_cast hm) (pow2_pos k)
    obtain ⟨N, hN⟩ := scaled_int hm hm2 hk hk2
    rw [if_neg hq.ne']
    have hx := ilog10_dyadic hm hm2 hk hk2
    exact (fmtGpos_shape (P := 999) (by norm_num) hq (N := N) hN (by omega)).2 h

theorem abs_sgn (s : Nat) {q : ℚ} (h : 0 ≤ q) : |(-1 : ℚ) ^ s * q| = q := by
  rw [abs_mul, abs_pow, abs_neg, abs_one, one_pow, one_mul, abs_of_nonneg h]

theorem decode_double {s e m n : Nat} (hs : s < 2) (he : e < 2047) (hm : m < 2 ^ 52)
    (hn : n = s * 2 ^ 63 + e * 2 ^ 52 + m) :
    ∃ (M : Nat) (k : Int), decodeBits 11 52 n = .fin (decide (s = 1)) (M * pow2 k) ∧ M < 2 ^ 53 ∧ -1074 ≤ k ∧
      k ≤ 971 ∧ |doubleValue s e m| = M * pow2 k := by
  obtain ⟨a, b, c⟩ := bits_fields (mb := 52) (eb := 11) hs (by omega) hm hn
  unfold decodeBits
  simp only [a, b, c]
  rw [if_neg (by omega)]
  split
  · next h0 =>
    have hk : (1 : Int) - (2 ^ (11 - 1) - 1) - ((52 : Nat) : Int) = -1074 := by norm_num
    refine ⟨m, -1074, by rw [hk], by omega, by omega, by omega, ?_⟩
    have hval : doubleValue s e m = (-1) ^ s * ((m : ℚ) * pow2 (-1074)) := by
      unfold doubleValue; rw [if_pos h0, pow2_eq]
      congr 1
      rw [show (-1074 : Int) = -52 + -1022 by norm_num, zpow_add₀ (by norm_num)]
      generalize (2 : ℚ) ^ (-1022 : Int) = z
      rw [zpow_neg]; norm_num; ring
    rw [hval, abs_sgn s (mul_nonneg (Nat.cast_nonneg _) (pow2_pos _).le)]
  · next h0 =>
    have hk : (e : Int) - (2 ^ (11 - 1) - 1) - ((52 : Nat) : Int) = e - 1075 := by norm_num; ring
    refine ⟨2 ^ 52 + m, e - 1075, by rw [hk], by omega, by omega, by omega, ?_⟩
    have hval : doubleValue s e m = (-1) ^ s * (((2 ^ 52 + m : Nat) : ℚ) * pow2 ((e : Int) - 1075)) := by
      unfold doubleValue; rw [if_neg h0, pow2_eq]
      congr 1
      rw [show (e : Int) - 1075 = ((e : Int) - 1023) + -52 by ring, zpow_add₀ (by norm_num)]
      push_cast
      norm_num; ring
    rw [hval, abs_sgn s (mul_nonneg (Nat.cast_nonneg _) (pow2_pos _).le)]

theorem decode_float {s e m n : Nat} (hs : s < 2) (he : e < 255) (hm : m < 2 ^ 23)
    (hn : n = s * 2 ^ 31 + e * 2 ^ 23 + m) :
    ∃ (M : Nat) (k : Int), decodeBits 8 23 n = .fin (decide (s = 1)) (M * pow2 k) ∧ M < 2 ^ 53 ∧ -1074 ≤ k ∧
      k ≤ 971 ∧ |floatValue s e m| = M * pow2 k := by
  obtain ⟨a, b, c⟩ := bits_fields (mb := 23) (eb := 8) hs (by omega) hm hn
  unfold decodeBits
  simp only [a, b, c]
  rw [if_neg (by omega)]
  split
  · next h0 =>
    have hk : (1 : Int) - (2 ^ (8 - 1) - 1) - ((23 : Nat) : Int) = -149 := by norm_num
    refine ⟨m, -149, by rw [hk], by omega, by omega, by omega, ?_⟩
    have hval : floatValue s e m = (-1) ^ s * ((m : ℚ) * pow2 (-149)) := by
      unfold floatValue; rw [if_pos h0, pow2_eq]
      congr 1
      rw [show (-149 : Int) = -23 + -126 by norm_num, zpow_add₀ (by norm_num)]
      norm_num; ring
    rw [hval, abs_sgn s (mul_nonneg (Nat.cast_nonneg _) (pow2_pos _).le)]
  · next h0 =>
    have hk : (e : Int) - (2 ^ (8 - 1) - 1) - ((23 : Nat) : Int) = e - 150 := by norm_num; ring
    refine ⟨2 ^ 23 + m, e - 150, by rw [hk], by omega, by omega, by omega, ?_⟩
    have hval : floatValue s e m = (-1) ^ s * (((2 ^ 23 + m : Nat) : ℚ) * pow2 ((e : Int) - 150)) := by
      unfold floatValue; rw [if_neg h0, pow2_eq]
      congr 1
      rw [show (e : Int) - 150 = ((e : Int) - 127) + -23 by ring, zpow_add₀ (by norm_num)]
      push_cast
      norm_num; ring
    rw [hval, abs_sgn s (mul_nonneg (Nat.cast_nonneg _) (pow2_pos _).le)]

end BS
