import Verif.Lemmas.Numeral

/-!
# `%.999g` is exact on binary64 and binary32 values
-/

namespace BS

/-! ## Powers of ten -/

theorem pow10_eq (e : Int) : pow10 e = (10 : ℚ) ^ e := by
  unfold pow10
  split
  · next h =>
    push_cast
    conv_rhs => rw [← Int.toNat_of_nonneg h]
    rw [zpow_natCast]
  · next h =>
    push_cast
    have h' : 0 ≤ -e := by omega
    have : (10 : ℚ) ^ e = ((10 : ℚ) ^ (-e))⁻¹ := by rw [zpow_neg, inv_inv]
    rw [this]
    conv_rhs => rw [← Int.toNat_of_nonneg h']
    rw [zpow_natCast, one_div]

theorem pow10_pos (e : Int) : 0 < pow10 e := by rw [pow10_eq]; exact zpow_pos (by norm_num) e

theorem pow10_add (a b : Int) : pow10 (a + b) = pow10 a * pow10 b := by
  simp only [pow10_eq]; exact zpow_add₀ (by norm_num) a b

theorem pow10_natCast (n : Nat) : pow10 (n : Int) = (10 : ℚ) ^ n := by
  rw [pow10_eq, zpow_natCast]

theorem pow10_sub (a b : Int) : pow10 (a - b) = pow10 a / pow10 b := by
  simp only [pow10_eq]; exact zpow_sub₀ (by norm_num) a b

theorem pow10_mono {a b : Int} (h : a ≤ b) : pow10 a ≤ pow10 b := by
  simp only [pow10_eq]; exact zpow_le_zpow_right₀ (by norm_num) h

theorem pow10_lt_iff {a b : Int} : pow10 a < pow10 b ↔ a < b := by
  simp only [pow10_eq]; exact zpow_lt_zpow_iff_right₀ (by norm_num)

theorem ilog10_spec {q : ℚ} (h : 0 < q) : pow10 (ilog10 q) ≤ q ∧ q < pow10 (ilog10 q + 1) := by
  have hn : 0 < q.num := Rat.num_pos.2 h
  set n := q.num.toNat with hnn
  have hn0 : n ≠ 0 := by omega
  have hd0 : q.den ≠ 0 := q.den_nz
  have hq : q = (n : ℚ) / (q.den : ℚ) := by
    have : ((n : Nat) : ℚ) = ((q.num : Int) : ℚ) := by
      rw [← Int.cast_natCast, hnn, Int.toNat_of_nonneg hn.le]
    rw [this]; exact (Rat.num_div_den q).symm
  have l1' : (10 : ℚ) ^ Nat.log 10 n ≤ n := by exact_mod_cast Nat.pow_log_le_self 10 hn0
  have l2' : (n : ℚ) < 10 ^ (Nat.log 10 n + 1) := by
    exact_mod_cast Nat.lt_pow_succ_log_self (by norm_num) n
  have d1' : (10 : ℚ) ^ Nat.log 10 q.den ≤ q.den := by exact_mod_cast Nat.pow_log_le_self 10 hd0
  have d2' : (q.den : ℚ) < 10 ^ (Nat.log 10 q.den + 1) := by
    exact_mod_cast Nat.lt_pow_succ_log_self (by norm_num) q.den
  have dpos : (0 : ℚ) < q.den := by exact_mod_cast Nat.pos_of_ne_zero hd0
  have hqd : q * q.den = n := by
    have := hq
    rw [eq_div_iff dpos.ne'] at this
    exact this
  set e : Int := (Nat.log 10 n : Int) - (Nat.log 10 q.den : Int) with he
  have up : q < pow10 (e + 1) := by
    have : pow10 (e + 1) = 10 ^ (Nat.log 10 n + 1) / 10 ^ (Nat.log 10 q.den) := by
      rw [he, show (Nat.log 10 n : Int) - (Nat.log 10 q.den : Int) + 1
        = ((Nat.log 10 n + 1 : Nat) : Int) - ((Nat.log 10 q.den : Nat) : Int) by push_cast; ring]
      rw [pow10_sub, pow10_natCast, pow10_natCast]
    rw [this]
    rw [lt_div_iff₀ (by positivity)]
    calc q * 10 ^ Nat.log 10 q.den ≤ q * q.den := by
          apply mul_le_mul_of_nonneg_left d1' h.le
      _ = n := hqd
      _ < _ := l2'
  have lo : pow10 (e - 1) ≤ q := by
    have : pow10 (e - 1) = 10 ^ (Nat.log 10 n) / 10 ^ (Nat.log 10 q.den + 1) := by
      rw [he, show (Nat.log 10 n : Int) - (Nat.log 10 q.den : Int) - 1
        = ((Nat.log 10 n : Nat) : Int) - ((Nat.log 10 q.den + 1 : Nat) : Int) by push_cast; ring]
      rw [pow10_sub, pow10_natCast, pow10_natCast]
    rw [this, div_le_iff₀ (by positivity)]
    calc (10 : ℚ) ^ Nat.log 10 n ≤ n := l1'
      _ = q * q.den := hqd.symm
      _ ≤ _ := by apply mul_le_mul_of_nonneg_left d2'.le h.le
  have hil : ilog10 q = if pow10 e ≤ q then e else e - 1 := rfl
  rw [hil]
  split
  · next hc => exact ⟨hc, up⟩
  · next hc =>
    refine ⟨lo, ?_⟩
    rw [sub_add_cancel]
    exact not_le.1 hc

/-! ## Digit lists -/

theorem lowDigs_length (k n : Nat) : (lowDigs k n).length = k := by
  induction k generalizing n with
  | zero => rfl
  | succ k ih => unfold lowDigs; simp [ih]

theorem lowDigs_lt (k n : Nat) : ∀ d ∈ lowDigs k n, d < 10 := by
  induction k generalizing n with
  | zero => intro d hd; simp [lowDigs] at hd
  | succ k ih =>
    intro d hd
    unfold lowDigs at hd
    rcases List.mem_cons.1 hd with rfl | hd
    · omega
    · exact ih _ d hd

theorem lowDigs_val (k n : Nat) : valLSD (lowDigs k n) = n % 10 ^ k := by
  induction k generalizing n with
  | zero => simp [lowDigs, valLSD, Nat.mod_one]
  | succ k ih =>
    unfold lowDigs
    rw [valLSD_cons, ih, pow_succ, Nat.mul_comm (10 ^ k) 10, Nat.mod_mul]

theorem lowDigs_drop (j k n : Nat) : (lowDigs (j + k) n).drop j = lowDigs k (n / 10 ^ j) := by
  induction j generalizing n with
  | zero => simp
  | succ j ih =>
    rw [show j + 1 + k = (j + k) + 1 by ring]
    unfold lowDigs
    rw [List.drop_succ_cons, ih]
    cases k with
    | zero => rfl
    | succ k => rw [Nat.div_div_eq_div_mul, pow_succ, Nat.mul_comm]; rfl

theorem lowDigs_take (j k n : Nat) : (lowDigs (j + k) n).take j = lowDigs j n := by
  induction j generalizing n with
  | zero => simp [lowDigs]
  | succ j ih =>
    rw [show j + 1 + k = (j + k) + 1 by ring]
    unfold lowDigs
    rw [List.take_succ_cons, ih]

/-- The top digit of a number with exactly `k+1` digits is not zero. -/
theorem lowDigs_last (k n : Nat) (h1 : 10 ^ k ≤ n) (h2 : n < 10 ^ (k + 1)) :
    (lowDigs (k + 1) n).getLast? ≠ some 0 := by
  induction k generalizing n with
  | zero =>
    simp only [lowDigs, List.getLast?_singleton]
    intro h
    simp only [Option.some.injEq] at h
    simp at h1 h2
    omega
  | succ k ih =>
    have e : lowDigs (k + 1 + 1) n = n % 10 :: lowDigs (k + 1) (n / 10) := rfl
    rw [e, List.getLast?_cons_of_ne_nil (by
      intro hh; have := lowDigs_length (k + 1) (n / 10); rw [hh] at this; simp at this)]
    refine ih (n / 10) ?_ ?_
    · rw [pow_succ] at h1; omega
    · rw [pow_succ] at h2; omega

/-- Leading digits as a numeral. -/
theorem numeral_of_lowDigs {k n : Nat} (h1 : 10 ^ k ≤ n) (h2 : n < 10 ^ (k + 1)) :
    IsNumeral ((lowDigs (k + 1) n).reverse.map digitChar) ∧
    digitsVal ((lowDigs (k + 1) n).reverse.map digitChar) = n := by
  have hl := lowDigs_lt (k + 1) n
  refine ⟨⟨?_, digits_map_rev hl, ?_⟩, ?_⟩
  · intro h
    have := lowDigs_length (k + 1) n
    simp only [List.map_eq_nil_iff, List.reverse_eq_nil_iff] at h
    rw [h] at this; simp at this
  · intro h
    rw [List.head?_map, List.head?_reverse] at h
    cases hg : (lowDigs (k + 1) n).getLast? with
    | none => rw [hg] at h; simp at h
    | some d =>
      rw [hg] at h
      simp only [Option.map_some, Option.some.injEq] at h
      have hd := hl d (List.mem_of_getLast? hg)
      have h5 : (digitChar d).toNat = 48 := by rw [h]; rfl
      rw [digitChar_toNat hd] at h5
      have hd0 : d = 0 := by omega
      rw [hd0] at hg
      exact absurd hg (lowDigs_last k n h1 h2)
  · rw [digitsVal_rev hl, lowDigs_val, Nat.mod_eq_of_lt h2]

theorem dropWhile_zeros (l : List Nat) : ∃ z, l = List.replicate z 0 ++ l.dropWhile (fun d => d.beq 0) := by
  induction l with
  | nil => exact ⟨0, rfl⟩
  | cons d l ih =>
    obtain ⟨z, hz⟩ := ih
    by_cases hd : d = 0
    · subst hd
      refine ⟨z + 1, ?_⟩
      rw [List.dropWhile_cons_of_pos (by rfl), List.replicate_succ, List.cons_append, ← hz]
    · refine ⟨0, ?_⟩
      have : ¬ (d.beq 0 = true) := by rw [Nat.beq_eq]; exact hd
      rw [List.dropWhile_cons_of_neg (p := fun d : Nat => d.beq 0) this]; rfl

theorem fracPart_spec {l : List Nat} (h : ∀ d ∈ l, d < 10) :
    FracText (fracPart l) ((valLSD l : ℚ) / 10 ^ l.length) := by
  obtain ⟨z, hz⟩ := dropWhile_zeros l
  unfold fracPart
  set l' := l.dropWhile (fun d => d.beq 0) with hl'
  have hv : (valLSD l : ℚ) / 10 ^ l.length = (valLSD l' : ℚ) / 10 ^ l'.length := by
    have e1 : valLSD l = 10 ^ z * valLSD l' := by
      conv_lhs => rw [hz]
      rw [valLSD_append, valLSD_zeros, List.length_replicate, Nat.zero_add]
    have e2 : l.length = z + l'.length := by
      conv_lhs => rw [hz]
      rw [List.length_append, List.length_replicate]
    rw [e1, e2, pow_add]
    push_cast
    field_simp
  rw [hv]
  have hlt : ∀ d ∈ l', d < 10 := by
    intro d hd
    apply h; rw [hz]; exact List.mem_append_right _ hd
  clear_value l'
  cases l' with
  | nil => simp only [valLSD]; rw [Nat.cast_zero, zero_div]; exact .none
  | cons d t =>
    simp only
    have := FracText.some (l := (d :: t).reverse.map digitChar) (by simp) (digits_map_rev hlt)
    rw [digitsVal_rev hlt] at this
    simpa using this

theorem expPart_spec (x : Int) : ExpText (expPart x) x := by
  unfold expPart
  obtain ⟨h1, h2⟩ := natDec_spec x.natAbs
  have key : ∀ l : Bytes, l = (if x.natAbs < 10 then 48 :: natDec x.natAbs else natDec x.natAbs) →
      l ≠ [] ∧ (∀ c ∈ l, IsDigit c) ∧ digitsVal l = x.natAbs := by
    intro l hl
    split at hl
    · subst hl
      refine ⟨by simp, ?_, ?_⟩
      · intro c hc
        rcases List.mem_cons.1 hc with rfl | hc
        · exact ⟨by decide, by decide⟩
        · exact h1.2.1 c hc
      · rw [show (48 :: natDec x.natAbs : Bytes) = [48] ++ natDec x.natAbs from rfl, digitsVal_append,
          h2]
        simp [digitsVal]
    · subst hl; exact ⟨h1.1, h1.2.1, h2⟩
  generalize hl : (if x.natAbs < 10 then 48 :: natDec x.natAbs else natDec x.natAbs) = l
  obtain ⟨a, b, c⟩ := key l hl.symm
  split
  · next hx =>
    have := ExpText.minus a b
    rw [c] at this
    rw [show (-(x.natAbs : Int)) = x by omega] at this
    exact this
  · next hx =>
    have := ExpText.plus a b
    rw [c] at this
    rw [show ((x.natAbs : Int)) = x by omega] at this
    exact this

/-! ## The whole literal -/

/-- Unsigned decimal literal with value `q`. -/
def DenotesPos (l : Bytes) (q : ℚ) : Prop :=
  ∃ (ip fp ep : Bytes) (f : ℚ) (e : Int),
    l = ip ++ fp ++ ep ∧ IsNumeral ip ∧ FracText fp f ∧ ExpText ep e ∧
    q = ((digitsVal ip : ℚ) + f) * (10 : ℚ) ^ e

/-- If scaling by `10^(P-1-x0)` makes the value an integer, `%.Pg` is exact. -/
theorem fmtGpos_exact {P : Nat} (hP : 1 ≤ P) {q : ℚ} (hq : 0 < q) {N : Nat}
    (hN : q * pow10 ((P : Int) - 1 - ilog10 q) = N) : DenotesPos (fmtGpos P q) q := by
  obtain ⟨K, rfl⟩ : ∃ K, P = K + 1 := ⟨P - 1, by omega⟩
  set x := ilog10 q with hx
  obtain ⟨s1, s2⟩ := ilog10_spec hq
  have hKx : ((K + 1 : Nat) : Int) - 1 - x = (K : Int) - x := by push_cast; ring
  rw [hKx] at hN
  have hqN : q = N * pow10 (x - K) := by
    rw [← hN, mul_assoc, ← pow10_add]
    rw [show (K : Int) - x + (x - K) = 0 by ring]
    rw [pow10_eq]; simp
  have b1 : 10 ^ K ≤ N := by
    have : (10 : ℚ) ^ K ≤ N := by
      rw [← hN, ← pow10_natCast]
      have := mul_le_mul_of_nonneg_right s1 (pow10_pos ((K : Int) - x)).le
      rw [← pow10_add] at this
      rwa [show x + ((K : Int) - x) = K by ring] at this
    exact_mod_cast this
  have b2 : N < 10 ^ (K + 1) := by
    have : (N : ℚ) < 10 ^ (K + 1) := by
      rw [← hN, ← pow10_natCast]
      have := mul_lt_mul_of_pos_right s2 (pow10_pos ((K : Int) - x))
      rw [← pow10_add] at this
      rwa [show x + 1 + ((K : Int) - x) = ((K + 1 : Nat) : Int) by push_cast; ring] at this
    exact_mod_cast this
  have hd0 : rne (q * pow10 (((K + 1 : Nat) : Int) - 1 - x)) = (N : Int) := by
    rw [hKx, hN]
    exact rne_int N
  have hne : ¬ ((N : Int) = 10 ^ (K + 1)) := by
    intro h
    have : N = 10 ^ (K + 1) := by exact_mod_cast h
    omega
  unfold fmtGpos
  simp only [← hx, hd0, if_neg hne, Int.toNat_natCast]
  have hl := lowDigs_lt (K + 1) N
  split
  · next hc =>
    split
    · next h0 =>
      -- fixed notation, x ≥ 0
      have hxK : x.toNat ≤ K := by
        have := hc.2; omega
      have hj : K + 1 - 1 - x.toNat = K - x.toNat := by omega
      rw [hj]
      set j := K - x.toNat with hjj
      have hsplit : K + 1 = j + (x.toNat + 1) := by omega
      rw [hsplit, lowDigs_drop, lowDigs_take]
      have c1 : 10 ^ x.toNat ≤ N / 10 ^ j := by
        rw [Nat.le_div_iff_mul_le (by positivity), ← pow_add]
        rwa [show x.toNat + j = K by omega]
      have c2 : N / 10 ^ j < 10 ^ (x.toNat + 1) := by
        rw [Nat.div_lt_iff_lt_mul (by positivity), ← pow_add]
        rwa [show x.toNat + 1 + j = K + 1 by omega]
      obtain ⟨n1, n2⟩ := numeral_of_lowDigs c1 c2
      have fr := fracPart_spec (lowDigs_lt j N)
      refine ⟨_, _, [], _, 0, by rw [List.append_nil], n1, fr, .none, ?_⟩
      rw [n2, lowDigs_val, lowDigs_length, zpow_zero, mul_one, hqN]
      have hxk : x - (K : Int) = -(j : Int) := by omega
      rw [hxk, pow10_eq, zpow_neg, zpow_natCast]
      have hp : (10 : ℚ) ^ j ≠ 0 := by positivity
      have hdm := Nat.div_add_mod N (10 ^ j)
      have hdm' : (N : ℚ) = 10 ^ j * ((N / 10 ^ j : Nat) : ℚ) + ((N % 10 ^ j : Nat) : ℚ) := by
        exact_mod_cast hdm.symm
      rw [eq_comm, ← div_eq_mul_inv, eq_div_iff hp, add_mul, div_mul_cancel₀ _ hp]
      conv_rhs => rw [hdm']
      ring
    · next h0 =>
      -- fixed notation, x < 0
      set z := (-x).toNat - 1 with hz
      have hfr := fracPart_spec (l := lowDigs (K + 1) N ++ List.replicate z 0) (by
        intro d hd
        rcases List.mem_append.1 hd with hd | hd
        · exact hl d hd
        · have := List.eq_of_mem_replicate hd; omega)
      refine ⟨[48], _, [], _, 0, by rw [List.append_nil], ?_, hfr, .none, ?_⟩
      · refine ⟨by simp, ?_, by simp⟩
        intro c hc
        rw [List.mem_singleton] at hc
        subst hc; exact ⟨by decide, by decide⟩
      · rw [valLSD_append, valLSD_zeros, lowDigs_val, Nat.mod_eq_of_lt b2, Nat.mul_zero, Nat.add_zero,
          List.length_append, lowDigs_length, List.length_replicate, zpow_zero, mul_one]
        have : digitsVal [48] = 0 := rfl
        rw [this, Nat.cast_zero, zero_add, hqN]
        have hxk : x - (K : Int) = -((K + 1 + z : Nat) : Int) := by push_cast; omega
        rw [hxk, pow10_eq, zpow_neg, zpow_natCast, div_eq_mul_inv]
  · -- scientific
    have hj : K + 1 - 1 = K := by omega
    rw [hj, lowDigs_drop K 1 N, lowDigs_take K 1 N]
    have c1 : 10 ^ 0 ≤ N / 10 ^ K := by
      rw [Nat.le_div_iff_mul_le (by positivity)]; simpa using b1
    have c2 : N / 10 ^ K < 10 ^ (0 + 1) := by
      rw [Nat.div_lt_iff_lt_mul (by positivity), ← pow_add]
      rwa [show 0 + 1 + K = K + 1 by omega]
    obtain ⟨n1, n2⟩ := numeral_of_lowDigs c1 c2
    have fr := fracPart_spec (lowDigs_lt K N)
    refine ⟨_, _, _, _, x, rfl, n1, fr, expPart_spec x, ?_⟩
    rw [n2, lowDigs_val, lowDigs_length, hqN, pow10_sub, pow10_natCast, pow10_eq]
    have hp : (10 : ℚ) ^ K ≠ 0 := by positivity
    have hdm := Nat.div_add_mod N (10 ^ K)
    have hdm' : (N : ℚ) = 10 ^ K * ((N / 10 ^ K : Nat) : ℚ) + ((N % 10 ^ K : Nat) : ℚ) := by
      exact_mod_cast hdm.symm
    conv_lhs => rw [hdm']
    field_simp

/-- Every positive dyadic rational with at most 53 significant bits, at least `2^-1074` in the last
place and below `2^1024` needs at most 999 significant digits. -/
theorem scaled_int {m : Nat} {k : Int} (hm : 0 < m) (hm2 : m < 2 ^ 53) (hk : -1074 ≤ k)
    (hk2 : k ≤ 971) :
    ∃ N : Nat, ((m : ℚ) * pow2 k) * pow10 (998 - ilog10 ((m : ℚ) * pow2 k)) = N := by
  set q := (m : ℚ) * pow2 k with hq
  have hmq : (0 : ℚ) < m := by exact_mod_cast hm
  have hq0 : 0 < q := mul_pos hmq (pow2_pos k)
  obtain ⟨s1, s2⟩ := ilog10_spec hq0
  set x := ilog10 q with hx
  have hlt : q < pow2 (53 + k) := by
    rw [hq, pow2_add]
    apply mul_lt_mul_of_pos_right _ (pow2_pos k)
    rw [show ((53 : Int)) = ((53 : Nat) : Int) by rfl, pow2_natCast]
    exact_mod_cast hm2
  have h10 : pow10 x < pow2 (53 + k) := lt_of_le_of_lt s1 hlt
  have cmp3 : ∀ n : Nat, pow2 (3 * n) ≤ pow10 n := by
    intro n
    rw [show (3 * (n : Int)) = ((3 * n : Nat) : Int) by push_cast; ring, pow2_natCast, pow10_natCast,
      pow_mul]
    exact pow_le_pow_left₀ (by norm_num) (by norm_num) n
  have cmp4 : ∀ n : Nat, pow2 (-(4 * (n : Int))) ≤ pow10 (-(n : Int)) := by
    intro n
    have h1 : pow2 (-(4 * (n : Int))) = ((16 : ℚ) ^ n)⁻¹ := by
      rw [pow2_eq, zpow_neg, show (4 * (n : Int)) = ((4 * n : Nat) : Int) by push_cast; ring,
        zpow_natCast, pow_mul]
      norm_num
    have h2 : pow10 (-(n : Int)) = ((10 : ℚ) ^ n)⁻¹ := by
      rw [pow10_eq, zpow_neg, zpow_natCast]
    rw [h1, h2]
    apply inv_anti₀ (by positivity)
    exact pow_le_pow_left₀ (by norm_num) (by norm_num) n
  have hx1 : x ≤ 998 := by
    by_contra hc
    have h1 : pow10 (999 : Nat) ≤ pow10 x := pow10_mono (by push_cast; omega)
    have h2 := cmp3 999
    have h3 : pow2 (53 + k) ≤ pow2 (3 * (999 : Nat)) := pow2_mono (by push_cast; omega)
    linarith
  by_cases hk0 : 0 ≤ k
  · refine ⟨m * 2 ^ k.toNat * 10 ^ (998 - x).toNat, ?_⟩
    have h1 : pow2 k = (2 : ℚ) ^ k.toNat := by rw [pow2_int hk0]; push_cast; rfl
    have h2 : pow10 (998 - x) = (10 : ℚ) ^ (998 - x).toNat := by
      rw [← pow10_natCast, Int.toNat_of_nonneg (by omega)]
    rw [hq, h1, h2]; push_cast; ring
  · obtain ⟨K, hK⟩ : ∃ K : Nat, k = -(K : Int) := ⟨(-k).toNat, by omega⟩
    have hxK : x ≤ 998 - K := by
      by_contra hc
      have hge : 999 - (K : Int) ≤ x := by omega
      have h1 := pow10_mono hge
      by_cases hK9 : K ≤ 999
      · have h2 := cmp3 (999 - K)
        rw [show ((999 - K : Nat) : Int) = 999 - (K : Int) by omega] at h2
        have h3 : pow2 (53 + k) ≤ pow2 (3 * (999 - (K : Int))) := pow2_mono (by omega)
        linarith
      · have h2 := cmp4 (K - 999)
        rw [show (-((K - 999 : Nat) : Int)) = 999 - (K : Int) by omega] at h2
        have h3 : pow2 (53 + k) ≤ pow2 (-(4 * ((K - 999 : Nat) : Int))) := pow2_mono (by omega)
        linarith
    set j := (998 - x).toNat with hj
    have hKj : K ≤ j := by omega
    refine ⟨m * 5 ^ K * 10 ^ (j - K), ?_⟩
    have h1 : pow2 k = ((2 : ℚ) ^ K)⁻¹ := by rw [hK, pow2_eq, zpow_neg, zpow_natCast]
    have h2 : pow10 (998 - x) = (10 : ℚ) ^ j := by
      rw [← pow10_natCast, hj, Int.toNat_of_nonneg (by omega)]
    have h3 : (10 : ℚ) ^ j = 2 ^ K * 5 ^ K * 10 ^ (j - K) := by
      rw [← mul_pow]; norm_num; rw [← pow_add]; congr 1; omega
    rw [hq, h1, h2, h3]; push_cast
    have : (2 : ℚ) ^ K ≠ 0 := by positivity
    field_simp

theorem fmtGpos_dyadic {m : Nat} {k : Int} (hm : 0 < m) (hm2 : m < 2 ^ 53) (hk : -1074 ≤ k)
    (hk2 : k ≤ 971) : DenotesPos (fmtGpos 999 ((m : ℚ) * pow2 k)) ((m : ℚ) * pow2 k) := by
  obtain ⟨N, hN⟩ := scaled_int hm hm2 hk hk2
  have hmq : (0 : ℚ) < m := by exact_mod_cast hm
  exact fmtGpos_exact (by norm_num) (mul_pos hmq (pow2_pos k)) (N := N) hN

theorem denotes_sign {l : Bytes} {q : ℚ} (h : DenotesPos l q) (s : Bool) :
    DenotesQ ((if s then [45] else []) ++ l) (if s then -q else q) := by
  obtain ⟨ip, fp, ep, f, e, rfl, h1, h2, h3, rfl⟩ := h
  refine ⟨s, ip, fp, ep, f, e, by simp, h1, h2, h3, ?_⟩
  cases s
  · simp
  · simp only [if_true]; ring

theorem denotesPos_zero : DenotesPos [48] 0 := by
  refine ⟨[48], [], [], 0, 0, rfl, ⟨by simp, ?_, by simp⟩, .none, .none, ?_⟩
  · intro c hc; rw [List.mem_singleton] at hc; subst hc; exact ⟨by decide, by decide⟩
  · simp [digitsVal]

/-- `%.999g` of a finite value. -/
theorem fmtG999_exact {m : Nat} {k : Int} (hm2 : m < 2 ^ 53) (hk : -1074 ≤ k) (hk2 : k ≤ 971)
    (s : Bool) : DenotesQ (fmtG999 (.fin s ((m : ℚ) * pow2 k)))
      (if s then -((m : ℚ) * pow2 k) else (m : ℚ) * pow2 k) := by
  unfold fmtG999
  simp only
  apply denotes_sign
  by_cases h : m = 0
  · subst h
    rw [Nat.cast_zero, zero_mul, if_pos rfl]; exact denotesPos_zero
  · have hmq : (0 : ℚ) < m := by exact_mod_cast Nat.pos_of_ne_zero h
    rw [if_neg (mul_pos hmq (pow2_pos k)).ne']
    exact fmtGpos_dyadic (by omega) hm2 hk hk2

/-! ## Length of the text -/

theorem revDigF_length (f n k : Nat) (hk : 1 ≤ k) (hn : n < 10 ^ k) : (revDigF f n).length ≤ k := by
  induction f generalizing n k with
  | zero => simpa [revDigF] using hk
  | succ f ih =>
    unfold revDigF
    split
    · simpa using hk
    · next h =>
      obtain ⟨j, rfl⟩ : ∃ j, k = j + 1 := ⟨k - 1, by omega⟩
      have hj : 1 ≤ j := by
        by_contra hc
        have : j = 0 := by omega
        subst this; simp at hn; omega
      have := ih (n / 10) j hj (by rw [pow_succ] at hn; omega)
      simp only [List.length_cons]; omega

theorem natDec_length {n k : Nat} (hk : 1 ≤ k) (hn : n < 10 ^ k) : (natDec n).length ≤ k := by
  unfold natDec; simpa using revDigF_length _ n k hk hn

theorem fracPart_length (l : List Nat) : (fracPart l).length ≤ l.length + 1 := by
  obtain ⟨z, hz⟩ := dropWhile_zeros l
  have : (l.dropWhile fun d => d.beq 0).length ≤ l.length := by
    conv_rhs => rw [hz]
    rw [List.length_append]; omega
  unfold fracPart
  split
  · simp
  · next l' h' =>
    simp only [List.length_cons, List.length_map, List.length_reverse]
    omega

theorem expPart_length {x : Int} (h : x.natAbs < 1000) : (expPart x).length ≤ 6 := by
  unfold expPart
  have := natDec_length (n := x.natAbs) (k := 3) (by norm_num) (by norm_num; exact h)
  rw [List.length_append]
  have h2 : (if x.natAbs < 10 then 48 :: natDec x.natAbs else natDec x.natAbs).length ≤ 4 := by
    split
    · rw [List.length_cons]; omega
    · omega
  simp only [List.length_cons, List.length_nil]; omega

theorem fmtGpos_length (P : Nat) (q : ℚ) (hP : 1 ≤ P) (hx : (ilog10 q).natAbs < 999) :
    (fmtGpos P q).length ≤ P + 8 := by
  unfold fmtGpos
  simp only
  set d0 := rne (q * pow10 ((P : Int) - 1 - ilog10 q))
  set x := if d0 = 10 ^ P then ilog10 q + 1 else ilog10 q with hxx
  have hxb : x.natAbs < 1000 := by rw [hxx]; split <;> omega
  generalize (if d0 = 10 ^ P then d0 / 10 else d0).toNat = d
  have hl := lowDigs_length P d
  split
  · next hc =>
    split
    · next h0 =>
      have h1 := fracPart_length ((lowDigs P d).take (P - 1 - x.toNat))
      simp only [List.length_append, List.length_map, List.length_reverse, List.length_drop,
        List.length_take, hl] at h1 ⊢
      omega
    · have h1 := fracPart_length (lowDigs P d ++ List.replicate ((-x).toNat - 1) 0)
      simp only [List.length_append, List.length_replicate, hl, List.length_cons,
        List.length_nil] at h1 ⊢
      omega
  · have h1 := fracPart_length ((lowDigs P d).take (P - 1))
    have h2 := expPart_length hxb
    simp only [List.length_append, List.length_map, List.length_reverse, List.length_drop,
      List.length_take, hl] at h1 ⊢
    omega

theorem ilog10_dyadic {m : Nat} {k : Int} (hm : 0 < m) (hm2 : m < 2 ^ 53) (hk : -1074 ≤ k)
    (hk2 : k ≤ 971) : (ilog10 ((m : ℚ) * pow2 k)).natAbs < 999 := by
  have hmq : (0 : ℚ) < m := by exact_mod_cast hm
  set q := (m : ℚ) * pow2 k with hq
  have hq0 : 0 < q := mul_pos hmq (pow2_pos k)
  obtain ⟨s1, s2⟩ := ilog10_spec hq0
  have h1 : q < pow2 1024 := by
    have e1 : pow2 ((53 : Nat) + k) ≤ pow2 1024 := pow2_mono (by push_cast; omega)
    refine lt_of_lt_of_le ?_ e1
    rw [hq, pow2_add, pow2_natCast]
    apply mul_lt_mul_of_pos_right _ (pow2_pos k)
    exact_mod_cast hm2
  have h2 : pow2 (-1074) ≤ q := by
    have e1 : pow2 (-1074) ≤ pow2 k := pow2_mono hk
    have : (1 : ℚ) ≤ m := by exact_mod_cast hm
    rw [hq]; nlinarith [pow2_pos k]
  have a1 : pow2 1024 < pow10 309 := by decide +kernel
  have a2 : pow10 (-324) < pow2 (-1074) := by decide +kernel
  have b1 := pow10_lt_iff.1 (lt_trans (lt_of_le_of_lt s1 h1) a1)
  have b2 := pow10_lt_iff.1 (lt_trans (lt_of_lt_of_le a2 h2) s2)
  omega

theorem fmtG999_length {m : Nat} {k : Int} (hm2 : m < 2 ^ 53) (hk : -1074 ≤ k) (hk2 : k ≤ 971)
    (s : Bool) : (fmtG999 (.fin s ((m : ℚ) * pow2 k))).length < 1057 := by
  unfold fmtG999
  simp only [List.length_append]
  have h1 : (if s = true then ([45] : Bytes) else []).length ≤ 1 := by split <;> simp
  by_cases h : m = 0
  · subst h
    rw [Nat.cast_zero, zero_mul, if_pos rfl]
    simp only [List.length_cons, List.length_nil]; omega
  · have hmq : (0 : ℚ) < m := by exact_mod_cast Nat.pos_of_ne_zero h
    rw [if_neg (mul_pos hmq (pow2_pos k)).ne']
    have := fmtGpos_length 999 _ (by norm_num) (ilog10_dyadic (by omega) hm2 hk hk2)
    omega

/-- Finite values decode to short enough mantissas. -/
theorem decodeBits_fin {eb mb n : Nat} {s : Bool} {q : ℚ}
    (hf : (eb = 11 ∧ mb = 52) ∨ (eb = 8 ∧ mb = 23)) (h : decodeBits eb mb n = .fin s q) :
    ∃ (m : Nat) (k : Int), q = m * pow2 k ∧ m < 2 ^ 53 ∧ -1074 ≤ k ∧ k ≤ 971 := by
  unfold decodeBits at h
  simp only at h
  have hm : n % 2 ^ mb < 2 ^ mb := Nat.mod_lt _ (by positivity)
  have he : n / 2 ^ mb % 2 ^ eb < 2 ^ eb := Nat.mod_lt _ (by positivity)
  generalize n % 2 ^ mb = m at *
  generalize n / 2 ^ mb % 2 ^ eb = e at *
  rcases hf with ⟨rfl, rfl⟩ | ⟨rfl, rfl⟩
  all_goals
    split at h
    · split at h <;> cases h
    · split at h
      · injection h with _ h
        subst h
        refine ⟨_, _, rfl, ?_, ?_, ?_⟩ <;> norm_num at * <;> omega
      · injection h with _ h
        subst h
        refine ⟨_, _, rfl, ?_, ?_, ?_⟩ <;> norm_num at * <;> omega

/-- The buffers of `to_string_precise` are large enough for every value. -/
theorem fmtG999_buffer {eb mb : Nat} (n : Nat)
    (hf : (eb = 11 ∧ mb = 52) ∨ (eb = 8 ∧ mb = 23)) :
    (fmtG999 (decodeBits eb mb n)).length < 1057 := by
  cases h : decodeBits eb mb n with
  | nan s => cases s <;> decide
  | inf s => cases s <;> decide
  | fin s q =>
    obtain ⟨m, k, rfl, h1, h2, h3⟩ := decodeBits_fin hf h
    exact fmtG999_length h1 h2 h3 s

theorem toString_float (n : Nat) :
    toStringPrecise .float (.bits n) = .ok (fmtG999 (decodeBits 8 23 n)) := by
  have := fmtG999_buffer n (eb := 8) (mb := 23) (Or.inr ⟨rfl, rfl⟩)
  show toXString _ _ = _
  unfold toXString; rw [if_pos (by omega)]

theorem toString_double (n : Nat) :
    toStringPrecise .double (.bits n) = .ok (fmtG999 (decodeBits 11 52 n)) := by
  have := fmtG999_buffer n (eb := 11) (mb := 52) (Or.inl ⟨rfl, rfl⟩)
  show toXString _ _ = _
  unfold toXString; rw [if_pos (by omega)]

end BS
