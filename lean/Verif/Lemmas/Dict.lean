import Verif.Lemmas.Oracle
import Verif.Lemmas.Arith

/-!
# Lemmas about `StampDict`, the lottery index and the text stamps
-/

namespace BS
open BlobLike

/-- The scaled value before truncation. -/
def scaledQ (o omax n : Nat) : ℚ :=
  rnd f64 (rnd f64 (rnd f64 (o : ℚ) / rnd f64 (omax : ℚ)) * rnd f64 (n : ℚ))

theorem rnd64_nat {n : Nat} (h : n ≤ 2 ^ 53) : rnd f64 (n : ℚ) = n := rnd_of_rep (rep64_nat h)

theorem ofInt64_nat {n : Nat} (h : n < W64) : FV.ofInt f64 (n : Int) = .fin (rnd f64 (n : ℚ)) := by
  unfold FV.ofInt
  rw [ofQ64]
  · push_cast; rfl
  · have : (n : ℚ) < W64 := by exact_mod_cast h
    push_cast; rw [abs_of_nonneg (by positivity)]; norm_num; linarith

theorem rnd64_ge_one {d : Nat} (h : 1 ≤ d) : 1 ≤ rnd f64 (d : ℚ) := by
  have := le_rnd_of_rep f64 f64_p (a := ((1 : Nat) : ℚ)) (b := (d : ℚ)) (rep64_nat (by norm_num))
    (by exact_mod_cast h)
  simpa using this

/-- The ratio lies in [0, 1]. -/
theorem ratio_bounds {o omax : Nat} (h1 : 1 ≤ omax) (ho : o ≤ omax) :
    0 ≤ rnd f64 (o : ℚ) / rnd f64 (omax : ℚ) ∧ rnd f64 (o : ℚ) / rnd f64 (omax : ℚ) ≤ 1 := by
  have hm := rnd64_ge_one h1
  have ho0 : 0 ≤ rnd f64 (o : ℚ) := rnd_nonneg _ (by positivity)
  have hmono : rnd f64 (o : ℚ) ≤ rnd f64 (omax : ℚ) := rnd_mono f64 f64_p (by exact_mod_cast ho)
  exact ⟨by positivity, by rw [div_le_one (by linarith)]; exact hmono⟩

theorem scaledQ_bounds {o omax n : Nat} (h1 : 1 ≤ omax) (ho : o ≤ omax) (hn : n ≤ 2 ^ 53) :
    0 ≤ scaledQ o omax n ∧ scaledQ o omax n ≤ n := by
  obtain ⟨r0, r1⟩ := ratio_bounds h1 ho
  unfold scaledQ
  rw [rnd64_nat hn]
  have a0 : 0 ≤ rnd f64 (rnd f64 (o : ℚ) / rnd f64 (omax : ℚ)) := rnd_nonneg _ r0
  have a1 : rnd f64 (rnd f64 (o : ℚ) / rnd f64 (omax : ℚ)) ≤ 1 := by
    have := rnd_le_of_rep f64 f64_p (b := ((1 : Nat) : ℚ)) (rep64_nat (by norm_num)) (by simpa using r1)
    simpa using this
  have hn0 : (0 : ℚ) ≤ n := by positivity
  refine ⟨rnd_nonneg _ (mul_nonneg a0 hn0), ?_⟩
  apply rnd_le_of_rep f64 f64_p (rep64_nat hn)
  nlinarith

theorem scaledIndex_eq {o omax n : Nat} (h1 : 1 ≤ omax) (ho : o ≤ omax) (hm : omax < W64)
    (hn : n ≤ 2 ^ 53) :
    scaledIndex o omax n = .ok (if ⌊scaledQ o omax n⌋ = (n : Int) then (n : Int) - 1
      else ⌊scaledQ o omax n⌋) := by
  obtain ⟨b0, b1⟩ := scaledQ_bounds h1 ho hn
  obtain ⟨r0, r1⟩ := ratio_bounds h1 ho
  have hm1 := rnd64_ge_one h1
  unfold scaledIndex
  simp only
  rw [ofInt64_nat (by omega : o < W64), ofInt64_nat hm, ofInt64_nat (by omega : n < W64)]
  rw [FV.div_fin _ _ (by linarith), ofQ64 (by rw [abs_of_nonneg r0]; linarith), FV.mul_fin, ofQ64]
  · have hfl : 0 ≤ ⌊scaledQ o omax n⌋ := Int.floor_nonneg.2 b0
    have hfl2 : ⌊scaledQ o omax n⌋ ≤ (n : Int) := by
      have := Int.floor_le_floor b1
      rwa [Int.floor_natCast] at this
    have ht : truncQ (scaledQ o omax n) = ⌊scaledQ o omax n⌋ := by unfold truncQ; rw [if_pos b0]
    show (FV.toIntRange _ _ (.fin (scaledQ o omax n))).bind _ = _
    unfold FV.toIntRange
    simp only [ht]
    generalize ⌊scaledQ o omax n⌋ = z at *
    rw [if_pos (by omega)]
    show Out.ok _ = _
    congr 1
    have hz : toSz z = z.toNat := toSz_of_nonneg hfl (by omega)
    rw [hz]
    by_cases h : z = n
    · rw [if_pos (by omega), if_pos h, h]
    · rw [if_neg (by omega), if_neg h]
  · have hn0 : (0 : ℚ) ≤ rnd f64 (n : ℚ) := rnd_nonneg _ (by positivity)
    have a0 : 0 ≤ rnd f64 (rnd f64 (o : ℚ) / rnd f64 (omax : ℚ)) := rnd_nonneg _ r0
    have a1 : rnd f64 (rnd f64 (o : ℚ) / rnd f64 (omax : ℚ)) ≤ 1 := by
      have := rnd_le_of_rep f64 f64_p (b := ((1 : Nat) : ℚ)) (rep64_nat (by norm_num))
        (by simpa using r1)
      simpa using this
    rw [rnd64_nat hn] at hn0 ⊢
    rw [abs_of_nonneg (mul_nonneg a0 hn0)]
    have : (n : ℚ) ≤ 2 ^ 53 := by exact_mod_cast hn
    calc _ ≤ (1 : ℚ) * 2 ^ 53 := mul_le_mul a1 this hn0 (by norm_num)
      _ ≤ _ := by norm_num

/-- The index always lies inside a non-empty list. -/
theorem scaledIndex_lt {o omax n : Nat} (h1 : 1 ≤ omax) (ho : o ≤ omax) (hm : omax < W64)
    (hn1 : 1 ≤ n) (hn : n ≤ 2 ^ 53) :
    ∃ i : Nat, scaledIndex o omax n = .ok (i : Int) ∧ i < n := by
  obtain ⟨b0, b1⟩ := scaledQ_bounds h1 ho hn
  have hfl : 0 ≤ ⌊scaledQ o omax n⌋ := Int.floor_nonneg.2 b0
  have hfl2 : ⌊scaledQ o omax n⌋ ≤ (n : Int) := by
    have := Int.floor_le_floor b1
    rwa [Int.floor_natCast] at this
  rw [scaledIndex_eq h1 ho hm hn]
  generalize ⌊scaledQ o omax n⌋ = z at *
  by_cases h : z = n
  · rw [if_pos h]; exact ⟨n - 1, by congr 1; omega, by omega⟩
  · rw [if_neg h]; exact ⟨z.toNat, by congr 1; omega, by omega⟩

theorem vecGet_nat {α : Type} {l : List α} {i : Nat} (h : i < l.length) (hb : l.length ≤ 2 ^ 53) :
    vecGet l (i : Int) = .ok l[i] := by
  unfold vecGet
  rw [toSz_natCast (by omega), List.getElem?_eq_getElem h]

/-- Every index below a count smaller than the oracle's maximum is hit. -/
theorem scaledIndex_surj {M n i : Nat} (hM : M ≤ 65535) (hn : n < M) (hi : i < n) :
    ∃ o, o ≤ M ∧ scaledIndex o M n = .ok (i : Int) := by
  set o := M * i / n + 1 with ho
  have hn0 : 0 < n := by omega
  have l1 : M * i + 1 ≤ o * n := by
    have h1 := Nat.div_add_mod (M * i) n
    have h2 := Nat.mod_lt (M * i) hn0
    have : o * n = n * (M * i / n) + n := by rw [ho]; ring
    omega
  have l2 : o * n + 1 ≤ M * (i + 1) := by
    have h1 := Nat.div_mul_le_self (M * i) n
    have : o * n = M * i / n * n + n := by rw [ho]; ring
    have e : M * (i + 1) = M * i + M := by ring
    omega
  have hoM : o ≤ M := by
    have : o * n ≤ M * n := by
      have : M * (i + 1) ≤ M * n := Nat.mul_le_mul_left _ (by omega)
      omega
    exact Nat.le_of_mul_le_mul_right this hn0
  refine ⟨o, hoM, ?_⟩
  have hM1 : 1 ≤ M := by omega
  rw [scaledIndex_eq hM1 hoM (by omega) (by omega)]
  have hfl : ⌊scaledQ o M n⌋ = (i : Int) := by
    have hMq : (1 : ℚ) ≤ M := by exact_mod_cast hM1
    have hnq : (1 : ℚ) ≤ n := by exact_mod_cast hn0
    have hoq : (1 : ℚ) ≤ o := by exact_mod_cast (by rw [ho]; exact Nat.le_add_left 1 _ : 1 ≤ o)
    have hMq2 : (M : ℚ) ≤ 65535 := by exact_mod_cast hM
    unfold scaledQ
    rw [rnd64_nat (by omega : o ≤ 2 ^ 53), rnd64_nat (by omega : M ≤ 2 ^ 53),
      rnd64_nat (by omega : n ≤ 2 ^ 53)]
    set y : ℚ := (o : ℚ) / M with hy
    have hy0 : (1 : ℚ) / 65535 ≤ y := by
      rw [hy, div_le_div_iff₀ (by norm_num) (by linarith)]; nlinarith
    have small : pow2 (-1022) ≤ 1 / 131072 := by
      have e : (1 : ℚ) / 131072 = pow2 (-17) := by rw [pow2_eq]; norm_num
      rw [e]; exact pow2_mono (by norm_num)
    have hypos : 0 < y := by linarith [show (0 : ℚ) < 1 / 65535 by norm_num]
    have e1 := rnd64_rel (q := y) (Or.inr (by
      rw [abs_of_pos hypos]; refine small.trans (le_trans ?_ hy0); norm_num))
    rw [abs_of_pos hypos] at e1
    obtain ⟨e1a, e1b⟩ := abs_le.1 e1
    set r := rnd f64 y
    have hr0 : (1 : ℚ) / 131072 ≤ r := by
      have : y * (1 - 1 / 2 ^ 53) ≤ r := by linarith
      refine le_trans ?_ this
      calc (1 : ℚ) / 131072 ≤ 1 / 65535 * (1 - 1 / 2 ^ 53) := by norm_num
        _ ≤ _ := mul_le_mul_of_nonneg_right hy0 (by norm_num)
    have hrpos : 0 < r := by linarith [show (0 : ℚ) < 1 / 131072 by norm_num]
    set z := r * n with hz
    have hzpos : 0 < z := by positivity
    have e2 := rnd64_rel (q := z) (Or.inr (by
      rw [abs_of_pos hzpos]
      refine small.trans (hr0.trans ?_)
      rw [hz]; nlinarith))
    rw [abs_of_pos hzpos] at e2
    obtain ⟨e2a, e2b⟩ := abs_le.1 e2
    set x := rnd f64 z
    -- exact bounds
    have c1 : (M : ℚ) * i + 1 ≤ o * n := by exact_mod_cast l1
    have c2 : (o : ℚ) * n + 1 ≤ M * (i + 1) := by exact_mod_cast l2
    have hyM : y * M = o := by rw [hy]; field_simp
    -- t = y * n
    set t := y * n with ht
    have tM : t * M = o * n := by rw [ht, mul_right_comm, hyM]
    have htpos : 0 < t := by positivity
    have z1 : z ≤ t * (1 + 1 / 2 ^ 53) := by
      rw [hz, ht]
      have : r ≤ y * (1 + 1 / 2 ^ 53) := by linarith
      nlinarith
    have z2 : t * (1 - 1 / 2 ^ 53) ≤ z := by
      rw [hz, ht]
      have : y * (1 - 1 / 2 ^ 53) ≤ r := by linarith
      nlinarith
    have x1 : x ≤ t * (1 + 1 / 2 ^ 53) * (1 + 1 / 2 ^ 53) := by
      have : x ≤ z * (1 + 1 / 2 ^ 53) := by linarith
      exact this.trans (mul_le_mul_of_nonneg_right z1 (by norm_num))
    have x2 : t * (1 - 1 / 2 ^ 53) * (1 - 1 / 2 ^ 53) ≤ x := by
      have : z * (1 - 1 / 2 ^ 53) ≤ x := by linarith
      exact le_trans (mul_le_mul_of_nonneg_right z2 (by norm_num)) this
    have hi0 : (0 : ℚ) ≤ i := by positivity
    have hiN : (i : ℚ) + 1 ≤ 65535 := by exact_mod_cast (by omega : i + 1 ≤ 65535)
    have tl : (i : ℚ) + 1 / 65535 ≤ t := by
      have : (i : ℚ) + 1 / M ≤ t := by
        rw [← mul_le_mul_iff_left₀ (by linarith : (0 : ℚ) < M), tM, add_mul,
          div_mul_cancel₀ _ (by linarith : (M : ℚ) ≠ 0)]
        linarith
      refine le_trans ?_ this
      gcongr
    have tu : t ≤ (i : ℚ) + 1 - 1 / 65535 := by
      have : t ≤ (i : ℚ) + 1 - 1 / M := by
        rw [← mul_le_mul_iff_left₀ (by linarith : (0 : ℚ) < M), tM, sub_mul,
          div_mul_cancel₀ _ (by linarith : (M : ℚ) ≠ 0)]
        linarith
      refine le_trans this ?_
      gcongr
    rw [Int.floor_eq_iff]
    push_cast
    constructor
    · refine le_trans ?_ x2
      have : (1 - 1 / 2 ^ 53 : ℚ) * (1 - 1 / 2 ^ 53) ≥ 1 - 1 / 2 ^ 52 := by norm_num
      rw [mul_assoc]
      have h3 : t * (1 - 1 / 2 ^ 52) ≤ t * ((1 - 1 / 2 ^ 53) * (1 - 1 / 2 ^ 53)) :=
        mul_le_mul_of_nonneg_left this htpos.le
      refine le_trans ?_ h3
      have h4 : t ≤ 65535 := by linarith [show (0 : ℚ) < 1 / 65535 by norm_num]
      have h5 : t / 2 ^ 52 ≤ 1 / 65535 := by
        rw [div_le_iff₀ (by norm_num)]; refine h4.trans (by norm_num)
      linarith
    · refine lt_of_le_of_lt x1 ?_
      have : (1 + 1 / 2 ^ 53 : ℚ) * (1 + 1 / 2 ^ 53) ≤ 1 + 1 / 2 ^ 51 := by norm_num
      rw [mul_assoc]
      have h3 : t * ((1 + 1 / 2 ^ 53) * (1 + 1 / 2 ^ 53)) ≤ t * (1 + 1 / 2 ^ 51) :=
        mul_le_mul_of_nonneg_left this htpos.le
      refine lt_of_le_of_lt h3 ?_
      have h4 : t ≤ 65535 := by linarith [show (0 : ℚ) < 1 / 65535 by norm_num]
      have h5 : t / 2 ^ 51 < 1 / 65535 := by
        rw [div_lt_iff₀ (by norm_num)]; refine lt_of_le_of_lt h4 (by norm_num)
      linarith
  rw [hfl, if_neg (by omega)]

/-! ## Unsigned oracles -/

theorem uOracleTy_some {w : Nat} {ty : ArithTy} (h : uOracleTy w = some ty) :
    ty.size = w ∧ ty.isInt = true ∧ ty.isSigned = false := by
  unfold uOracleTy at h
  split at h
  all_goals first | (simp at h; done) | (cases h; exact ⟨rfl, rfl, rfl⟩)

theorem uOracle_abs {w : Nat} {ty : ArithTy} (h : uOracleTy w = some ty) (a : ABlob) :
    uOracle w a = if a.length < w then (.outOfData, a) else (.ok (leNat (a.take w)), a.drop w) := by
  obtain ⟨hs, hi, hsg⟩ := uOracleTy_some h
  unfold uOracle
  rw [h]
  simp only
  have h1 := extractValue_abs ty a
  rw [hs] at h1
  by_cases hl : a.length < w
  · rw [if_pos hl] at h1 ⊢; exact M.bind_ood h1
  · rw [if_neg hl] at h1 ⊢
    rw [M.bind_ok h1]
    unfold decode
    simp only [hi, if_true, hsg, Bool.false_eq_true, false_and, if_false]
    rfl

theorem leNat_take_lt (a : Bytes) (w : Nat) : leNat (a.take w) < 2 ^ (8 * w) := by
  refine lt_of_lt_of_le (leNat_lt _) ?_
  rw [pow256]
  apply Nat.pow_le_pow_right (by norm_num)
  rw [List.length_take]; omega

theorem chooseStampSize_ty (n : Nat) : ∃ ty, uOracleTy (chooseStampSize n).1 = some ty ∧
    (chooseStampSize n).2 = 2 ^ (8 * (chooseStampSize n).1) - 1 ∧ 1 ≤ (chooseStampSize n).2 ∧
    (chooseStampSize n).2 < W64 := by
  unfold chooseStampSize
  split
  · exact ⟨.u8, rfl, by norm_num, by norm_num, by norm_num⟩
  split
  · exact ⟨.u16, rfl, by norm_num, by norm_num, by norm_num⟩
  split
  · exact ⟨.u32, rfl, by norm_num, by norm_num, by norm_num⟩
  · exact ⟨.u64, rfl, by norm_num, by norm_num, by norm_num⟩

/-- `StampDict` on the remaining bytes. -/
theorem extractDict_abs (ws : List Bytes) (hn : 1 ≤ ws.length) (hb : ws.length ≤ 2 ^ 53) (a : ABlob) :
    (a.length < (chooseStampSize ws.length).1 → extractDict ws a = (.outOfData, a)) ∧
    ((chooseStampSize ws.length).1 ≤ a.length → ∃ (i : Nat) (h : i < ws.length),
      scaledIndex (leNat (a.take (chooseStampSize ws.length).1)) (chooseStampSize ws.length).2
        ws.length = .ok (i : Int) ∧
      extractDict ws a = (.ok ws[i], a.drop (chooseStampSize ws.length).1)) := by
  obtain ⟨ty, hty, hmx, h1, h2⟩ := chooseStampSize_ty ws.length
  have hu := uOracle_abs hty a
  unfold extractDict
  constructor
  · intro h; rw [if_pos h] at hu; exact M.bind_ood hu
  · intro h
    rw [if_neg (by omega)] at hu
    have ho : leNat (a.take (chooseStampSize ws.length).1) ≤ (chooseStampSize ws.length).2 := by
      have := leNat_take_lt a (chooseStampSize ws.length).1
      omega
    obtain ⟨i, e, hi⟩ := scaledIndex_lt h1 ho h2 hn hb
    refine ⟨i, hi, e, ?_⟩
    rw [M.bind_ok hu]
    have e' : (M.lift (scaledIndex (leNat (a.take (chooseStampSize ws.length).1))
        (chooseStampSize ws.length).2 ws.length) : M ABlob Int)
        (a.drop (chooseStampSize ws.length).1)
        = (.ok (i : Int), a.drop (chooseStampSize ws.length).1) := by rw [e]; rfl
    rw [M.bind_ok e', vecGet_nat hi hb]
    rfl

/-! ## Text -/

theorem extractText_abs (f : UInt8 → UInt8) (a : ABlob) (hb : a.length < W64) :
    extractText f a = if a.length = 0 then (.outOfData, a) else (.ok (a.map f), []) := by
  unfold extractText
  have hmax : toSz (-1) = W64 - 1 := by decide
  rw [hmax]
  have hc : (chop2 1 (W64 - 1) : M ABlob ABlob) a
      = if a.length = 0 then (.outOfData, a) else (.ok a, []) := by
    unfold chop2
    simp only [BlobLike.size, BlobLike.chop]
    by_cases h : a.length = 0
    · rw [if_pos (by omega), if_pos h]
    · rw [if_neg (by omega), if_neg h]
      by_cases h2 : W64 - 1 ≤ a.length
      · rw [if_pos h2, if_neg (by omega), List.take_of_length_le (by omega),
          List.drop_of_length_le (by omega)]
      · rw [if_neg h2, if_neg (by omega), List.take_of_length_le (by omega),
          List.drop_of_length_le (by omega)]
  by_cases h : a.length = 0
  · rw [if_pos h] at hc ⊢; exact M.bind_ood hc
  · rw [if_neg h] at hc ⊢
    rw [M.bind_ok hc]
    have : bytes a = .ok a := by simp only [BlobLike.bytes]; rw [if_neg h]
    rw [this]
    rfl

end BS
