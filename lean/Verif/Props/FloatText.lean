import Verif.Lemmas.FloatShape
import Verif.Props.Arith

/-!
# C51: the shape of floating-point text
-/

namespace BS

theorem shape_of {l : Bytes} {s M : Nat} {k : Int} {v : ℚ} (hM : M < 2 ^ 53) (hk : -1074 ≤ k) (hk2 : k ≤ 971)
    (hv : |v| = M * pow2 k) (hl : l = fmtG999 (.fin (decide (s = 1)) (M * pow2 k))) : FloatShape l s v := by
  obtain ⟨body, h1, h2, h3, h4⟩ := fmtG999_shape hM hk hk2 (decide (s = 1))
  refine ⟨body, by rw [hl, h1]; simp, ?_, ?_, ?_⟩
  · intro h0
    apply h2
    rw [h0, abs_zero, eq_comm, mul_eq_zero] at hv
    rcases hv with h | h
    · exact_mod_cast h
    · exact absurd h (pow2_pos k).ne'
  · rw [hv]; exact h3
  · rw [hv]
    intro h0 h
    refine h4 ?_ h
    rcases Nat.eq_zero_or_pos M with rfl | h'
    · simp at h0
    · exact h'

theorem decode_nonfinite {mb eb n s m : Nat} (hs : s < 2) (hm : m < 2 ^ mb)
    (hn : n = s * 2 ^ (mb + eb) + (2 ^ eb - 1) * 2 ^ mb + m) :
    fmtG999 (decodeBits eb mb n) = (if s = 1 then [45] else []) ++ (if m = 0 then str "inf" else str "nan") := by
  obtain ⟨a, b, c⟩ := bits_fields (mb := mb) (eb := eb) hs (Nat.sub_lt (by positivity) (by norm_num)) hm hn
  unfold decodeBits
  simp only [a, b, c, if_true]
  split <;> simp [fmtG999]

section
variable {b : Blob} (hr : Reachable b) {bs : Bytes} (hb : Holds b bs) {s m : Nat} (hs : s < 2)
include hr hb hs

/-- **C51.** The text of a finite `double` has no superfluous zeros, and is in plain notation exactly when
the value is 0 or at least `10^-4` in magnitude. -/
theorem C51_double_shape (hlen : 8 ≤ bs.length) {e : Nat} (he : e < 2047) (hm : m < 2 ^ 52)
    (hbits : littleEndian (bs.take 8) = s * 2 ^ 63 + e * 2 ^ 52 + m) :
    ∃ l, (extractArithStr .double b).1 = .ok l ∧ FloatShape l s (doubleValue s e m) := by
  obtain ⟨w1, _, _⟩ := (sim_extractArithStr .double).run hr.valid
  rw [(holds_iff hr.valid _).1 hb, extractArithStr_abs, if_neg (by simp only [ArithTy.size]; omega)] at w1
  obtain ⟨M, k, h1, h2, h3, h4, h5⟩ := decode_double hs he hm ((leNat_eq _).trans hbits)
  exact ⟨_, w1.trans (toString_double _), shape_of h2 h3 h4 h5 (congrArg fmtG999 h1)⟩

/-- **C51.** The same for `float`. -/
theorem C51_float_shape (hlen : 4 ≤ bs.length) {e : Nat} (he : e < 255) (hm : m < 2 ^ 23)
    (hbits : littleEndian (bs.take 4) = s * 2 ^ 31 + e * 2 ^ 23 + m) :
    ∃ l, (extractArithStr .float b).1 = .ok l ∧ FloatShape l s (floatValue s e m) := by
  obtain ⟨w1, _, _⟩ := (sim_extractArithStr .float).run hr.valid
  rw [(holds_iff hr.valid _).1 hb, extractArithStr_abs, if_neg (by simp only [ArithTy.size]; omega)] at w1
  obtain ⟨M, k, h1, h2, h3, h4, h5⟩ := decode_float hs he hm ((leNat_eq _).trans hbits)
  exact ⟨_, w1.trans (toString_float _), shape_of h2 h3 h4 h5 (congrArg fmtG999 h1)⟩

/-- **C51.** Infinities and NaNs. -/
theorem C51_nonfinite :
    (8 ≤ bs.length → m < 2 ^ 52 → littleEndian (bs.take 8) = s * 2 ^ 63 + 2047 * 2 ^ 52 + m →
      (extractArithStr .double b).1 =
        .ok ((if s = 1 then [45] else []) ++ (if m = 0 then str "inf" else str "nan"))) ∧
    (4 ≤ bs.length → m < 2 ^ 23 → littleEndian (bs.take 4) = s * 2 ^ 31 + 255 * 2 ^ 23 + m →
      (extractArithStr .float b).1 =
        .ok ((if s = 1 then [45] else []) ++ (if m = 0 then str "inf" else str "nan"))) := by
  refine ⟨fun hlen hm hbits => ?_, fun hlen hm hbits => ?_⟩
  · obtain ⟨w1, _, _⟩ := (sim_extractArithStr .double).run hr.valid
    rw [(holds_iff hr.valid _).1 hb, extractArithStr_abs, if_neg (by simp only [ArithTy.size]; omega)] at w1
    exact w1.trans ((toString_double _).trans (congrArg Out.ok (decode_nonfinite hs (mb := 52) (eb := 11) hm ((leNat_eq _).trans hbits))))
  · obtain ⟨w1, _, _⟩ := (sim_extractArithStr .float).run hr.valid
    rw [(holds_iff hr.valid _).1 hb, extractArithStr_abs, if_neg (by simp only [ArithTy.size]; omega)] at w1
    exact w1.trans ((toString_float _).trans (congrArg Out.ok (decode_nonfinite hs (mb := 23) (eb := 8) hm ((leNat_eq _).trans hbits))))

end

/-- 2^-13 (above 10^-4), 2^-14 (below), -0, and a NaN. -/
example : (extractArithStr .float (Blob.mk' (.at [0, 0, 0, 0x39] 0) 4)).1 = .ok (str "0.0001220703125") ∧
    (extractArithStr .float (Blob.mk' (.at [0, 0, 0x80, 0x38] 0) 4)).1 = .ok (str "6.103515625e-05") ∧
    (extractArithStr .float (Blob.mk' (.at [0, 0, 0, 0x80] 0) 4)).1 = .ok (str "-0") ∧
    (extractArithStr .float (Blob.mk' (.at [1, 0, 0x80, 0x7F] 0) 4)).1 = .ok (str "nan") := by
  decide +kernel

end BS
