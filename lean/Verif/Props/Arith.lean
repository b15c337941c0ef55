import Verif.Lemmas.Arith
import Verif.Lemmas.BlobHist

/-!
# C06-C08: arithmetic stamps
-/

namespace BS

/-! ## C06 -/

/-- **C06.** On any blob, `ExtractValue` throws iff fewer than `sizeof(T)` bytes are left, keeping
all bytes; otherwise it takes exactly the first `sizeof(T)` bytes and returns the value they
represent, and `ExtractBin` in the same state returns those bytes and leaves the same. -/
theorem C06_arith_bijection (t : ArithTy) {b : Blob} (hr : Reachable b) {bs : Bytes}
    (hb : Holds b bs) :
    (bs.length < sizeofT t →
      (extractValue t b).1 = .outOfData ∧ Holds (extractValue t b).2 bs ∧
      (extractArithBin t b).1 = .outOfData ∧ Holds (extractArithBin t b).2 bs) ∧
    (sizeofT t ≤ bs.length → ∃ v,
      (extractValue t b).1 = .ok v ∧ HasRepr t v (bs.take (sizeofT t)) ∧
      Holds (extractValue t b).2 (bs.drop (sizeofT t)) ∧
      (extractArithBin t b).1 = .ok (bs.take (sizeofT t)) ∧
      Holds (extractArithBin t b).2 (bs.drop (sizeofT t))) := by
  rw [sizeofT_eq]
  have hv := hr.valid
  rw [holds_iff hv] at hb
  obtain ⟨v1, v2, v3⟩ := (sim_extractValue t).run hv
  obtain ⟨w1, w2, w3⟩ := (sim_extractArithBin t).run hv
  rw [hb] at v1 v3 w1 w3
  rw [extractValue_abs] at v1 v3
  rw [extractArithBin_abs] at w1 w3
  constructor
  · intro h
    rw [if_pos h] at v1 v3 w1 w3
    exact ⟨v1, (holds_iff v2 _).2 v3, w1, (holds_iff w2 _).2 w3⟩
  · intro h
    rw [if_neg (by omega)] at v1 v3 w1 w3
    refine ⟨_, v1, decode_hasRepr t ?_, (holds_iff v2 _).2 v3, w1, (holds_iff w2 _).2 w3⟩
    rw [List.length_take]; omega

/-- **C06, bijection.** Every byte string of `sizeof(T)` bytes represents exactly one value, and two
different byte strings never represent the same value. -/
theorem C06_unique (t : ArithTy) {bs bs' : Bytes} (h : bs.length = sizeofT t)
    (h' : bs'.length = sizeofT t) : (∃! v, HasRepr t v bs) ∧
    ∀ v, HasRepr t v bs → HasRepr t v bs' → bs = bs' := by
  rw [sizeofT_eq] at h h'
  refine ⟨⟨decode t bs, decode_hasRepr t h, fun v hv => hasRepr_decode t h hv⟩, ?_⟩
  intro v hv hv'
  have e1 := hasRepr_decode t h hv
  have e2 := hasRepr_decode t h' hv'
  rw [← encode_decode t h, ← encode_decode t h', ← e1, ← e2]

/-- 0xFFFE as a `short` is -2; one byte is not enough. -/
example : (extractValue .i16 (Blob.mk' (.at [0xFE, 0xFF, 7] 0) 3)).1 = .ok (.int (-2)) ∧
    (extractArithBin .i16 (Blob.mk' (.at [0xFE, 0xFF, 7] 0) 3)).1 = .ok [0xFE, 0xFF] ∧
    (extractValue .i16 (Blob.mk' (.at [0xFE, 0xFF, 7] 2) 1)).1 = .outOfData := by
  decide +kernel

/-! ## C07 -/

/-- What `ExtractStr` and `ExtractValue` do on the same blob. -/
theorem extractStr_value (t : ArithTy) {b : Blob} (hr : Reachable b) {v : AVal}
    (hv : (extractValue t b).1 = .ok v) : (extractArithStr t b).1 = toStringPrecise t v := by
  obtain ⟨v1, _, _⟩ := (sim_extractValue t).run hr.valid
  obtain ⟨w1, _, _⟩ := (sim_extractArithStr t).run hr.valid
  rw [extractValue_abs] at v1
  rw [extractArithStr_abs] at w1
  rw [hv] at v1
  split at v1
  · simp at v1
  · next h =>
    rw [if_neg h] at w1
    injection v1 with v1
    rw [w1, v1]

/-- **C07 (partial).** For every integer type, if `ExtractValue` returns `i` then `ExtractStr` on the
same blob returns the decimal numeral of `i`, unless the type is `char`/`signed char` and `i` is
below -99. Missing: that case, where the claim is false (`C07_violated`). -/
theorem C07_integer_text_partial (t : ArithTy) {b : Blob} (hr : Reachable b)
    {i : Int} (hv : (extractValue t b).1 = .ok (.int i)) (hc : t = .i8 → -99 ≤ i) :
    ∃ l, (extractArithStr t b).1 = .ok l ∧ DenotesInt l i := by
  refine ⟨intDec i, ?_, intDec_spec i⟩
  rw [extractStr_value t hr hv]
  cases t <;> first | rfl | skip
  · -- i8
    refine toXString_i8 (hc rfl) ?_
    obtain ⟨v1, _, _⟩ := (sim_extractValue .i8).run hr.valid
    rw [extractValue_abs] at v1
    rw [hv] at v1
    split at v1
    · simp at v1
    · next h =>
      injection v1 with v1
      obtain ⟨j, h1, h2, _⟩ := decode_range .i8 rfl (bs := List.take 1 b.abs) (by
        rw [List.length_take]; simp only [ArithTy.size] at h ⊢; omega)
      have : AVal.int i = .int j := by rw [v1]; exact h1
      injection this with this
      subst this
      simp only [ArithTy.isSigned, ArithTy.size] at h2
      norm_num at h2
      omega

/-- A negative 64-bit value; and -99, the last good `signed char`. -/
example : (extractArithStr .i64 (Blob.mk' (.at [0, 0, 0, 0, 0, 0, 0, 0x80] 0) 8)).1
      = .ok (str "-9223372036854775808") ∧
    (extractArithStr .i8 (Blob.mk' (.at [0x9D] 0) 1)).1 = .ok (str "-99") := by
  decide +kernel

/-- **C07 violated.** For every `signed char` value from -128 to -100 the four-byte buffer of
`to_string_precise` is one byte too small: the returned string ends in a NUL in place of the last
digit, so it denotes no integer at all. -/
theorem C07_violated (i : Int) (h1 : -128 ≤ i) (h2 : i ≤ -100) :
    ∃ b l, Reachable b ∧ (extractValue .i8 b).1 = .ok (.int i) ∧
      (extractArithStr .i8 b).1 = .ok l ∧ ∀ j, ¬ DenotesInt l j := by
  have hall : ∀ k : Fin 29, (extractValue .i8 (Blob.mk' (.at [UInt8.ofNat (128 + k.val)] 0) 1)).1
      = .ok (.int ((k.val : Int) - 128)) := by decide +kernel
  set k : Fin 29 := ⟨(i + 128).toNat, by omega⟩ with hk
  have hki : ((k.val : Nat) : Int) - 128 = i := by rw [hk]; simp only; omega
  have hr : Reachable (Blob.mk' (.at [UInt8.ofNat (128 + k.val)] 0) 1) :=
    .new (by simp) (by simp)
  have hv := hall k
  rw [hki] at hv
  obtain ⟨l, hl, hlast⟩ := i8_bad k
  rw [hki] at hl
  refine ⟨_, l, hr, hv, ?_, ?_⟩
  · rw [extractStr_value .i8 hr hv]; exact hl
  · intro j hj
    have hmem : (0 : UInt8) ∈ l := List.mem_of_getLast? hlast
    have hnd : ¬ IsDigit 0 := by unfold IsDigit; decide
    rcases hj with ⟨_, hn, _⟩ | ⟨_, l', rfl, hn, _⟩
    · exact hnd (hn.2.1 0 hmem)
    · rcases List.mem_cons.1 hmem with h | h
      · exact absurd h (by decide)
      · exact hnd (hn.2.1 0 h)

/-- The string for -128 is `-12` and a NUL. -/
example : (extractArithStr .i8 (Blob.mk' (.at [0x80] 0) 1)).1 = .ok [45, 49, 50, 0] := by
  decide +kernel

/-! ## C08 -/

/-- **C08.** For every finite `double` (sign `s`, exponent field `e`, fraction field `m`) in the first
eight bytes of a blob, `ExtractStr` returns a decimal literal with exactly its value. -/
theorem C08_double_exact {b : Blob} (hr : Reachable b) {bs : Bytes} (hb : Holds b bs)
    (hlen : 8 ≤ bs.length) {s e m : Nat} (hs : s < 2) (he : e < 2047) (hm : m < 2 ^ 52)
    (hbits : littleEndian (bs.take 8) = s * 2 ^ 63 + e * 2 ^ 52 + m) :
    ∃ l, (extractArithStr .double b).1 = .ok l ∧ DenotesQ l (doubleValue s e m) := by
  obtain ⟨w1, _, _⟩ := (sim_extractArithStr .double).run hr.valid
  rw [(holds_iff hr.valid _).1 hb, extractArithStr_abs, if_neg (by simp only [ArithTy.size]; omega)] at w1
  refine ⟨_, w1.trans (toString_double _), ?_⟩
  exact double_exact hs he hm ((leNat_eq _).trans hbits)

/-- **C08.** The same for `float`. -/
theorem C08_float_exact {b : Blob} (hr : Reachable b) {bs : Bytes} (hb : Holds b bs)
    (hlen : 4 ≤ bs.length) {s e m : Nat} (hs : s < 2) (he : e < 255) (hm : m < 2 ^ 23)
    (hbits : littleEndian (bs.take 4) = s * 2 ^ 31 + e * 2 ^ 23 + m) :
    ∃ l, (extractArithStr .float b).1 = .ok l ∧ DenotesQ l (floatValue s e m) := by
  obtain ⟨w1, _, _⟩ := (sim_extractArithStr .float).run hr.valid
  rw [(holds_iff hr.valid _).1 hb, extractArithStr_abs, if_neg (by simp only [ArithTy.size]; omega)] at w1
  refine ⟨_, w1.trans (toString_float _), ?_⟩
  exact float_exact hs he hm ((leNat_eq _).trans hbits)

/-- The `float` 0.1 and the `double` -2.5. -/
example : (extractArithStr .float (Blob.mk' (.at [0xCD, 0xCC, 0xCC, 0x3D] 0) 4)).1
      = .ok (str "0.100000001490116119384765625") ∧
    (extractArithStr .double (Blob.mk' (.at [0, 0, 0, 0, 0, 0, 4, 0xC0] 0) 8)).1
      = .ok (str "-2.5") ∧
    littleEndian [0, 0, 0, 0, 0, 0, 4, 0xC0] = 1 * 2 ^ 63 + 1024 * 2 ^ 52 + 2 ^ 50 := by
  decide +kernel

end BS
