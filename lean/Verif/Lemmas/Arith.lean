import Verif.Lemmas.FloatText
import Verif.Lemmas.Sim
import Verif.Spec.Arith

/-!
# Lemmas about `StampArithm`
-/

namespace BS
open BlobLike

theorem leNat_lt (bs : Bytes) : leNat bs < 256 ^ bs.length := by
  induction bs with
  | nil => simp [leNat]
  | cons b bs ih =>
    have := b.toNat_lt
    simp only [leNat, List.length_cons, pow_succ]
    omega

theorem leBytes_leNat (bs : Bytes) : leBytes bs.length (leNat bs) = bs := by
  induction bs with
  | nil => rfl
  | cons b bs ih =>
    have hb := b.toNat_lt
    simp only [leNat, List.length_cons, leBytes]
    rw [show (b.toNat + 256 * leNat bs) % 256 = b.toNat by omega,
      show (b.toNat + 256 * leNat bs) / 256 = leNat bs by omega, ih]
    congr 1
    exact UInt8.ofNat_toNat

theorem leBytes_length (n v : Nat) : (leBytes n v).length = n := by
  induction n generalizing v with
  | zero => rfl
  | succ n ih => simp [leBytes, ih]

theorem leNat_leBytes (n v : Nat) (h : v < 256 ^ n) : leNat (leBytes n v) = v := by
  induction n generalizing v with
  | zero => simp at h; subst h; rfl
  | succ n ih =>
    simp only [leBytes, leNat]
    rw [ih (v / 256) (by rw [pow_succ] at h; omega)]
    have : (UInt8.ofNat (v % 256)).toNat = v % 256 := by
      rw [UInt8.toNat_ofNat']; omega
    rw [this]; omega

theorem pow256 (n : Nat) : 256 ^ n = 2 ^ (8 * n) := by
  rw [pow_mul]; norm_num

theorem encode_decode (t : ArithTy) {bs : Bytes} (h : bs.length = t.size) :
    encode t (decode t bs) = bs := by
  have hlt := leNat_lt bs
  rw [h, pow256] at hlt
  have key : leBytes t.size (leNat bs) = bs := by rw [← h]; exact leBytes_leNat bs
  unfold decode
  simp only
  have hlt' : (leNat bs : Int) < 2 ^ (8 * t.size) := by exact_mod_cast hlt
  split
  · split
    · simp only [encode]
      rw [Int.sub_emod, Int.emod_self, Int.sub_zero, Int.emod_emod,
        Int.emod_eq_of_lt (by omega) hlt', Int.toNat_natCast]
      exact key
    · simp only [encode]
      rw [Int.emod_eq_of_lt (by omega) hlt', Int.toNat_natCast]
      exact key
  · simp only [encode]; exact key

/-- `ExtractValue` on the remaining bytes. -/
theorem extractValue_abs (t : ArithTy) (a : ABlob) :
    extractValue t a = if a.length < t.size then (.outOfData, a)
      else (.ok (decode t (a.take t.size)), a.drop t.size) := by
  unfold extractValue
  by_cases h : a.length < t.size
  · rw [if_pos h]
    apply M.bind_ood
    simp only [BlobLike.chop]; rw [if_pos h]
  · rw [if_neg h]
    have hc : (chop t.size : M ABlob ABlob) a = (.ok (a.take t.size), a.drop t.size) := by
      simp only [BlobLike.chop]; rw [if_neg h]
    rw [M.bind_ok hc]
    have hlen : (a.take t.size).length = t.size := by rw [List.length_take]; omega
    have hb : bytes (a.take t.size) = .ok (a.take t.size) := by
      simp only [BlobLike.bytes]
      rw [if_neg]
      show ¬ (a.take t.size).length = 0
      rw [hlen]; exact t.size_pos
    rw [hb]
    rfl

theorem extractArithBin_abs (t : ArithTy) (a : ABlob) :
    extractArithBin t a = if a.length < t.size then (.outOfData, a)
      else (.ok (a.take t.size), a.drop t.size) := by
  unfold extractArithBin
  have h1 := extractValue_abs t a
  by_cases h : a.length < t.size
  · rw [if_pos h] at h1 ⊢; exact M.bind_ood h1
  · rw [if_neg h] at h1 ⊢
    rw [M.bind_ok h1, M.pure_apply, encode_decode]
    rw [List.length_take]; omega

theorem extractArithStr_abs (t : ArithTy) (a : ABlob) :
    extractArithStr t a = if a.length < t.size then (.outOfData, a)
      else (toStringPrecise t (decode t (a.take t.size)), a.drop t.size) := by
  unfold extractArithStr
  have h1 := extractValue_abs t a
  by_cases h : a.length < t.size
  · rw [if_pos h] at h1 ⊢; exact M.bind_ood h1
  · rw [if_neg h] at h1 ⊢
    rw [M.bind_ok h1]; rfl

theorem oracle_abs (a : ABlob) :
    oracle a = if a.length < 2 then (.outOfData, a)
      else (.ok (leNat (a.take 2)), a.drop 2) := by
  unfold oracle
  have h1 : extractValue .u16 a = if a.length < 2 then (.outOfData, a)
      else (.ok (decode .u16 (a.take 2)), a.drop 2) := extractValue_abs .u16 a
  by_cases h : a.length < 2
  · rw [if_pos h] at h1 ⊢; exact M.bind_ood h1
  · rw [if_neg h] at h1 ⊢
    rw [M.bind_ok h1]; rfl

theorem oracle_lt {a a' : ABlob} {o : Nat} (h : oracle a = (.ok o, a')) : o < 65536 := by
  rw [oracle_abs] at h
  split at h
  · simp at h
  · simp only [Prod.mk.injEq, Out.ok.injEq] at h
    rw [← h.1]
    have := leNat_lt (a.take 2)
    have h2 : (a.take 2).length ≤ 2 := by rw [List.length_take]; omega
    calc _ < 256 ^ (a.take 2).length := this
      _ ≤ 256 ^ 2 := Nat.pow_le_pow_right (by norm_num) h2
      _ = _ := by norm_num

/-- What a simulated computation does on a valid blob. -/
theorem Sim.run {α : Type} {m : M Blob α} {m' : M ABlob α} (h : Sim BR Eq m m') {b : Blob}
    (hb : b.Valid) : (m b).1 = (m' b.abs).1 ∧ (m b).2.Valid ∧ (m b).2.abs = (m' b.abs).2 := by
  have := h b b.abs ⟨hb, rfl⟩
  exact ⟨this.1.eq, this.2.1, this.2.2⟩

/-- Decoded integers are in the range of the type. -/
theorem decode_range (t : ArithTy) (ht : t.isInt = true) {bs : Bytes} (h : bs.length = t.size) :
    ∃ i, decode t bs = .int i ∧ (if t.isSigned then -2 ^ (8 * t.size - 1) ≤ i ∧ i < 2 ^ (8 * t.size - 1)
      else 0 ≤ i ∧ i < 2 ^ (8 * t.size)) ∧ (2 ^ (8 * t.size) : Int) ∣ i - leNat bs := by
  have hlt := leNat_lt bs
  rw [h, pow256] at hlt
  have hlt' : (leNat bs : Int) < 2 ^ (8 * t.size) := by exact_mod_cast hlt
  unfold decode
  simp only [ht, if_true]
  have hp : (2 : Int) ^ (8 * t.size) = 2 * 2 ^ (8 * t.size - 1) := by
    rw [← pow_succ']; congr 1; cases t <;> rfl
  by_cases hs : t.isSigned = true
  · simp only [hs, true_and, if_true]
    split
    · next hge =>
      have hge' : (2 : Int) ^ (8 * t.size - 1) ≤ leNat bs := by exact_mod_cast hge
      refine ⟨_, rfl, ⟨by omega, by omega⟩, ?_⟩
      exact ⟨-1, by ring⟩
    · next hge =>
      have hge' : (leNat bs : Int) < 2 ^ (8 * t.size - 1) := by exact_mod_cast not_le.1 hge
      refine ⟨_, rfl, ⟨?_, hge'⟩, by simp⟩
      have : (0 : Int) < 2 ^ (8 * t.size - 1) := by positivity
      omega
  · simp only [hs, Bool.false_eq_true, false_and, if_false]
    exact ⟨_, rfl, ⟨by omega, hlt'⟩, by simp⟩

theorem mapIdx_leNat (bs : Bytes) (j : Nat) :
    (bs.mapIdx fun k b => b.toNat * 256 ^ (k + j)).sum = 256 ^ j * leNat bs := by
  induction bs generalizing j with
  | nil => simp [leNat]
  | cons b bs ih =>
    rw [List.mapIdx_cons, List.sum_cons]
    have : (fun (i : Nat) (b : UInt8) => b.toNat * 256 ^ (i + 1 + j))
        = fun i b => b.toNat * 256 ^ (i + (j + 1)) := by
      funext i b; congr 2; ring
    rw [this, ih (j + 1)]
    simp only [leNat]; ring

theorem leNat_eq (bs : Bytes) : leNat bs = littleEndian bs := by
  have := mapIdx_leNat bs 0
  simp only [Nat.add_zero, pow_zero, Nat.one_mul] at this
  exact this.symm

theorem sizeofT_eq (t : ArithTy) : sizeofT t = t.size := by cases t <;> rfl

theorem hasRepr_int {t : ArithTy} {i : Int} {bs : Bytes} : HasRepr t (.int i) bs ↔
    t.isInt = true ∧ (2 ^ (8 * t.size) : Int) ∣ i - littleEndian bs ∧
      (if t.isSigned then -2 ^ (8 * t.size - 1) ≤ i ∧ i < 2 ^ (8 * t.size - 1)
        else 0 ≤ i ∧ i < 2 ^ (8 * t.size)) := by
  unfold HasRepr
  cases t <;> simp [intRange, sizeofT, ArithTy.isInt, ArithTy.isSigned, ArithTy.size] <;> omega

theorem hasRepr_bits {t : ArithTy} {n : Nat} {bs : Bytes} :
    HasRepr t (.bits n) bs ↔ t.isInt = false ∧ n = littleEndian bs := by
  unfold HasRepr
  cases t <;> simp [intRange, ArithTy.isInt]

theorem decode_hasRepr (t : ArithTy) {bs : Bytes} (h : bs.length = t.size) :
    HasRepr t (decode t bs) bs := by
  by_cases ht : t.isInt = true
  · obtain ⟨i, h1, h2, h3⟩ := decode_range t ht h
    rw [h1, hasRepr_int, ← leNat_eq]; exact ⟨ht, h3, h2⟩
  · unfold decode; simp only [ht]
    exact hasRepr_bits.2 ⟨by simpa using ht, leNat_eq bs⟩

theorem hasRepr_decode (t : ArithTy) {bs : Bytes} (h : bs.length = t.size) {v : AVal}
    (hv : HasRepr t v bs) : v = decode t bs := by
  cases v with
  | int i =>
    obtain ⟨ht, h3, h2⟩ := hasRepr_int.1 hv
    obtain ⟨j, h1', h2', h3'⟩ := decode_range t ht h
    rw [h1']; rw [← leNat_eq] at h3
    have hd : (2 ^ (8 * t.size) : Int) ∣ i - j := by
      have := Int.dvd_sub h3 h3'
      rwa [show i - (leNat bs : Int) - (j - leNat bs) = i - j by ring] at this
    have hp : (2 : Int) ^ (8 * t.size) = 2 * 2 ^ (8 * t.size - 1) := by
      rw [← pow_succ']; congr 1; cases t <;> rfl
    congr 1
    have hij : |i - j| < 2 ^ (8 * t.size) := by
      rw [abs_lt]
      split at h2 <;> simp_all <;> omega
    have := Int.eq_zero_of_abs_lt_dvd hd hij
    omega
  | bits n =>
    obtain ⟨ht, h2⟩ := hasRepr_bits.1 hv
    unfold decode; simp [ht, h2, leNat_eq]

/-! ## Floating bit patterns -/

theorem pow2_zpow (e : Int) : pow2 e = (2 : ℚ) ^ e := pow2_eq e

theorem bits_fields {mb eb s e m : Nat} (hs : s < 2) (he : e < 2 ^ eb) (hm : m < 2 ^ mb) {n : Nat}
    (hn : n = s * 2 ^ (mb + eb) + e * 2 ^ mb + m) :
    n % 2 ^ mb = m ∧ n / 2 ^ mb % 2 ^ eb = e ∧ n / 2 ^ (mb + eb) % 2 = s := by
  have e1 : n = m + 2 ^ mb * (e + 2 ^ eb * s) := by rw [hn, pow_add]; ring
  have hp : 0 < 2 ^ mb := by positivity
  have hq : 0 < 2 ^ eb := by positivity
  have d1 : n / 2 ^ mb = e + 2 ^ eb * s := by
    rw [e1, Nat.add_mul_div_left _ _ hp, Nat.div_eq_of_lt hm, Nat.zero_add]
  refine ⟨?_, ?_, ?_⟩
  · rw [e1, Nat.add_mul_mod_self_left, Nat.mod_eq_of_lt hm]
  · rw [d1, Nat.add_mul_mod_self_left, Nat.mod_eq_of_lt he]
  · rw [pow_add, ← Nat.div_div_eq_div_mul, d1, Nat.add_mul_div_left _ _ hq, Nat.div_eq_of_lt he,
      Nat.zero_add, Nat.mod_eq_of_lt hs]

theorem double_exact {s e m n : Nat} (hs : s < 2) (he : e < 2047) (hm : m < 2 ^ 52)
    (hn : n = s * 2 ^ 63 + e * 2 ^ 52 + m) :
    DenotesQ (fmtG999 (decodeBits 11 52 n)) (doubleValue s e m) := by
  obtain ⟨a, b, c⟩ := bits_fields (mb := 52) (eb := 11) hs (by omega) hm hn
  unfold decodeBits
  simp only [a, b, c]
  rw [if_neg (by omega)]
  have hsgn : ∀ q : ℚ, (if decide (s = 1) = true then -q else q) = (-1) ^ s * q := by
    intro q
    rcases (by omega : s = 0 ∨ s = 1) with rfl | rfl <;> simp
  split
  · next h0 =>
    have := fmtG999_exact (m := m) (k := -1074) (by omega) (by omega) (by omega) (decide (s = 1))
    rw [hsgn] at this
    have hval : doubleValue s e m = (-1) ^ s * ((m : ℚ) * pow2 (-1074)) := by
      unfold doubleValue; rw [if_pos h0, pow2_eq]
      congr 1
      rw [show (-1074 : Int) = -52 + -1022 by norm_num, zpow_add₀ (by norm_num)]
      generalize (2 : ℚ) ^ (-1022 : Int) = z
      rw [zpow_neg]; norm_num; ring
    have hk : (1 : Int) - (2 ^ (11 - 1) - 1) - ((52 : Nat) : Int) = -1074 := by norm_num
    rw [hval, hk]
    exact this
  · next h0 =>
    have := fmtG999_exact (m := 2 ^ 52 + m) (k := (e : Int) - 1075) (by omega) (by omega) (by omega)
      (decide (s = 1))
    rw [hsgn] at this
    have hval : doubleValue s e m = (-1) ^ s * (((2 ^ 52 + m : Nat) : ℚ) * pow2 ((e : Int) - 1075)) := by
      unfold doubleValue; rw [if_neg h0, pow2_eq]
      congr 1
      rw [show (e : Int) - 1075 = ((e : Int) - 1023) + -52 by ring, zpow_add₀ (by norm_num)]
      push_cast
      norm_num; ring
    have hk : (e : Int) - (2 ^ (11 - 1) - 1) - ((52 : Nat) : Int) = e - 1075 := by norm_num; ring
    rw [hval, hk]
    exact this

theorem float_exact {s e m n : Nat} (hs : s < 2) (he : e < 255) (hm : m < 2 ^ 23)
    (hn : n = s * 2 ^ 31 + e * 2 ^ 23 + m) :
    DenotesQ (fmtG999 (decodeBits 8 23 n)) (floatValue s e m) := by
  obtain ⟨a, b, c⟩ := bits_fields (mb := 23) (eb := 8) hs (by omega) hm hn
  unfold decodeBits
  simp only [a, b, c]
  rw [if_neg (by omega)]
  have hsgn : ∀ q : ℚ, (if decide (s = 1) = true then -q else q) = (-1) ^ s * q := by
    intro q
    rcases (by omega : s = 0 ∨ s = 1) with rfl | rfl <;> simp
  split
  · next h0 =>
    have := fmtG999_exact (m := m) (k := -149) (by omega) (by omega) (by omega) (decide (s = 1))
    rw [hsgn] at this
    have hval : floatValue s e m = (-1) ^ s * ((m : ℚ) * pow2 (-149)) := by
      unfold floatValue; rw [if_pos h0, pow2_eq]
      congr 1
      rw [show (-149 : Int) = -23 + -126 by norm_num, zpow_add₀ (by norm_num)]
      norm_num; ring
    have hk : (1 : Int) - (2 ^ (8 - 1) - 1) - ((23 : Nat) : Int) = -149 := by norm_num
    rw [hval, hk]
    exact this
  · next h0 =>
    have := fmtG999_exact (m := 2 ^ 23 + m) (k := (e : Int) - 150) (by omega) (by omega) (by omega)
      (decide (s = 1))
    rw [hsgn] at this
    have hval : floatValue s e m = (-1) ^ s * (((2 ^ 23 + m : Nat) : ℚ) * pow2 ((e : Int) - 150)) := by
      unfold floatValue; rw [if_neg h0, pow2_eq]
      congr 1
      rw [show (e : Int) - 150 = ((e : Int) - 127) + -23 by ring, zpow_add₀ (by norm_num)]
      push_cast
      norm_num; ring
    have hk : (e : Int) - (2 ^ (8 - 1) - 1) - ((23 : Nat) : Int) = e - 150 := by norm_num; ring
    rw [hval, hk]
    exact this

end BS
