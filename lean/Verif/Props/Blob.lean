import Verif.Spec.Blob
import Verif.Lemmas.BlobHist
import Mathlib.Data.List.Forall2

/-!
# C01-C05: blobs and chopping
-/

namespace BS

/-! ## C01 -/

/-- **C01.** Whatever chop calls are made on a blob over `n` bytes of a buffer, the history runs to
its end, and the bytes held by the chopped-off blobs, in call order, followed by the bytes held by
what is left, are exactly those `n` bytes. -/
theorem C01_chopping_partitions (buf : Bytes) (off n : Nat) (h : off + n ≤ buf.length)
    (hb : buf.length < 9223372036854775808) (cs : List ChopCall) :
    ∃ (ps : List Blob) (rest : Blob) (parts : List Bytes) (left : Bytes),
      runHistory cs (Blob.mk' (.at buf off) n) = .ok (ps, rest) ∧
      List.Forall₂ Holds ps parts ∧ Holds rest left ∧
      parts.flatten ++ left = (buf.drop off).take n := by
  obtain ⟨hv, ha⟩ := Blob.mk'_valid h hb
  obtain ⟨ps, r, e1, e2, e3, e4⟩ := runHistory_spec cs _ hv
  refine ⟨ps, r, ps.map Blob.abs, r.abs, e1, ?_, Blob.asVector_eq e3, by rw [e4, ha]⟩
  clear e1 e4
  induction ps with
  | nil => exact .nil
  | cons p ps ih =>
    exact .cons (Blob.asVector_eq (e2 p (by simp))) (ih fun q hq => e2 q (by simp [hq]))

/-- A failing call in the middle, a two-argument call and an empty chop. -/
example : ∃ ps rest, runHistory [.one 2, .one 9, .one 0, .two 1 2]
      (Blob.mk' (.at [10, 11, 12, 13, 14, 15] 1) 5) = .ok (ps, rest) ∧
    ps.map Blob.asVector = [.ok [11, 12], .ok [], .ok [13, 14]] ∧ rest.asVector = .ok [15] :=
  ⟨_, _, rfl, by decide +kernel, by decide +kernel⟩

/-! ## C02 -/

/-- **C02.** `Chop(n)` throws `OutOfData` iff `n > Size()`, and then the blob is unchanged;
otherwise it returns a blob holding the first `n` bytes and the blob keeps the others, its size
dropping by `n`. -/
theorem C02_chop_exact {b : Blob} (hr : Reachable b) (n : Nat) :
    (b.size < n → Blob.chop n b = (.outOfData, b)) ∧
    (n ≤ b.size → ∃ p b' bs, Blob.chop n b = (.ok p, b') ∧ Holds b bs ∧ bs.length = b.size ∧
      Holds p (bs.take n) ∧ p.size = n ∧ Holds b' (bs.drop n) ∧ b'.size = b.size - n) := by
  have h := hr.valid
  refine ⟨fun hn => Blob.chop_fail hn, fun hn => ?_⟩
  obtain ⟨p, b', e, h1, h2, h3, h4, h5⟩ := Blob.chop_ok h hn
  refine ⟨p, b', b.abs, e, Blob.asVector_eq h, h.abs_length, ?_, h5, ?_, ?_⟩
  · rw [holds_iff h1, h3]
  · rw [holds_iff h2, h4]
  · rw [← h2.abs_length, h4, List.length_drop, h.abs_length]

/-- The two outcomes really occur. -/
example : Blob.chop 4 (Blob.mk' (.at [1, 2, 3] 0) 3) =
      (.outOfData, Blob.mk' (.at [1, 2, 3] 0) 3) ∧
    (Blob.chop 2 (Blob.mk' (.at [1, 2, 3] 0) 3)).1.map Blob.asVector = .ok (.ok [1, 2]) := by
  decide +kernel

/-! ## C03 -/

/-- **C03.** `Chop(min, max)` throws iff fewer than `min` bytes are left, leaving the blob as it
was; otherwise it takes exactly `min(max, Size())` bytes, also when `max < min`. -/
theorem C03_chop2_greedy {b : Blob} (hr : Reachable b) (mn mx : Nat) :
    (b.size < mn → Blob.chop2 mn mx b = (.outOfData, b)) ∧
    (mn ≤ b.size → ∃ p b' bs, Blob.chop2 mn mx b = (.ok p, b') ∧ Holds b bs ∧
      bs.length = b.size ∧ Holds p (bs.take (min mx b.size)) ∧ p.size = min mx b.size ∧
      Holds b' (bs.drop (min mx b.size)) ∧ b'.size = b.size - min mx b.size) := by
  have h := hr.valid
  constructor
  · intro hn; unfold Blob.chop2; rw [if_pos hn]
  · intro hn
    rw [Blob.chop2_ok hn]
    exact (C02_chop_exact hr (min mx b.size)).2 (by omega)

/-- `max` = (size_t)-1 takes all; `max < min` takes `max`. -/
example : ((Blob.chop2 1 (W64 - 1) (Blob.mk' (.at [1, 2, 3] 0) 3)).1.map Blob.size = .ok 3) ∧
    ((Blob.chop2 3 2 (Blob.mk' (.at [1, 2, 3] 0) 3)).1.map Blob.size = .ok 2) := by
  decide +kernel

/-! ## C04 -/

/-- **C04 (partial).** On a blob with bytes left all four read-outs return the same `Size()` bytes.
On a blob with no bytes left `asVector` and `asString` still agree; the full statement fails there
for `AsByteVector` and `DataDup`, see the two witnesses below. -/
theorem C04_readouts_agree_partial {b : Blob} (hr : Reachable b) :
    ∃ bs, bs.length = b.size ∧ b.asVector = .ok bs ∧ b.asString = .ok bs ∧
      (b.size ≠ 0 → b.asByteVector = .ok bs) ∧ (b.data ≠ .null → b.dataDup = .ok (bs, b.size)) ∧
      (b.size = 0 → b.asByteVector = .ok bs ∨ b.asByteVector = .ub .ptrArith) := by
  have h := hr.valid
  refine ⟨b.abs, h.abs_length, Blob.asVector_eq h, Blob.asString_eq h,
    fun hn => Blob.asByteVector_eq h hn, fun hd => Blob.dataDup_eq h hd, fun hz => ?_⟩
  have : b.abs = [] := List.length_eq_zero_iff.1 (by rw [h.abs_length, hz])
  rw [this]
  exact Blob.asByteVector_empty h hz

example : (Blob.mk' (.at [7, 8, 9] 1) 2).asByteVector = .ok [8, 9] ∧
    (Blob.mk' (.at [7, 8, 9] 1) 2).dataDup = .ok ([8, 9], 2) := by decide +kernel

/-- **C04 violated.** `AsByteVector` of the empty blob that `Chop(0)` returns computes
`data + end + 1` with `end = (size_t)-1`, a pointer outside the buffer. -/
theorem C04_violated_empty : ∃ b, Reachable b ∧ b.size = 0 ∧ b.asVector = .ok [] ∧
    b.asByteVector = .ub .ptrArith :=
  ⟨Blob.mk' (.at [1, 2, 3] 0) 0, .new (by decide) (by decide), by decide, by decide, by decide⟩

/-- **C04 violated.** `DataDup` of a blob built on a null pointer calls `memcpy` with it. -/
theorem C04_violated_null : ∃ b, Reachable b ∧ b.asVector = .ok [] ∧ b.dataDup = .ub .nullDeref :=
  ⟨Blob.mk' .null 0, .null, by decide, by decide⟩

/-! ## C05 -/

/-- **C05 violated.** A blob with no byte left reports that it is not empty. -/
theorem C05_violated : ∃ b, Reachable b ∧ b.size = 0 ∧ b.isEmpty = false :=
  ⟨Blob.mk' (.at [1, 2, 3] 0) 0, .new (by decide) (by decide), by decide, rfl⟩

/-- **C05 (partial).** `isEmpty()` does imply that nothing is left, and it is true exactly for blobs
built on a null pointer. Missing: the converse, which fails by `C05_violated`. -/
theorem C05_isEmpty_partial {b : Blob} (hr : Reachable b) :
    (b.isEmpty = true → b.size = 0) ∧ (b.isEmpty = true ↔ b.data = .null) := by
  have h := hr.valid
  have hiff : b.isEmpty = true ↔ b.data = .null := by
    unfold Blob.isEmpty; split <;> simp_all
  refine ⟨fun he => ?_, hiff⟩
  have hd := hiff.1 he
  have hm := h.2
  rw [hd] at hm
  rw [h.size_eq]
  simp only at hm
  omega

example : (Blob.mk' .null 0).isEmpty = true ∧ (Blob.mk' (.at [1] 0) 1).isEmpty = false := by
  decide

end BS
