import Verif.LongDouble
import Verif.Props.Blob
import Verif.Props.Arith

/-!
# C52: `long double`
-/

namespace BS

/-- **C52.** `StampArithm<long double>` reads the value in the first ten of sixteen bytes. -/
theorem C52_value_partial {b : Blob} {bs : Bytes} (hr : Reachable b) (hh : Holds b bs) :
    (bs.length < 16 → extractLongDouble b = (.outOfData, b)) ∧
    (16 ≤ bs.length → ∃ b', extractLongDouble b = (.ok (littleEndian (bs.take 10)), b') ∧ Holds b' (bs.drop 16)) := by
  have hl : bs.length = b.size := by
    rw [holds_iff hr.valid] at hh
    rw [← hh, hr.valid.abs_length]
  obtain ⟨h1, h2⟩ := C02_chop_exact hr 16
  refine ⟨fun h => ?_, fun h => ?_⟩
  · unfold extractLongDouble
    exact M.bind_ood (h1 (by omega))
  · obtain ⟨p, b', e, hp, hb', hpa, hba, hps⟩ := Blob.chop_ok hr.valid (n := 16) (by omega)
    have hh' := (holds_iff hr.valid _).1 hh
    refine ⟨b', ?_, (holds_iff hb' _).2 (by rw [hba, hh'])⟩
    have e2 : (M.lift (BlobLike.bytes p) : M Blob Bytes) b' = (.ok (bs.take 16), b') := by
      show (p.asByteVector, b') = _
      rw [Blob.asByteVector_eq hp (by omega), hpa, hh']
    unfold extractLongDouble
    rw [M.bind_ok (show (BlobLike.chop longDoubleSize : M Blob Blob) b = _ from e), M.bind_ok e2]
    rw [← leNat_eq, List.take_take]
    rfl

/-- **C52 is violated**: the text of a `long double` is never produced. On every blob of sixteen bytes
or more `ExtractStr` is undefined. -/
theorem C52_violated {b : Blob} {bs : Bytes} (hr : Reachable b) (hh : Holds b bs) (hl : 16 ≤ bs.length) :
    ∃ b', extractLongDoubleStr b = (.ub .format, b') := by
  obtain ⟨b', e, _⟩ := (C52_value_partial hr hh).2 hl
  refine ⟨b', ?_⟩
  unfold extractLongDoubleStr
  rw [M.bind_ok e]
  rfl

/-- The value 1.0, with junk in the padding. -/
example : (extractLongDouble (Blob.mk' (.at [0, 0, 0, 0, 0, 0, 0, 128, 255, 63, 1, 2, 3, 4, 5, 6] 0) 16)).1 =
    .ok (16383 * 2 ^ 64 + 2 ^ 63) := by decide +kernel

end BS
