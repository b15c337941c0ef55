import Verif.Lemmas.UnbRuns
import Verif.Props.GalleyVec

/-!
# C19: every run of the vector galley over an unbounded stamp
-/

namespace BS

theorem VecReturns.inv {mn mx : Int} {b : Blob} {bs : Bytes} (hb : b.Valid) (hh : Holds b bs)
    {parts : List Bytes} {left : Bytes} (h : VecReturns mn mx b parts left) :
    ∃ n, vecSplit n mn mx (bs : ABlob) = (.ok parts, left) := by
  rw [holds_iff hb] at hh
  subst hh
  obtain ⟨ps, b', ⟨n, h0⟩, h2, h3⟩ := h
  refine ⟨n, ?_⟩
  have h1 := h0 n le_rfl
  obtain ⟨s1, s2⟩ := sim_vecSplit n mn mx b b.abs ⟨hb, rfl⟩
  rw [h1] at s1 s2
  rcases he : vecSplit n mn mx b.abs with ⟨o, a'⟩
  rw [he] at s1 s2
  cases s1 with
  | @ok _ qs s1 =>
    have e1 : a' = left := by
      have := (holds_iff s2.1 _).1 h3
      rw [← this]; exact s2.2.symm
    have e2 : qs = parts := by
      clear he h1 h0 s2
      induction s1 generalizing parts with
      | nil => cases h2; rfl
      | cons hx _ ih =>
        cases h2 with
        | cons hy h2 =>
          rw [ih h2, ← hx.2, (holds_iff hx.1 _).1 hy]
    rw [e1, e2]

/-- **C19**, every run that returns, on blobs below 2 GiB: the number of pieces follows from the first two
bytes and the length of the blob, every piece has at least the stamp's minimum, and the pieces are
consecutive after the oracles. Missing: that the galley returns (`C19_violated_overflow`,
`C19_violated_rounding`), that there is a piece (`C19_violated_count`), and that all bytes are used. -/
theorem C19_every_run_partial {m : Nat} (hm : m ≤ 2 ^ 24) {b : Blob} {bs left : Bytes} {parts : List Bytes}
    (hr : Reachable b) (hh : Holds b bs) (hl : bs.length < 2 ^ 31) (h : VecReturns m (-1) b parts left) :
    parts.length = min ((bs.length - 2) / (m + 2))
      (((bs.length - 2) / (m + 2) * littleEndian (bs.take 2) / 65535 + 1) % 65536) ∧
    (∀ p ∈ parts, m ≤ p.length) ∧
    bs.take (2 + 2 * parts.length) ++ parts.flatten ++ left = bs ∧ 2 + 2 * parts.length ≤ bs.length := by
  obtain ⟨n, h⟩ := VecReturns.inv hr.valid hh h
  have hge : m ≤ bs.length := by
    by_contra hc
    rw [vecSplit_small (by omega) (by omega) (by omega)] at h
    cases h
  rw [vecSplit_enough (by omega) (by omega) (by omega), if_neg (by omega), if_pos rfl] at h
  obtain ⟨h1, h2, h3, h4⟩ := vecUnbounded_ok hm hl h
  refine ⟨?_, h2, ?_, h4⟩
  · rw [h1, ← leNat_eq]
    have ho := leNat_lt (bs.take 2)
    have hle : (bs.take 2).length ≤ 2 := by rw [List.length_take]; omega
    have ho : leNat (bs.take 2) < 65536 := by
      have : (256 : Nat) ^ (bs.take 2).length ≤ 256 ^ 2 := Nat.pow_le_pow_right (by norm_num) hle
      omega
    have hcm : (bs.length - 2) / (m + 2) < 2 ^ 31 := by
      have := Nat.div_le_self (bs.length - 2) (m + 2)
      omega
    generalize leNat (bs.take 2) = o at *
    generalize (bs.length - 2) / (m + 2) = cm at *
    have hmul : cm * o < 2 ^ 31 * 65536 := Nat.mul_lt_mul'' hcm ho
    unfold countTarget
    have e1 : toSz ((cm : Int) * (o : Int)) = cm * o := by
      rw [← Nat.cast_mul]
      exact toSz_natCast (by omega)
    rw [e1]
    have e2 : toSz (((cm * o / 65535 : Nat) : Int) + 1) = cm * o / 65535 + 1 := by
      rw [← Nat.cast_one (R := Int), ← Nat.cast_add]
      exact toSz_natCast (by omega)
    simp only [e2]
    split <;> omega
  · rw [List.append_assoc, h3, List.take_append_drop]

/-- 14 bytes, count oracle 128 + 256·150: of three minimal parts, two. -/
example {b : Blob} (hr : Reachable b) (hh : Holds b [128, 150, 3, 0, 1, 0, 10, 11, 12, 13, 14, 15, 16, 17])
    {parts : List Bytes} {left : Bytes} (h : VecReturns (2 : Nat) (-1) b parts left) : parts.length = 2 := by
  have := (C19_every_run_partial (by norm_num) hr hh (by decide) h).1
  rw [this]
  decide

end BS
