import Verif.Blob

/-!
# Lemmas about the concrete blob and its abstraction
-/

namespace BS

theorem Ptr.add_null (j : Nat) : Ptr.add .null j = if j = 0 then .ok .null else .ub .ptrArith := rfl
theorem Ptr.add_at (b : Bytes) (o j : Nat) :
    Ptr.add (.at b o) j = if o + j ≤ b.length then .ok (.at b (o + j)) else .ub .ptrArith := rfl
theorem Ptr.read_at (b : Bytes) (o n : Nat) :
    Ptr.read (.at b o) n = if o + n ≤ b.length then .ok ((b.drop o).take n) else .ub .oob := rfl
theorem Ptr.range_at (b : Bytes) (o o' : Nat) :
    Ptr.range (.at b o) (.at b o') = if o ≤ o' then Ptr.read (.at b o) (o' - o) else .ub .oob := by
  simp [Ptr.range]

namespace Blob

/-- Offset of the end of the blob relative to `data`. -/
def stop (b : Blob) : Nat := (b.fin + 1) % W64

/-- A blob over a live buffer (or a null pointer and size 0). No object is larger than
`PTRDIFF_MAX`. -/
def Valid (b : Blob) : Prop :=
  b.fin < W64 ∧
  match b.data with
  | .null => b.beg = 0 ∧ b.stop = 0
  | .at buf off => b.beg ≤ b.stop ∧ off + b.stop ≤ buf.length ∧ buf.length < 9223372036854775808

/-- The remaining bytes. -/
def abs (b : Blob) : Bytes :=
  match b.data with
  | .null => []
  | .at buf off => (buf.drop (off + b.beg)).take (b.stop - b.beg)

theorem Valid.beg_le {b : Blob} (h : b.Valid) : b.beg ≤ b.stop := by
  obtain ⟨_, h⟩ := h
  split at h
  · omega
  · exact h.1

theorem Valid.stop_lt {b : Blob} (h : b.Valid) : b.stop < 9223372036854775808 := by
  obtain ⟨_, h⟩ := h
  split at h
  · omega
  · omega

theorem Valid.size_eq {b : Blob} (h : b.Valid) : b.size = b.stop - b.beg := by
  have h1 := h.beg_le
  have h2 := h.1
  have h3 := h.stop_lt
  unfold size stop toSz at *
  omega

theorem Valid.abs_length {b : Blob} (h : b.Valid) : b.abs.length = b.size := by
  rw [h.size_eq]
  obtain ⟨hf, h⟩ := h
  unfold abs
  split at h
  · next hd => simp only [List.length_nil]; omega
  · next buf off hd =>
    simp only [List.length_take, List.length_drop]; omega

theorem Valid.size_lt {b : Blob} (h : b.Valid) : b.size < 9223372036854775808 := by
  rw [h.size_eq]; have := h.stop_lt; omega

/-- A blob built on `n` readable bytes of a buffer. -/
theorem mk'_valid {buf : Bytes} {off n : Nat} (h : off + n ≤ buf.length)
    (hb : buf.length < 9223372036854775808) :
    (mk' (.at buf off) n).Valid ∧ (mk' (.at buf off) n).abs = (buf.drop off).take n := by
  have hs : (mk' (.at buf off) n).stop = n := by
    unfold mk' stop toSz; simp only; omega
  refine ⟨⟨?_, ?_⟩, ?_⟩
  · unfold mk'; exact toSz_lt _
  · show (0 : Nat) ≤ _ ∧ _
    rw [hs]; exact ⟨by omega, h, hb⟩
  · unfold abs
    show (buf.drop (off + 0)).take ((mk' (.at buf off) n).stop - 0) = _
    rw [hs]; simp

theorem mk'_null_valid : (mk' .null 0).Valid ∧ (mk' .null 0).abs = [] := by
  refine ⟨⟨by decide, ?_⟩, rfl⟩
  show (_ = 0 ∧ _ = 0)
  exact ⟨rfl, by decide⟩

/-- `Chop` on a valid blob behaves like taking a prefix of a list. -/
theorem chop_ok {b : Blob} (h : b.Valid) {n : Nat} (hn : n ≤ b.size) :
    ∃ c b', chop n b = (.ok c, b') ∧ c.Valid ∧ b'.Valid ∧
      c.abs = b.abs.take n ∧ b'.abs = b.abs.drop n ∧ c.size = n := by
  have hsz := h.size_eq
  have hle := h.beg_le
  have hsl := h.stop_lt
  obtain ⟨hf, hm⟩ := h
  unfold chop
  rw [if_neg (by omega)]
  cases hd : b.data with
  | null =>
    rw [hd] at hm
    simp only at hm
    have hn0 : n = 0 := by omega
    subst hn0
    have hadd : Ptr.add .null b.beg = .ok .null := by rw [Ptr.add_null, if_pos hm.1]
    rw [hadd]
    refine ⟨_, _, rfl, mk'_null_valid.1, ⟨hf, ?_⟩, ?_, ?_, ?_⟩
    · simp only [stop] at hm ⊢
      exact ⟨by rw [hm.1]; decide, hm.2⟩
    · unfold abs; simp [hd, mk']
    · unfold abs; simp [hd]
    · decide
  | «at» buf off =>
    rw [hd] at hm
    simp only at hm
    have hadd : Ptr.add (.at buf off) b.beg = .ok (.at buf (off + b.beg)) := by
      rw [Ptr.add_at, if_pos (by omega)]
    rw [hadd]
    have hv := mk'_valid (buf := buf) (off := off + b.beg) (n := n) (by omega) hm.2.2
    have hbeg : toSz ((b.beg : Int) + n) = b.beg + n := by unfold toSz; omega
    refine ⟨_, _, rfl, hv.1, ⟨hf, ?_⟩, ?_, ?_, ?_⟩
    · simp only [stop] at hm hle hsz ⊢
      rw [hbeg]
      refine ⟨?_, hm.2.1, hm.2.2⟩
      unfold size toSz at *; omega
    · rw [hv.2]; unfold abs; simp only [hd]
      rw [List.take_take]; congr 1; omega
    · unfold abs; simp only [hd, hbeg]
      rw [List.drop_take, List.drop_drop]
      show List.take (b.stop - (b.beg + n)) _ = _
      congr 1
      · omega
      · congr 1; omega
    · rw [hv.1.size_eq]
      show (mk' _ n).stop - 0 = n
      unfold mk' stop toSz; simp only; omega

theorem chop_fail {b : Blob} {n : Nat} (hn : b.size < n) : chop n b = (.outOfData, b) := by
  unfold chop; rw [if_pos hn]

theorem asVector_eq {b : Blob} (h : b.Valid) : b.asVector = .ok b.abs := by
  have hsz := h.size_eq
  have hle := h.beg_le
  obtain ⟨hf, hm⟩ := h
  unfold asVector abs
  cases hd : b.data with
  | null =>
    rw [hd] at hm; simp only at hm
    have h0 : b.size = 0 := by omega
    simp [Ptr.add, hm.1, Out.bind, h0, Ptr.range]
  | «at» buf off =>
    rw [hd] at hm; simp only at hm
    have e1 : Ptr.add (.at buf off) b.beg = .ok (.at buf (off + b.beg)) := by
      rw [Ptr.add_at, if_pos (by omega)]
    have e2 : Ptr.add (.at buf (off + b.beg)) b.size = .ok (.at buf (off + b.beg + b.size)) := by
      rw [Ptr.add_at, if_pos (by omega)]
    simp only [e1, e2, Out.bind]
    rw [Ptr.range_at, if_pos (by omega), Ptr.read_at, if_pos (by omega)]
    congr 2; omega

theorem asString_eq {b : Blob} (h : b.Valid) : b.asString = .ok b.abs := by
  have hsz := h.size_eq
  have hle := h.beg_le
  obtain ⟨hf, hm⟩ := h
  unfold asString abs
  cases hd : b.data with
  | null =>
    rw [hd] at hm; simp only at hm
    have h0 : b.size = 0 := by omega
    simp [Ptr.add, hm.1, Out.bind, h0, Ptr.read]
  | «at» buf off =>
    rw [hd] at hm; simp only at hm
    have e1 : Ptr.add (.at buf off) b.beg = .ok (.at buf (off + b.beg)) := by
      rw [Ptr.add_at, if_pos (by omega)]
    simp only [e1, Out.bind]
    rw [Ptr.read_at, if_pos (by omega), hsz]

theorem dataDup_eq {b : Blob} (h : b.Valid) (hd : b.data ≠ .null) :
    b.dataDup = .ok (b.abs, b.size) := by
  have hs := asString_eq h
  unfold asString at hs
  unfold dataDup
  obtain ⟨hf, hm⟩ := h
  cases hdd : b.data with
  | null => exact absurd hdd hd
  | «at» buf off =>
    rw [hdd] at hm hs; simp only at hm
    have hle := hm.1
    have e1 : Ptr.add (.at buf off) b.beg = .ok (.at buf (off + b.beg)) := by
      rw [Ptr.add_at, if_pos (by omega)]
    rw [e1] at hs ⊢
    simp only [Out.bind] at hs ⊢
    rw [hs]

theorem asByteVector_eq {b : Blob} (h : b.Valid) (hn : b.size ≠ 0) :
    b.asByteVector = .ok b.abs := by
  have hsz := h.size_eq
  have hle := h.beg_le
  obtain ⟨hf, hm⟩ := h
  unfold asByteVector abs
  cases hd : b.data with
  | null =>
    rw [hd] at hm; simp only at hm; omega
  | «at» buf off =>
    rw [hd] at hm; simp only at hm
    have hfin : b.fin + 1 = b.stop := by unfold stop at *; omega
    have e1 : Ptr.add (.at buf off) b.beg = .ok (.at buf (off + b.beg)) := by
      rw [Ptr.add_at, if_pos (by omega)]
    have e2 : Ptr.add (.at buf off) b.fin = .ok (.at buf (off + b.fin)) := by
      rw [Ptr.add_at, if_pos (by omega)]
    have e3 : Ptr.add (.at buf (off + b.fin)) 1 = .ok (.at buf (off + b.fin + 1)) := by
      rw [Ptr.add_at, if_pos (by omega)]
    simp only [e1, e2, e3, Out.bind]
    rw [Ptr.range_at, if_pos (by omega), Ptr.read_at, if_pos (by omega)]
    congr 2; omega

/-- On an exhausted blob `end` may lie one before `begin`, which is harmless unless `begin` is 0. -/
theorem asByteVector_empty {b : Blob} (h : b.Valid) (hn : b.size = 0) :
    b.asByteVector = .ok [] ∨ b.asByteVector = .ub .ptrArith := by
  have hsz := h.size_eq
  have hle := h.beg_le
  obtain ⟨hf, hm⟩ := h
  unfold asByteVector
  cases hd : b.data with
  | null =>
    rw [hd] at hm; simp only at hm
    have : b.fin ≠ 0 := by unfold stop at hm; omega
    right; simp [Ptr.add, hm.1, Out.bind, this]
  | «at» buf off =>
    rw [hd] at hm; simp only at hm
    have e1 : Ptr.add (.at buf off) b.beg = .ok (.at buf (off + b.beg)) := by
      rw [Ptr.add_at, if_pos (by omega)]
    by_cases hs : b.stop = 0
    · right
      have hfin : b.fin = W64 - 1 := by unfold stop at hs; omega
      have e2 : Ptr.add (.at buf off) b.fin = .ub .ptrArith := by
        rw [Ptr.add_at, if_neg (by omega)]
      simp only [e1, e2, Out.bind]
    · left
      have hfin : b.fin + 1 = b.stop := by unfold stop at *; omega
      have e2 : Ptr.add (.at buf off) b.fin = .ok (.at buf (off + b.fin)) := by
        rw [Ptr.add_at, if_pos (by omega)]
      have e3 : Ptr.add (.at buf (off + b.fin)) 1 = .ok (.at buf (off + b.fin + 1)) := by
        rw [Ptr.add_at, if_pos (by omega)]
      simp only [e1, e2, e3, Out.bind]
      rw [Ptr.range_at, if_pos (by omega), Ptr.read_at, if_pos (by omega)]
      have : off + b.fin + 1 - (off + b.beg) = 0 := by omega
      rw [this]; simp

end Blob
end BS
