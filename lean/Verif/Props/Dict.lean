import Verif.Lemmas.Surj
import Verif.Lemmas.Dict
import Verif.Lemmas.Fuel

/-!
# C12-C15: dictionary and text stamps
-/

namespace BS

/-! ## C12 -/

/-- **C12.** A dictionary stamp over a non-empty dictionary needs `k = minSize()` bytes: with less it
throws `OutOfData` and the blob keeps its bytes, otherwise it returns a word of the dictionary and
takes exactly `k` bytes. (A list of more than 2^53 strings does not fit an address space.) -/
theorem C12_dict_picks_word {G : Graph} {i : Id} {ws : List Bytes} (hG : G i = some (.dict ws))
    (hn : ws ≠ []) (hw : ws.length ≤ 2 ^ 53) (fl : Flags) :
    ∃ k : Nat, HasMin G fl i k ∧ HasMax G fl i k ∧
      ∀ (b : Blob) (bs : Bytes), Reachable b → Holds b bs →
        (bs.length < k → Throws G fl i b bs) ∧
        (k ≤ bs.length → ∃ w ∈ ws, Returns G fl i b w (bs.drop k)) := by
  have hq : ∀ sel, sizeQ G 1 sel i fl = (.ok ((chooseStampSize ws.length).1 : Int), fl) := by
    intro sel; unfold sizeQ; rw [hG]; rfl
  have hx : ∀ a : ABlob, extract G 1 i (fl, a) = liftB (extractDict ws) (fl, a) := by
    intro a; unfold extract; rw [hG]
  refine ⟨(chooseStampSize ws.length).1, .intro (hq _), .intro (hq _), fun b bs hr hh => ?_⟩
  have h1 : 1 ≤ ws.length := List.length_pos_iff.2 hn
  obtain ⟨e1, e2⟩ := extractDict_abs ws h1 hw bs
  refine ⟨fun hs => ?_, fun hs => ?_⟩
  · refine Throws.intro hr.valid hh (Extracts.intro (n := 1) ?_ (by simp))
    rw [hx]; unfold liftB; rw [e1 hs]
  · obtain ⟨j, hj, _, e⟩ := e2 hs
    refine ⟨ws[j], List.getElem_mem hj, Returns.intro hr.valid hh (Extracts.intro (n := 1) ?_ (by simp))⟩
    rw [hx]; unfold liftB; rw [e]

/-- A dictionary of 300 words needs two bytes; 0xFFFF picks the last word. -/
example : (extractDict ((List.range 300).map fun k => leBytes 2 k) ([255, 255, 7] : ABlob))
    = (.ok [43, 1], [7]) := by decide +kernel

/-- With an empty dictionary the index is -1 and the access is undefined. -/
theorem C12_empty_dictionary_undefined {G : Graph} {i : Id} (hG : G i = some (.dict [])) (fl : Flags)
    (a : UInt8) : Extracts G fl i ([a] : ABlob) (.ub .oob) fl [] := by
  refine Extracts.intro (n := 1) ?_ (by simp)
  unfold extract
  rw [hG]
  revert a
  have : ∀ a : Fin 256, (extractDict [] ([UInt8.ofNat a.val] : ABlob)) = (.ub .oob, []) := by
    decide +kernel
  intro a
  have h := this ⟨a.toNat, a.toNat_lt⟩
  simp only [UInt8.ofNat_toNat] at h
  show liftB _ _ = _
  unfold liftB
  rw [h]

/-! ## C13 -/

theorem scaledIndex_surj_255 : ∀ i : Fin 255, scaledIndex i.val 255 255 = .ok (i.val : Int) := by
  decide +kernel

theorem scaledIndex_surj_256 : ∀ i : Fin 255, scaledIndex i.val 255 256 = .ok (i.val : Int) := by
  decide +kernel

theorem scaledIndex_surj_byte {n j : Nat} (hn : n ≤ 256) (hj : j < n) :
    ∃ o ≤ 255, scaledIndex o 255 n = .ok (j : Int) := by
  rcases (by omega : n < 255 ∨ n = 255 ∨ n = 256) with h | rfl | rfl
  · exact scaledIndex_surj (by omega) h hj
  · exact ⟨j, by omega, scaledIndex_surj_255 ⟨j, hj⟩⟩
  · rcases (by omega : j < 255 ∨ j = 255) with h | rfl
    · exact ⟨j, by omega, scaledIndex_surj_256 ⟨j, h⟩⟩
    · exact ⟨255, by omega, by decide +kernel⟩

/-- **C13.** Every word of a dictionary (of at most 2^47 words) is produced by some index oracle: one byte
for at most 256 words, two bytes for at most 65536, eight bytes above that. -/
theorem C13_every_word_reachable {G : Graph} {i : Id} {ws : List Bytes}
    (hG : G i = some (.dict ws)) (hw : ws.length ≤ 2 ^ 47) (fl : Flags) (j : Nat)
    (hj : j < ws.length) :
    ∃ p : Bytes, p.length = (if ws.length ≤ 256 then 1 else if ws.length ≤ 65536 then 2 else 8) ∧
      ∀ (b : Blob) (rest : Bytes), Reachable b → Holds b (p ++ rest) →
        Returns G fl i b ws[j] rest := by
  have hx : ∀ a : ABlob, extract G 1 i (fl, a) = liftB (extractDict ws) (fl, a) := by
    intro a; unfold extract; rw [hG]
  have key : ∀ k M : Nat, chooseStampSize ws.length = (k, M) → M < 256 ^ k →
      (∃ o ≤ M, scaledIndex o M ws.length = .ok (j : Int)) →
      ∃ p : Bytes, p.length = k ∧ ∀ (b : Blob) (rest : Bytes), Reachable b → Holds b (p ++ rest) →
        Returns G fl i b ws[j] rest := by
    rintro k M hc hM ⟨o, ho, e⟩
    refine ⟨leBytes k o, leBytes_length k o, fun b rest hr hh => ?_⟩
    obtain ⟨_, e2⟩ := extractDict_abs ws (by omega) (by omega) (leBytes k o ++ rest)
    rw [hc] at e2
    simp only at e2
    have ht : (leBytes k o ++ rest).take k = leBytes k o :=
      List.take_left' (leBytes_length k o)
    have hd : (leBytes k o ++ rest).drop k = rest := List.drop_left' (leBytes_length k o)
    obtain ⟨j', hj', e3, e4⟩ := e2 (by rw [List.length_append, leBytes_length]; omega)
    rw [ht, leNat_leBytes k o (by omega), e] at e3
    injection e3 with e3
    have : j' = j := by omega
    subst this
    rw [hd] at e4
    refine Returns.intro hr.valid hh (Extracts.intro (n := 1) ?_ (by simp))
    rw [hx]; unfold liftB; rw [e4]
  by_cases h : ws.length ≤ 256
  · rw [if_pos h]
    refine key 1 255 ?_ (by norm_num) (scaledIndex_surj_byte h hj)
    unfold chooseStampSize; rw [if_pos h]
  · rw [if_neg h]
    by_cases h2 : ws.length ≤ 65536
    · rw [if_pos h2]
      refine key 2 65535 ?_ (by norm_num) ?_
      · unfold chooseStampSize; rw [if_neg h, if_pos h2]
      rcases (by omega : ws.length < 65535 ∨ ws.length = 65535 ∨ ws.length = 65536) with h3 | h3 | h3
      · exact scaledIndex_surj (by omega) h3 hj
      · rw [h3] at hj ⊢; exact ⟨j, by omega, scaledIndex_65535 hj⟩
      · rw [h3] at hj ⊢; exact ⟨j, by omega, scaledIndex_65536 hj⟩
    · rw [if_neg h2]
      refine key 8 (W64 - 1) ?_ (by norm_num) (scaledIndex_mid (by norm_num) (by omega) hw hj)
      unfold chooseStampSize; rw [if_neg h, if_neg h2, if_neg (by omega)]

/-- The middle word of three, from the middle of the oracle range. -/
example : extractDict [[97], [98], [99]] ([128, 5] : ABlob) = (.ok [98], [5]) := by decide +kernel

/-! ## C14 -/

/-- The least of 1, 2, 4, 8 bytes that can count `n` words. -/
def leastWidth (n : Nat) : Nat :=
  if n ≤ 256 ^ 1 then 1 else if n ≤ 256 ^ 2 then 2 else if n ≤ 256 ^ 4 then 4 else 8

/-- **C14**, the part that holds: dictionaries of at most 65536 or more than 2^32 words. -/
theorem C14_width_partial {G : Graph} {i : Id} {ws : List Bytes} (hG : G i = some (.dict ws))
    (fl : Flags) (h : ws.length ≤ 65536 ∨ 4294967296 < ws.length) :
    HasMin G fl i (leastWidth ws.length) := by
  refine SizeRuns.intro (n := 1) ?_
  have hq : sizeQ G 1 .min i fl = (.ok ((chooseStampSize ws.length).1 : Int), fl) := by
    unfold sizeQ; rw [hG]; rfl
  rw [hq]
  congr 3
  unfold chooseStampSize leastWidth
  norm_num
  split
  · rfl
  split
  · rfl
  rw [if_neg (by omega : ¬ ws.length ≤ 4294967296), if_neg]
  rintro rfl
  simp at *

/-- **C14 is violated** in between: 4 bytes would do, the stamp takes 8. -/
theorem C14_violated {G : Graph} {i : Id} {ws : List Bytes} (hG : G i = some (.dict ws))
    (fl : Flags) (h : 65536 < ws.length) (h' : ws.length ≤ 4294967296) :
    leastWidth ws.length = 4 ∧ HasMin G fl i 8 := by
  constructor
  · unfold leastWidth; norm_num; rw [if_neg (by omega), if_neg (by omega), if_pos h']
  · refine SizeRuns.intro (n := 1) ?_
    unfold sizeQ; rw [hG]
    show (Out.ok ((chooseStampSize ws.length).1 : Int), fl) = _
    unfold chooseStampSize
    rw [if_neg (by omega), if_neg (by omega), if_neg (by omega)]; rfl

example : leastWidth 256 = 1 ∧ leastWidth 257 = 2 ∧ leastWidth 65537 = 4 := by decide
/-- A dictionary to which the violation applies. -/
example : 65536 < (List.replicate 65537 ([97] : Bytes)).length := by
  rw [List.length_replicate]; decide

/-! ## C15 -/

theorem extract_text_abs {G : Graph} {i : Id} {f : UInt8 → UInt8} {fl : Flags}
    (hx : ∀ a : ABlob, extract G 1 i (fl, a) = liftB (extractText f) (fl, a))
    {b : Blob} {bs : Bytes} (hr : Reachable b) (hh : Holds b bs) :
    (bs = [] → Throws G fl i b []) ∧ (bs ≠ [] → Returns G fl i b (bs.map f) []) := by
  have hlen : bs.length < W64 := by
    have h := hh
    rw [holds_iff hr.valid] at h
    have := hr.valid.size_lt
    rw [← h, hr.valid.abs_length]; omega
  have e := extractText_abs f bs hlen
  refine ⟨fun h => ?_, fun h => ?_⟩
  · subst h
    refine Throws.intro hr.valid hh (Extracts.intro (n := 1) ?_ (by simp))
    rw [hx]; unfold liftB; rw [e]; rfl
  · refine Returns.intro hr.valid hh (Extracts.intro (n := 1) ?_ (by simp))
    have h0 : bs.length ≠ 0 := fun h0 => h (List.length_eq_zero_iff.1 h0)
    rw [hx]; unfold liftB; rw [e, if_neg h0]

/-- **C15** (Latin1). The whole blob is taken; position by position the text is the byte, except
that NUL becomes a space. -/
theorem C15_latin1_text {G : Graph} {i : Id} (hG : G i = some .latin1) (fl : Flags) {b : Blob}
    {bs : Bytes} (hr : Reachable b) (hh : Holds b bs) (hne : bs ≠ []) :
    ∃ s, Returns G fl i b s [] ∧ s.length = bs.length ∧ (∀ c ∈ s, c ≠ 0) ∧
      ∀ k (h : k < bs.length) (h' : k < s.length),
        s[k] = if bs[k] = 0 then 32 else bs[k] := by
  refine ⟨bs.map latin1Char, (extract_text_abs ?_ hr hh).2 hne, List.length_map .., ?_, ?_⟩
  · intro a; unfold extract; rw [hG]
  · intro c hc
    obtain ⟨d, _, rfl⟩ := List.mem_map.1 hc
    unfold latin1Char; split
    · decide
    · assumption
  · intro k h h'; rw [List.getElem_map]; rfl

/-- **C15** (ASCII). The whole blob is taken; the text has the same length, no NUL, only 7-bit
codes, and keeps the low seven bits of every byte whose low seven bits are not all zero. -/
theorem C15_ascii_text {G : Graph} {i : Id} (hG : G i = some .ascii) (fl : Flags) {b : Blob}
    {bs : Bytes} (hr : Reachable b) (hh : Holds b bs) (hne : bs ≠ []) :
    ∃ s, Returns G fl i b s [] ∧ s.length = bs.length ∧
      (∀ c ∈ s, 0 < c.toNat ∧ c.toNat < 128) ∧
      ∀ k (h : k < bs.length) (h' : k < s.length),
        s[k].toNat = if bs[k].toNat % 128 = 0 then 32 else bs[k].toNat % 128 := by
  have fact : ∀ d : Fin 256, (0 < (asciiChar (UInt8.ofNat d.val)).toNat ∧
      (asciiChar (UInt8.ofNat d.val)).toNat < 128) ∧ (asciiChar (UInt8.ofNat d.val)).toNat =
        if d.val % 128 = 0 then 32 else d.val % 128 := by decide +kernel
  have fact' : ∀ d : UInt8, (0 < (asciiChar d).toNat ∧ (asciiChar d).toNat < 128) ∧
      (asciiChar d).toNat = if d.toNat % 128 = 0 then 32 else d.toNat % 128 := by
    intro d
    have h := fact ⟨d.toNat, d.toNat_lt⟩
    simpa only [UInt8.ofNat_toNat] using h
  refine ⟨bs.map asciiChar, (extract_text_abs ?_ hr hh).2 hne, List.length_map .., ?_, ?_⟩
  · intro a; unfold extract; rw [hG]
  · intro c hc
    obtain ⟨d, _, rfl⟩ := List.mem_map.1 hc
    exact (fact' d).1
  · intro k h h'; rw [List.getElem_map]; exact (fact' _).2

/-- On an empty blob both throw `OutOfData`. -/
theorem C15_empty_throws {G : Graph} {i : Id} (hG : G i = some .latin1 ∨ G i = some .ascii)
    (fl : Flags) {b : Blob} (hr : Reachable b) (hh : Holds b []) : Throws G fl i b [] := by
  rcases hG with hG | hG
  · refine (extract_text_abs (f := latin1Char) ?_ hr hh).1 rfl
    intro a; unfold extract; rw [hG]
  · refine (extract_text_abs (f := asciiChar) ?_ hr hh).1 rfl
    intro a; unfold extract; rw [hG]

example : extractText latin1Char ([0, 65, 200] : ABlob) = (.ok [32, 65, 200], []) ∧
    extractText asciiChar ([0, 65, 200, 128] : ABlob) = (.ok [32, 65, 72, 32], []) := by
  decide +kernel

end BS
