import Verif.Console
import Verif.Props.Chars
import Verif.Props.JsonLong
import Verif.Props.Short

/-!
# C66: the demo program pulp2json
-/

namespace BS

/-- The program ends so. -/
def PulpEnds (r : PulpRun) (e : ProgEnd) : Prop := ∃ N, ∀ n ≥ N, pulp n r = e

/-- A run with a file: the program is given a name, opens the file and learns its true size. -/
def pulpOn (file : Bytes) : PulpRun := ⟨2, true, some file.length, file⟩

theorem pulpBuffer_full (file : Bytes) : pulpBuffer file.length file = file := by
  unfold pulpBuffer; simp

theorem pulpBuffer_length (k : Nat) (file : Bytes) : (pulpBuffer k file).length = k := by
  unfold pulpBuffer; simp only [List.length_append, List.length_take, List.length_replicate]; omega

theorem printLine_eq {s : Bytes} (h : (0 : UInt8) ∉ s) : printLine s = s ++ [10] := by
  unfold printLine
  congr 1
  induction s with
  | nil => rfl
  | cons c s ih =>
    rw [List.mem_cons, not_or] at h
    rw [List.takeWhile_cons_of_pos (by simpa using Ne.symm h.1), ih h.2]

/-- The blob the program makes. -/
theorem pulp_blob {k : Nat} {buf : Bytes} (h : buf.length = k) (hk : k < 2 ^ 63) :
    Reachable (Blob.mk' (.at buf 0) k) ∧ Holds (Blob.mk' (.at buf 0) k) buf := by
  subst h
  have hv := Blob.mk'_valid (buf := buf) (off := 0) (n := buf.length) (by omega) (by omega)
  refine ⟨.new (buf := buf) (off := 0) (n := buf.length) (by omega) (by omega), (holds_iff hv.1 _).2 ?_⟩
  rw [hv.2, List.drop_zero, List.take_length]

/-- What the program does with an outcome of the stamp, whatever happened to the file between `stat` and
`read`. -/
theorem pulp_of {argc k : Nat} {content : Bytes} (h2 : 2 ≤ argc) (hk : 1 ≤ k) (h63 : k < 2 ^ 63) :
    ∃ b, Reachable b ∧ Holds b (pulpBuffer k content) ∧
      (∀ s left, Returns jsonGraph Flags.init 0 b s left →
        PulpEnds ⟨argc, true, some k, content⟩ (.exit 0 (printLine s))) ∧
      (∀ left, Throws jsonGraph Flags.init 0 b left → PulpEnds ⟨argc, true, some k, content⟩ .terminate) := by
  obtain ⟨k, rfl⟩ : ∃ m, k = m + 1 := ⟨k - 1, by omega⟩
  obtain ⟨hr, hh⟩ := pulp_blob (pulpBuffer_length (k + 1) content) h63
  refine ⟨_, hr, hh, ?_, ?_⟩
  · rintro s left ⟨b', ⟨N, h⟩, -⟩
    refine ⟨N, fun n hn => ?_⟩
    unfold pulp
    rw [if_neg (by simp only; omega)]
    simp only [Bool.not_true, Bool.false_eq_true, if_false]
    rw [h n hn]
  · rintro left ⟨b', ⟨N, h⟩, -⟩
    refine ⟨N, fun n hn => ?_⟩
    unfold pulp
    rw [if_neg (by simp only; omega)]
    simp only [Bool.not_true, Bool.false_eq_true, if_false]
    rw [h n hn]

/-- **C66**, files of 10 to 393231 bytes: the program prints one line, the text the stamp makes of the
file, and ends well. The line is printable ASCII, and JSON but for infinities and NaNs. Missing: other
files (`C66_violated_short`, `C66_violated_empty`, `C66_violated_large`). -/
theorem C66_line_partial {file : Bytes} (h1 : 10 ≤ file.length) (h2 : file.length ≤ 393231) :
    ∃ s, PulpEnds (pulpOn file) (.exit 0 (s ++ [10])) ∧ LaxJsonText s ∧
      (∀ c ∈ s, 32 ≤ c.toNat ∧ c.toNat ≤ 126) ∧ s.length + 2 ≤ 106 * file.length := by
  obtain ⟨b, hr, hh, ho, -⟩ := pulp_of (argc := 2) (k := file.length) (content := file) le_rfl (by omega) (by omega)
  rw [pulpBuffer_full] at hh
  obtain ⟨s, left, h⟩ := C41_exact_partial hr hh h1 h2
  have hp := C65_json hr hh h
  refine ⟨s, ?_, C42_json_partial hr hh h, hp, C54_json_length hr hh h⟩
  rw [← printLine_eq fun h0 => by have := (hp 0 h0).1; simp at this]
  exact ho s left h

/-- **C66** is violated by short files: with 1 to 9 bytes the program dies of an uncaught `OutOfData`. -/
theorem C66_violated_short {file : Bytes} (h1 : 1 ≤ file.length) (h2 : file.length < 10) :
    PulpEnds (pulpOn file) .terminate := by
  obtain ⟨b, hr, hh, -, ht⟩ := pulp_of (argc := 2) (k := file.length) (content := file) le_rfl (by omega) (by omega)
  rw [pulpBuffer_full] at hh
  obtain ⟨left, h⟩ := C59_json hr hh h2
  exact ht left h

/-- **C66** is violated by the empty file: it reads element 0 of an empty vector. -/
theorem C66_violated_empty : PulpEnds (pulpOn []) (.ub .oob) := ⟨0, fun _ _ => rfl⟩

/-- **C66** is violated by some file of every size from 393232 bytes to 2 GiB: no line is printed. -/
theorem C66_violated_large {L : Nat} (h1 : 393232 ≤ L) (h2 : L < 2 ^ 31) :
    ∃ file : Bytes, file.length = L ∧ ∀ code out, ¬ PulpEnds (pulpOn file) (.exit code out) := by
  obtain ⟨file, hl, h⟩ := C41_violated_every_size h1 h2
  refine ⟨file, hl, ?_⟩
  rintro code out ⟨N, hN⟩
  have hk : ∃ k, file.length = k + 1 := ⟨file.length - 1, by omega⟩
  obtain ⟨k, hk⟩ := hk
  obtain ⟨hr, hh⟩ := pulp_blob (pulpBuffer_length (k + 1) file) (by omega)
  rw [← hk, pulpBuffer_full] at hr hh
  have hnot := (h _ hr hh).1
  have key : ∀ n ≥ N, ∃ s, (extract jsonGraph n 0 (Flags.init, Blob.mk' (.at file 0) file.length)).1 = .ok s := by
    intro n hn
    have := hN n hn
    unfold pulp pulpOn at this
    simp only [hk] at this
    rw [if_neg (by omega)] at this
    simp only [Bool.not_true, Bool.false_eq_true, if_false] at this
    rw [← hk, pulpBuffer_full] at this
    rcases hx : (extract jsonGraph n 0 (Flags.init, Blob.mk' (.at file 0) file.length)).1 with s | _ | r | _ | _
    · exact ⟨s, rfl⟩
    all_goals rw [hx] at this; cases this
  obtain ⟨s, hs⟩ := key N le_rfl
  rcases hx : extract jsonGraph N 0 (Flags.init, Blob.mk' (.at file 0) file.length) with ⟨o, fl', b'⟩
  rw [hx] at hs
  dsimp only at hs
  subst hs
  have hE := Extracts.intro hx (by simp)
  have hfl := hE.flags (.inl ⟨_, rfl⟩)
  subst hfl
  have hv := (hE.abs hr.valid).1
  exact hnot s b'.abs ⟨b', hE, (holds_iff hv _).2 rfl⟩

/-- **C66**, wrong use: without an argument, or with a file that cannot be opened, the exit status is 1
and nothing goes to standard output. -/
theorem C66_usage (r : PulpRun) (h : r.argc < 2 ∨ r.opened = false) : PulpEnds r (.exit 1 []) := by
  refine ⟨0, fun n _ => ?_⟩
  unfold pulp
  split
  · rfl
  · rcases h with h | h
    · contradiction
    · rw [h]; rfl

/-- **C66**, a file that changes its size between `stat` and `read`: missing bytes count as zeros, extra
bytes are ignored. -/
theorem C66_resized (n k : Nat) (content : Bytes) :
    pulp n ⟨2, true, some k, content⟩ =
      pulp n (pulpOn (content.take k ++ List.replicate (k - content.length) 0)) := by
  obtain ⟨buf, hb⟩ : ∃ buf, buf = pulpBuffer k content := ⟨_, rfl⟩
  have hl := pulpBuffer_length k content
  show _ = pulp n (pulpOn (pulpBuffer k content))
  rw [← hb] at hl ⊢
  have hf := pulpBuffer_full buf
  rw [hl] at hf
  unfold pulp pulpOn
  simp only [hl]
  cases k with
  | zero => rfl
  | succ k =>
    have e : pulpBuffer (k + 1) content = pulpBuffer (k + 1) buf := hb.symm.trans hf.symm
    simp only [e]

/-- A file of `00 00` and the number 7 in eight bytes. -/
example : pulp 9 (pulpOn [0, 0, 7, 0, 0, 0, 0, 0, 0, 0]) = .exit 0 [55, 10] := by decide +kernel

end BS
