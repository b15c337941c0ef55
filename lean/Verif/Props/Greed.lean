import Verif.Spec.Greed
import Verif.Props.Compose
import Verif.Props.GalleySet
import Verif.Props.JsonOut

/-!
# C81: unbounded stamps use the blob up
-/

namespace BS

theorem haveSizes_unique {G : Graph} {fl : Flags} {cs : List Id} {s t : List SizePair}
    (hs : List.Forall₂ (fun c s => HasMin G fl c s.1 ∧ HasMax G fl c s.2) cs s)
    (ht : List.Forall₂ (fun c s => HasMin G fl c s.1 ∧ HasMax G fl c s.2) cs t) : s = t := by
  induction hs generalizing t with
  | nil => cases ht; rfl
  | cons h _ ih =>
    cases ht with
    | cons h' ht =>
      rw [ih ht]
      congr 1
      exact Prod.ext (SizeRuns.unique h.1 h'.1).1 (SizeRuns.unique h.2 h'.2).1

theorem ARun.short {G : Graph} {fl : Flags} {i : Id} {a a' : ABlob} {o : Out Bytes} (h : ARun G fl i a o a') :
    a'.length ≤ a.length := by
  obtain ⟨n, h⟩ := h
  have := suf_extract G n i (fl, a)
  rw [h] at this
  exact this.length_le

theorem ARun.once {G : Graph} {fl : Flags} {i : Id} {a l l' : ABlob} {o o' : Out Bytes} (ho : o ≠ .fuel) (ho' : o' ≠ .fuel)
    (h : ARun G fl i a o l) (h' : ARun G fl i a o' l') : o = o' ∧ l = l' := by
  obtain ⟨n, h⟩ := h
  obtain ⟨m, h'⟩ := h'
  have e1 := lift_run (le_max_left n m) ho h
  have e2 := lift_run (le_max_right n m) ho' h'
  rw [e1] at e2
  cases e2
  exact ⟨rfl, rfl⟩

theorem text_greedy {G : Graph} {fl : Flags} {i : Id} {f : UInt8 → UInt8}
    (hx : ∀ a : ABlob, extract G 1 i (fl, a) = liftB (extractText f) (fl, a)) {a left : ABlob} {s : Bytes}
    (ha : a.length < 9223372036854775808) (hrun : ARun G fl i a (.ok s) left) : left = [] := by
  obtain ⟨b, hr, hh⟩ := exists_blob ha
  obtain ⟨h1, h2⟩ := extract_text_abs hx hr hh
  by_cases he : a = []
  · have := ((throws_iff hr hh).1 (h1 he)).once (by simp) (by simp) hrun
    cases this.1
  · exact (((returns_iff hr hh).1 (h2 he)).once (by simp) (by simp) hrun).2.symm

theorem turn_last {G : Graph} {fl : Flags} {c : Id} {cs : List Id} {a left : ABlob} {xs : List Bytes}
    (h : ATurn G fl (cs ++ [c]) a xs left) : ∃ mid x, mid.length ≤ a.length ∧ ARun G fl c mid (.ok x) left := by
  induction cs generalizing a xs with
  | nil =>
    cases h with
    | cons h hs => cases hs; exact ⟨a, _, le_refl _, h⟩
  | cons d cs ih =>
    cases h with
    | cons h hs =>
      obtain ⟨mid, x, h1, h2⟩ := ih hs
      exact ⟨mid, x, le_trans h1 h.short, h2⟩

theorem greedy_run {G : Graph} {fl : Flags} {N : Nat} (hN : N ≤ 2147483646) {i : Id} (h : Greedy G fl N i)
    {a left : ABlob} {s : Bytes} (ha : a.length ≤ N) (hrun : ARun G fl i a (.ok s) left) : left = [] := by
  induction h generalizing a s with
  | latin1 hG => exact text_greedy (f := latin1Char) (fun a => by unfold extract; rw [hG]) (by omega) hrun
  | ascii hG => exact text_greedy (f := asciiChar) (fun a => by unfold extract; rw [hG]) (by omega) hrun
  | unary hG _ ih =>
    obtain ⟨n, h⟩ := hrun
    cases n with
    | zero => cases h
    | succ n =>
      obtain ⟨x, -, h1, -⟩ := extract_unary_ok hG h
      exact ih ha ⟨n, h1⟩
  | seq hG _ ih =>
    obtain ⟨xs, h, -⟩ := (seq_ok_iff hG).1 hrun
    obtain ⟨mid, x, h1, h2⟩ := turn_last h
    exact ih (le_trans h1 ha) h2
  | @lottery _ _ _ w _ _ hG _ ih =>
    obtain ⟨n, h⟩ := hrun
    cases n with
    | zero => cases h
    | succ n =>
      obtain ⟨o, b1, j, mn, -, h1, hj, -, -, h2⟩ := extract_lottery_ok hG h
      have := (suf_uOracle w a).length_le
      rw [h1] at this
      exact ih j hj (le_trans this ha) ⟨n, h2⟩
  | picker hG _ ih =>
    obtain ⟨n, h⟩ := hrun
    cases n with
    | zero => cases h
    | succ n =>
      obtain ⟨o, b1, j, mn, -, h1, hj, -, -, h2, -⟩ := extract_picker_ok hG h
      have := oracle_ok_length h1
      exact ih j hj (by omega) ⟨n, h2⟩
  | set hG hs hz hu hl =>
    obtain ⟨b, hr, hh⟩ := exists_blob (bs := a) (by omega)
    obtain ⟨ss, parts, xs, h1, h2, -⟩ := ((C67_set hG hr).1 s left).1 ((returns_iff hr hh).2 hrun)
    have e := haveSizes_unique hs h1
    subst e
    exact (C24_consumed_partial hr hh hz (by omega)
      (le_trans (Nat.mul_le_mul_left _ (by omega)) hl) h2).1 hu

/-- **C81**, for stamps made of text stamps, sets with an unbounded member and choices among such: whenever they
return a text for a blob of at most `N` bytes, nothing of it is left. Not covered: lists (see `C81_list_partial`),
stamps that may end with one of bounded size, and blobs of 2^31-1 bytes or more. -/
theorem C81_used_up_partial {G : Graph} {fl : Flags} {N : Nat} (hN : N ≤ 2147483646) {i : Id} (h : Greedy G fl N i)
    {b : Blob} {bs s left : Bytes} (hr : Reachable b) (hh : Holds b bs) (hl : bs.length ≤ N)
    (hret : Returns G fl i b s left) : left = [] :=
  greedy_run hN h hl ((returns_iff hr hh).1 hret)

theorem VecReturns.once {mn mx : Int} {b : Blob} {bs left left' : Bytes} {parts parts' : List Bytes} (hr : Reachable b)
    (hh : Holds b bs) (h : VecReturns mn mx b parts left) (h' : VecReturns mn mx b parts' left') :
    parts = parts' ∧ left = left' := by
  obtain ⟨n, h⟩ := VecReturns.inv hr.valid hh h
  obtain ⟨m, h'⟩ := VecReturns.inv hr.valid hh h'
  have e1 := vecSplit_lift (le_max_left n m) (by simp) h
  have e2 := vecSplit_lift (le_max_right n m) (by simp) h'
  rw [e1] at e2
  cases e2
  exact ⟨rfl, rfl⟩

/-- **C81**, lists over an unbounded stamp, for blobs of at most 3,000,000 bytes that can make at most 32768
elements: at most one byte is left. -/
theorem C81_list_partial {G : Graph} {fl : Flags} {i c : Id} {join : List Bytes → Bytes} (hG : G i = some (.vec c join))
    {m : Nat} (hm : HasMin G fl c m) (hx : HasMax G fl c (-1)) (hm' : m ≤ INT_MAX - 4)
    {b : Blob} {bs s left : Bytes} (hr : Reachable b) (hh : Holds b bs) (hlo : m + 4 ≤ bs.length)
    (hS : bs.length ≤ 3000000) (hc : (bs.length - 2) / (m + 2) ≤ 32768)
    (hret : Returns G fl i b s left) : left.length ≤ 1 := by
  obtain ⟨mn, mx, parts, xs, h1, h2, h3, -⟩ := ((C67_list hG hr).1 s left).1 hret
  cases (SizeRuns.unique h1 hm).1
  cases (SizeRuns.unique h2 hx).1
  have hn : vecNeeds m (-1) ≤ bs.length := by
    unfold vecNeeds
    rw [if_neg (by omega), if_pos rfl]
    omega
  obtain ⟨_, ps, l, h4, -, -, -, -, h5⟩ := C19_unbounded_pieces_partial hr hh hn hm' hS hc
  rw [(VecReturns.once hr hh h3 h4).2]
  exact h5

/-- **C81**, `StampJSON`: with 16 bytes or more (and at most 384 KiB) at most one byte is left. -/
theorem C81_json_partial {b : Blob} {bs s left : Bytes} (hr : Reachable b) (hh : Holds b bs) (hlo : 16 ≤ bs.length)
    (hhi : bs.length ≤ 393216) (hret : Returns jsonGraph Flags.init 0 b s left) : left.length ≤ 1 := by
  obtain ⟨x, bs, rfl⟩ : ∃ x l, bs = x :: l := by cases bs with
    | nil => simp at hlo
    | cons x l => exact ⟨x, l, rfl⟩
  obtain ⟨y, rest, rfl⟩ : ∃ x l, bs = x :: l := by cases bs with
    | nil => simp at hlo
    | cons x l => exact ⟨x, l, rfl⟩
  rw [List.length_cons, List.length_cons] at hlo hhi
  obtain ⟨b1, hr1, hh1⟩ := exists_blob (bs := rest) (by omega)
  have m0 : HasMin jsonGraph Flags.init 0 ((10 : Nat) : Int) := hasSize_eval 9 (by decide +kernel)
  have x0 : HasMax jsonGraph Flags.init 0 (-1) := hasSize_eval 9 (by decide +kernel)
  have m6 : HasMin jsonGraph Flags.init 6 ((18 : Nat) : Int) := hasSize_eval 9 (by decide +kernel)
  have x6 : HasMax jsonGraph Flags.init 6 (-1) := hasSize_eval 9 (by decide +kernel)
  have k4 : Returns jsonGraph Flags.init 4 b1 s left → left.length ≤ 1 := fun h =>
    C81_list_partial (i := 4) (c := 0) rfl m0 x0 (by norm_num) hr1 hh1 (by omega) (by omega) (by omega) h
  have k5 : 22 ≤ rest.length → Returns jsonGraph Flags.init 5 b1 s left → left.length ≤ 1 := fun hl h =>
    C81_list_partial (i := 5) (c := 6) rfl m6 x6 (by norm_num) hr1 hh1 (by omega) (by omega) (by omega) h
  obtain ⟨-, h2, h3⟩ := C53_json_kind (x := x) (y := y) (rest := rest)
  by_cases h22 : rest.length < 22
  · exact k4 (((h2 (by omega) h22 b b1 hr hh hr1 hh1).1 s left).1 hret)
  · have := ((h3 (by omega) b b1 hr hh hr1 hh1).1 s left).1 hret
    split at this
    · exact k4 this
    · exact k5 (by omega) this

/-! ## Examples and violations -/

/-- Grammar for examples: 0 a lottery over 1 and 2; 1 a set of a dictionary word and a Latin-1 text; 2 a number
followed by an ASCII text; 5 a list of 16-bit numbers; 6 a lottery over a text and such a number. -/
def greedG : Graph
  | 0 => some (.lottery false [1, 2] 2 3 (-1))
  | 1 => some (.set [7, 3] List.flatten false)
  | 2 => some (.seq [8, 4] List.flatten true)
  | 3 => some .latin1
  | 4 => some .ascii
  | 5 => some (.vec 8 List.flatten)
  | 6 => some (.lottery false [3, 8] 1 1 (-1))
  | 7 => some (.dict [[97], [98, 99]])
  | 8 => some (.arith .i16)
  | _ => none

theorem greedG_set : List.Forall₂ (fun c s => HasMin greedG Flags.init c s.1 ∧ HasMax greedG Flags.init c s.2) [7, 3]
    [(1, 1), (1, -1)] :=
  .cons ⟨hasSize_eval 3 (by decide +kernel), hasSize_eval 3 (by decide +kernel)⟩
    (.cons ⟨hasSize_eval 3 (by decide +kernel), hasSize_eval 3 (by decide +kernel)⟩ .nil)

/-- `Greedy` is met by the lottery of `greedG`, for blobs of up to a million bytes. -/
theorem greedG_greedy : Greedy greedG Flags.init 1000000 0 := by
  refine .lottery rfl fun c hc => ?_
  rw [List.mem_cons, List.mem_singleton] at hc
  rcases hc with rfl | rfl
  · exact .set rfl greedG_set ⟨by decide, by decide, by decide⟩ ⟨(1, -1), by simp, rfl⟩ (by norm_num)
  · exact .seq (cs := [8]) rfl (.ascii rfl)

example {b : Blob} (hr : Reachable b) (hh : Holds b [0, 0, 255, 72, 105, 33]) :
    Returns greedG Flags.init 0 b [98, 99, 72, 105, 33] [] :=
  Returns.intro hr.valid hh (Extracts.intro (n := 4) (extract_eval (by decide +kernel) (by decide +kernel)) (by simp))

/-- **C81 is violated**, lists of stamps of fixed size: a list of 16-bit numbers reports that it is unbounded, and
leaves the last of five bytes. -/
theorem C81_violated_list {b : Blob} (hr : Reachable b) (hh : Holds b [1, 0, 2, 0, 9]) :
    HasMax greedG Flags.init 5 (-1) ∧ Returns greedG Flags.init 5 b [49, 50] [9] :=
  ⟨hasSize_eval 3 (by decide +kernel),
    Returns.intro hr.valid hh (Extracts.intro (n := 7) (extract_eval (by decide +kernel) (by decide +kernel)) (by simp))⟩

/-- **C81 is violated**, lotteries: one over a text and a 16-bit number reports that it is unbounded, and leaves two
of five bytes when the number is drawn. -/
theorem C81_violated_lottery {b : Blob} (hr : Reachable b) (hh : Holds b [255, 7, 0, 65, 66]) :
    HasMax greedG Flags.init 6 (-1) ∧ Returns greedG Flags.init 6 b [55] [65, 66] :=
  ⟨hasSize_eval 3 (by decide +kernel),
    Returns.intro hr.valid hh (Extracts.intro (n := 3) (extract_eval (by decide +kernel) (by decide +kernel)) (by simp))⟩

/-- **C81 is violated**, `StampJSON`: it reports that it is unbounded, and makes a number of 15 bytes, leaving
five. -/
theorem C81_violated_json {b : Blob} (hr : Reachable b) (hh : Holds b [0, 0, 7, 0, 0, 0, 0, 0, 0, 0, 1, 2, 3, 4, 5]) :
    HasMax jsonGraph Flags.init 0 (-1) ∧ Returns jsonGraph Flags.init 0 b [55] [1, 2, 3, 4, 5] :=
  ⟨hasSize_eval 9 (by decide +kernel),
    Returns.intro hr.valid hh (Extracts.intro (n := 9) (extract_eval (by decide +kernel) (by decide +kernel)) (by simp))⟩

end BS
