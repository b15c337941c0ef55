import Verif.Lemmas.Fixed
import Verif.Props.Enough
import Verif.Props.Lottery

/-!
# C83: stamps of fixed size
-/

namespace BS

variable {G : Graph}

/-- **C83** (sizes). `minSize()` and `maxSize()` of a stamp of fixed size both return that size. -/
theorem C83_sizes {fl : Flags} (hf : Fresh G fl) {i : Id} {n : Nat} (h : FixedStamp G i n) :
    HasMin G fl i n ∧ HasMax G fl i n :=
  h.sizes fun k m hk _ => hf k m hk

/-- **C83** (data). For every `n` bytes `p` there is one text that a stamp of fixed size `n` returns on every blob
that begins with `p`; what follows `p` is left in the blob. With fewer than `n` bytes the stamp throws `OutOfData`.
Operators over such stamps behave alike. Not covered: stamps that say they are of fixed size and are not
(`C83_violated_string`, `C83_violated_lottery`). -/
theorem C83_exact_partial {fl : Flags} (hf : Fresh G fl) {i : Id} {n : Nat} (h : ExactStamp G i n) :
    (∀ p : Bytes, p.length = n → ∃ s, ∀ rest b, Reachable b → Holds b (p ++ rest) → Returns G fl i b s rest) ∧
    ∀ b bs, Reachable b → Holds b bs → bs.length < n → ∃ left, Throws G fl i b left := by
  obtain ⟨h1, h2⟩ := h.exact hf
  refine ⟨fun p hp => ?_, fun b bs hr hh hl => ?_⟩
  · obtain ⟨s, hs⟩ := h1 p hp
    exact ⟨s, fun rest b hr hh => (returns_iff hr hh).2 (hs rest)⟩
  · obtain ⟨left, hl⟩ := h2 bs hl
    exact ⟨left, (throws_iff hr hh).2 hl⟩

/-- **C83** (lists). A list over a stamp of fixed size `n` cuts the blob into pieces of `n` bytes and joins the texts
the stamp gives for them one by one; less than `n` bytes are left. With less than `n` bytes it throws and takes
nothing. Needs fewer than 2^31 pieces (the counter of galley.cpp is an `int`). -/
theorem C83_list {fl : Flags} (hf : Fresh G fl) {i c : Id} {join : List Bytes → Bytes} (hG : G i = some (.vec c join))
    {n : Nat} (h1 : 1 ≤ n) (h : FixedStamp G c n) {b : Blob} {bs : Bytes} (hr : Reachable b) (hh : Holds b bs) :
    (bs.length < n → Throws G fl i b bs) ∧
    (n ≤ bs.length → bs.length / n ≤ INT_MAX → ∃ parts xs left, Returns G fl i b (join xs) left ∧
      parts.flatten ++ left = bs ∧ parts.length = bs.length / n ∧ (∀ p ∈ parts, p.length = n) ∧ left.length < n ∧
      List.Forall₂ (Gives G fl c) parts xs) := by
  obtain ⟨s1, s2⟩ := C83_sizes hf h
  obtain ⟨e1, -⟩ := C83_exact_partial hf (.fixed h)
  have hn : n ≤ INT_MAX := by have := h.le; omega
  obtain ⟨p1, p2⟩ := C16_fixed_pieces h1 hn hr hh
  refine ⟨fun hl => ((C67_list hG hr).2 bs).2 ⟨n, n, s1, s2, .inl (p1 hl)⟩, fun hl hc => ?_⟩
  obtain ⟨parts, left, v, q1, q2, q3, q4⟩ := p2 hl
  have : ∃ xs, List.Forall₂ (Gives G fl c) parts xs := by
    clear v q1 q2
    induction parts with
    | nil => exact ⟨[], .nil⟩
    | cons p ps ih =>
      obtain ⟨xs, hx⟩ := ih fun q hq => q3 q (by simp [hq])
      obtain ⟨s, hs⟩ := e1 p (q3 p (by simp))
      exact ⟨s :: xs, .cons ⟨[], fun b hr hh => hs [] b hr (by rw [List.append_nil]; exact hh)⟩ hx⟩
  obtain ⟨xs, hx⟩ := this
  exact ⟨parts, xs, left, ((C67_list hG hr).1 _ left).2 ⟨n, n, parts, xs, s1, s2, v, hx, by omega, rfl⟩, q1, q2, q3, q4, hx⟩

/-- **C83** (lotteries). However a lottery is put together (constructor, then any appends), if all its members are of
one fixed size `n` then it is of fixed size itself: `n` and the width of the number that chooses. -/
theorem C83_lottery {i : Id} {rec4 : Bool} {start : Option (List (Id × SizePair))} {apps : List (Id × SizePair)} {n : Nat}
    (hG : G i = some ((LotState.build start apps).node rec4)) (hne : lotAll start apps ≠ [])
    (hl : (lotAll start apps).length ≤ 2 ^ 53) (hn : n < 2 ^ 30 - 8)
    (h : ∀ q ∈ lotAll start apps, q.2 = ((n : Int), (n : Int)) ∧ FixedStamp G q.1 n) :
    FixedStamp G i (n + lotWidth (lotAll start apps).length) := by
  obtain ⟨e1, e2⟩ := build_stamps start apps
  have e3 := build_storedMin start apps fun q hq => by rw [(h q hq).1]; exact ⟨by omega, by dsimp only; omega⟩
  have e4 := build_storedMax_bdd start apps fun q hq => by rw [(h q hq).1]; dsimp only; omega
  rw [if_neg fun hc => hne hc.1] at e3 e4
  obtain ⟨q, hq⟩ := List.exists_mem_of_ne_nil _ hne
  have e5 : minOf INT_MAX (lotAll start apps) = n := by
    obtain ⟨h1, h2, h3⟩ := minOf_spec INT_MAX (lotAll start apps)
    have h4 := h2 q hq
    rw [(h q hq).1] at h4
    rcases h3 with h3 | ⟨r, hr, h3⟩
    · dsimp only at h4; omega
    · rw [(h r hr).1] at h3; exact h3
  have e6 : maxOf 0 (lotAll start apps) = n := by
    obtain ⟨h1, h2, h3⟩ := maxOf_spec 0 (lotAll start apps)
    have h4 := h2 q hq
    rw [(h q hq).1] at h4
    rcases h3 with h3 | ⟨r, hr, h3⟩
    · dsimp only at h4; omega
    · rw [(h r hr).1] at h3; exact h3
  unfold LotState.node at hG
  rw [e1, e2, e3, e4, e5, e6] at hG
  refine .lottery hG ?_ (by simpa using hne) (by rw [List.length_map]; exact hl) (fun c hc => ?_) hn
  · unfold lotWidth; split
    · exact .inl rfl
    split
    · exact .inr (.inl rfl)
    split
    · exact .inr (.inr (.inl rfl))
    · exact .inr (.inr (.inr rfl))
  · obtain ⟨r, hr, rfl⟩ := List.mem_map.1 hc
    exact (h r hr).2

/-- A byte and a word of three, the latter appended: two bytes. -/
example {G : Graph} (h0 : G 0 = some ((LotState.build (some [(1, (1, 1))]) [(2, (1, 1))]).node true))
    (h1 : G 1 = some (.arith .u8)) (h2 : G 2 = some (.dict [[97], [98], [99]])) : FixedStamp G 0 2 := by
  have k1 : FixedStamp G 1 1 := .arith (t := .u8) h1
  have k2 : FixedStamp G 2 1 := .dict (ws := [[97], [98], [99]]) h2 (by decide) (by decide)
  refine C83_lottery (n := 1) h0 (by decide) (by decide) (by decide) ?_
  intro q hq
  rcases List.mem_cons.1 hq with rfl | hq
  · exact ⟨rfl, k1⟩
  · rcases List.mem_cons.1 hq with rfl | hq
    · exact ⟨rfl, k2⟩
    · cases hq

/-- **C83 is violated** by `StampJSONString` (stamp_json.h 55-63): both sizes are 8 and it takes one byte. -/
theorem C83_violated_string {i : Id} (hG : G i = some .jsonStr) (fl : Flags) {b : Blob} {x : UInt8} {rest : Bytes}
    (hr : Reachable b) (hb : Holds b (x :: rest)) :
    HasMin G fl i 8 ∧ HasMax G fl i 8 ∧ ∃ s, Returns G fl i b s rest :=
  ⟨(C40_violated hG fl hr hb).1, leaf_min (by unfold sizeQ; rw [hG]; rfl), (C40_violated hG fl hr hb).2⟩

/-- A lottery made by appending a byte, a Latin-1 string and a byte (stamp_lottery.h 211-231). -/
def mixedLottery : Graph
  | 0 => some ((LotState.build none [(1, (1, 1)), (2, (1, -1)), (1, (1, 1))]).node false)
  | 1 => some (.arith .u8)
  | 2 => some .latin1
  | _ => none

/-- **C83 is violated** by `StampLottery::Append` forgetting that a member is unbounded: this lottery says it takes
two bytes, no more and no less, and takes the whole blob. -/
theorem C83_violated_lottery {b : Blob} (hr : Reachable b) (hh : Holds b [128, 65, 66, 67]) :
    HasMin mixedLottery Flags.init 0 2 ∧ HasMax mixedLottery Flags.init 0 2 ∧
      Returns mixedLottery Flags.init 0 b [65, 66, 67] [] :=
  ⟨hasSize_eval 3 (by decide +kernel), hasSize_eval 3 (by decide +kernel),
    Returns.intro hr.valid hh (Extracts.intro (n := 4) (extract_eval (by decide +kernel) (by decide +kernel)) (by simp))⟩

/-- A record of a number and a choice, a list of such records, and a negated record. -/
def fixedGraph : Graph
  | 0 => some (.vec 1 (enumJoin [44] [91] [93]))
  | 1 => some (.seq [2, 3] (enumJoin [58] [] []) false)
  | 2 => some (.arith .u16)
  | 3 => some (.picker [4, 5])
  | 4 => some (.arith .u8)
  | 5 => some (.dict [[97], [98], [99]])
  | 6 => some (.unary [45] 1)
  | _ => none

theorem fixedGraph_fixed : FixedStamp fixedGraph 1 5 := by
  have h2 : FixedStamp fixedGraph 2 2 := .arith (t := .u16) rfl
  have h4 : FixedStamp fixedGraph 4 1 := .arith (t := .u8) rfl
  have h5 : FixedStamp fixedGraph 5 1 := .dict (ws := [[97], [98], [99]]) rfl (by decide) (by decide)
  have h3 : FixedStamp fixedGraph 3 3 := .picker (n := 1) (cs := [4, 5]) rfl (by decide) (by decide)
    (by simp only [List.mem_cons, List.not_mem_nil, or_false]; rintro c (rfl | rfl) <;> assumption) (by decide)
  exact .seq (cs := [2, 3]) (fun c => if c = 2 then 2 else 3) rfl
    (by simp only [List.mem_cons, List.not_mem_nil, or_false]; rintro c (rfl | rfl) <;> assumption) (by decide)

/-- The record says that it takes 5 bytes, the list makes two records out of 12 bytes and the negated record is one. -/
example {b : Blob} (hr : Reachable b) (hh : Holds b [1, 0, 0, 0, 7, 2, 0, 255, 255, 0, 8, 8]) :
    (HasMin fixedGraph Flags.init 1 5 ∧ HasMax fixedGraph Flags.init 1 5) ∧
    (∃ parts xs left, Returns fixedGraph Flags.init 0 b (enumJoin [44] [91] [93] xs) left ∧
      parts.flatten ++ left = [1, 0, 0, 0, 7, 2, 0, 255, 255, 0, 8, 8] ∧ parts.length = 2 ∧
      List.Forall₂ (Gives fixedGraph Flags.init 1) parts xs) ∧
    ExactStamp fixedGraph 6 5 := by
  have hf : Fresh fixedGraph Flags.init := fun _ _ _ => rfl
  refine ⟨C83_sizes hf fixedGraph_fixed, ?_, .unary rfl (.fixed fixedGraph_fixed)⟩
  obtain ⟨parts, xs, left, h1, h2, h3, -, -, h4⟩ :=
    (C83_list hf (i := 0) rfl (by decide) fixedGraph_fixed hr hh).2 (by decide) (by decide)
  exact ⟨parts, xs, left, h1, h2, h3, h4⟩

example {b : Blob} (hr : Reachable b) (hh : Holds b [1, 0, 0, 0, 7, 2, 0, 255, 255, 0, 8, 8]) :
    Returns fixedGraph Flags.init 0 b [91, 49, 58, 55, 44, 50, 58, 97, 93] [8, 8] :=
  Returns.intro hr.valid hh (Extracts.intro (n := 6) (extract_eval (by decide +kernel) (by decide +kernel)) (by simp))

end BS
