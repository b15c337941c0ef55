import Verif.Lemmas.Truthful
import Verif.Props.Expr

/-!
# C40: what every run takes that returns
-/

namespace BS
open BlobLike

/-- **C40**, for grammars as in `TruthfulSizes`, recursive or not, with operators of one and two operands, sets, structures,
lists, lotteries and pickers: in every run that returns, given at least `minSize()` bytes, what is taken lies between
`minSize()` and `maxSize()`. It need not be known that such a run returns. Missing: blobs of more than `L ≤ 2^31-2`
bytes, and what `TruthfulSizes` excludes (for which it is violated: `C40_violated`, `C40_violated_list`,
`C40_violated_sum`). -/
theorem C40_every_run_partial {G : Graph} {fl : Flags} {L : Nat} {mn mx : Id → Int} (h : TruthfulSizes G fl L mn mx) {i : Id}
    {b : Blob} {bs s left : Bytes} (hr : Reachable b) (hh : Holds b bs) (hlo : mn i ≤ bs.length) (hhi : bs.length ≤ L)
    (hret : Returns G fl i b s left) :
    mn i ≤ (bs.length : Int) - left.length ∧ (mx i ≠ -1 → (bs.length : Int) - left.length ≤ mx i) := by
  obtain ⟨n, hn⟩ := (returns_iff hr hh).1 hret
  obtain ⟨t1, t2⟩ := truthful_takes h n i bs s fl left hhi hlo hn
  refine ⟨by omega, fun hx => ?_⟩
  have := t2 hx
  omega

/-- `minSize()` of the stamps of `exprGraph` (`C70_sizes`). -/
def exprAsks (k : Nat) : Id → Int
  | 0 => 2
  | 1 => 1
  | 2 => 1
  | _ + 3 => if k = 0 then 4 else 8

/-- `maxSize()` of the stamps of `exprGraph` (`C70_sizes`). -/
def exprUses (k : Nat) : Id → Int
  | 0 => if k = 0 then 2 else -1
  | 1 => 1
  | 2 => 1
  | _ + 3 => -1

/-- The expressions of examples/exampleZZ.cpp 72-84 with up to 252 operators are such a grammar. -/
theorem exprGraph_truthful (ops : List Bytes) (hk : ops.length ≤ 252) (fl : Flags) :
    TruthfulSizes (exprGraph ops ops.length) fl 2147483646 (exprAsks ops.length) (exprUses ops.length) := by
  have hlot := exprGraph_lot (ops := ops) hk
  obtain ⟨z1, z2, z3, z4⟩ := C70_sizes ops hk fl
  have hop : ∀ {j : Nat} {nd : Node}, exprGraph ops ops.length (j + 3) = some nd →
      ∃ h : j < ops.length, nd = .set [0, 0] (binaryText ops[j]) true := by
    intro j nd hG
    have hj : j < ops.length := by
      by_contra hc
      have : exprGraph ops ops.length (j + 3) = none := by
        show (ops[j]?).map _ = none
        rw [List.getElem?_eq_none (by omega)]; rfl
      rw [this] at hG; cases hG
    rw [exprGraph_op hj] at hG
    exact ⟨hj, (Option.some.inj hG).symm⟩
  have h1 : exprGraph ops ops.length 1 = some (.arith .u8) := rfl
  have h2 : exprGraph ops ops.length 2 = some (.dict lcAlphaSmall) := rfl
  have hany : ∀ j < ops.length, exprGraph ops ops.length (j + 3) ≠ none := by
    intro j hj; rw [exprGraph_op hj]; simp
  refine ⟨le_rfl, ?_, ?_, ?_, ?_, ?_, ?_, ?_, ?_, ?_, ?_⟩
  · intro i nd hG j hj
    rcases i with _ | _ | _ | i
    · rw [hlot] at hG
      cases hG
      have : j = 1 ∨ j = 2 ∨ (3 ≤ j ∧ j < 3 + ops.length) := by
        simpa [Node.plainKids, Node.choices, List.mem_range'_1] using hj
      rcases this with rfl | rfl | ⟨a, c⟩
      · rw [h1]; simp
      · rw [h2]; simp
      · obtain ⟨k, rfl⟩ : ∃ k : Nat, j = k + 3 := ⟨j - 3, (Nat.sub_add_cancel a).symm⟩
        exact hany k (Nat.lt_of_add_lt_add_right (n := 3) (by rwa [Nat.add_comm ops.length]))
    · cases hG; simp [Node.plainKids, Node.choices] at hj
    · cases hG; simp [Node.plainKids, Node.choices] at hj
    · obtain ⟨_, rfl⟩ := hop hG
      have : j = 0 := by simpa [Node.plainKids, Node.choices] using hj
      subst this
      rw [hlot]; simp
  · intro i hi
    rcases i with _ | _ | _ | i
    · refine ⟨z1, z2, by norm_num [exprAsks], by norm_num [exprAsks], ?_, ?_⟩ <;> simp only [exprUses] <;> split_ifs <;> norm_num
    · exact ⟨(z3 1 (.inl rfl)).1, (z3 1 (.inl rfl)).2, by norm_num [exprAsks, exprUses]⟩
    · exact ⟨(z3 2 (.inr rfl)).1, (z3 2 (.inr rfl)).2, by norm_num [exprAsks, exprUses]⟩
    · obtain ⟨nd, hG⟩ := Option.ne_none_iff_exists'.1 hi
      obtain ⟨hj, -⟩ := hop hG
      refine ⟨(z4 i hj).1, (z4 i hj).2, ?_, ?_, by norm_num [exprUses], by norm_num [exprUses]⟩ <;> simp only [exprAsks] <;> split_ifs <;> norm_num
  · intro i hG
    rcases i with _ | _ | _ | i
    · rw [hlot] at hG; cases hG
    · cases hG
    · cases hG
    · obtain ⟨_, e⟩ := hop hG; cases e
  · intro i ws hG
    rcases i with _ | _ | _ | i
    · rw [hlot] at hG; cases hG
    · cases hG
    · cases hG; exact ⟨by decide +kernel, by decide +kernel⟩
    · obtain ⟨_, e⟩ := hop hG; cases e
  · intro i u hG
    rcases i with _ | _ | _ | i
    · rw [hlot] at hG; cases hG
    · cases hG
    · cases hG
    · obtain ⟨_, e⟩ := hop hG; cases e
  · intro i c join hG
    rcases i with _ | _ | _ | i
    · rw [hlot] at hG; cases hG
    · cases hG
    · cases hG
    · obtain ⟨_, e⟩ := hop hG; cases e
  · intro i cs join unb hG
    rcases i with _ | _ | _ | i
    · rw [hlot] at hG; cases hG
    · cases hG
    · cases hG
    · obtain ⟨_, e⟩ := hop hG
      cases e
      by_cases h0 : ops.length = 0
      · simp only [exprAsks, exprUses, List.map_cons, List.map_nil, if_pos h0]
        exact ⟨⟨by decide, by decide, by decide⟩, by decide, by decide⟩
      · simp only [exprAsks, exprUses, List.map_cons, List.map_nil, if_neg h0]
        exact ⟨⟨by decide, by decide, by decide⟩, by decide, by decide⟩
  · intro i cs join unb hG
    rcases i with _ | _ | _ | i
    · rw [hlot] at hG; cases hG
    · cases hG
    · cases hG
    · obtain ⟨_, e⟩ := hop hG; cases e
  · intro i r l w smin smax hG
    rcases i with _ | _ | _ | i
    · rw [hlot] at hG
      cases hG
      refine ⟨.inl rfl, fun j hj => ?_⟩
      have : j = 1 ∨ j = 2 ∨ (3 ≤ j ∧ j < 3 + ops.length) := by
        simpa [List.mem_range'_1] using hj
      rcases this with rfl | rfl | ⟨a, c⟩
      · refine ⟨by norm_num [exprAsks, exprUses], by norm_num [exprAsks], ?_⟩
        simp only [exprUses]; split_ifs <;> norm_num
      · refine ⟨by norm_num [exprAsks, exprUses], by norm_num [exprAsks], ?_⟩
        simp only [exprUses]; split_ifs <;> norm_num
      · obtain ⟨k, rfl⟩ : ∃ k : Nat, j = k + 3 := ⟨j - 3, (Nat.sub_add_cancel a).symm⟩
        have h0 : ops.length ≠ 0 := by
          intro e
          rw [e] at c
          exact absurd (lt_of_le_of_lt a c) (lt_irrefl _)
        simp only [exprAsks, exprUses, if_neg h0]
        norm_num
    · cases hG
    · cases hG
    · obtain ⟨_, e⟩ := hop hG; cases e
  · intro i pool hG
    rcases i with _ | _ | _ | i
    · rw [hlot] at hG; cases hG
    · cases hG
    · cases hG
    · obtain ⟨_, e⟩ := hop hG; cases e

/-- **C40** for the expressions of examples/exampleZZ.cpp with up to 252 operators, on any two bytes or more (below
2 GiB): an expression takes at least two bytes, and one that is a sum, product, ... at least 8. -/
theorem C40_expressions (ops : List Bytes) (hk : ops.length ≤ 252) (h0 : ops ≠ []) (fl : Flags) {b : Blob}
    {bs s left : Bytes} (hr : Reachable b) (hh : Holds b bs) (hhi : bs.length ≤ 2147483646) :
    (2 ≤ bs.length → Returns (exprGraph ops ops.length) fl 0 b s left → left.length + 2 ≤ bs.length) ∧
    ∀ j, 8 ≤ bs.length → Returns (exprGraph ops ops.length) fl (j + 3) b s left → left.length + 8 ≤ bs.length := by
  have hT := exprGraph_truthful ops hk fl
  refine ⟨fun hlo h => ?_, fun j hlo h => ?_⟩
  · have := (C40_every_run_partial hT (i := 0) hr hh (by simp only [exprAsks]; omega) hhi h).1
    simp only [exprAsks] at this
    omega
  · have hne : ops.length ≠ 0 := by simpa using h0
    have := (C40_every_run_partial hT (i := j + 3) hr hh (by simp only [exprAsks]; rw [if_neg hne]; omega) hhi h).1
    simp only [exprAsks] at this
    rw [if_neg hne] at this
    omega

example : (extract (exprGraph exampleOps 5) 20 0 (Flags.init, ([200, 0, 128, 200, 65, 1, 66, 7, 8, 9, 10, 11, 12] : ABlob))).1
    = .ok (str "(66 / 11)") := by decide +kernel

/-- **C40 is violated** by lists of unbounded stamps: on 196607 bytes of which the first two are 255 the number of
elements wraps to 0 (`C19_violated_count`), so that a list that asks for 5 bytes returns and takes 2. -/
theorem C40_violated_list {G : Graph} {i c : Id} {join : List Bytes → Bytes} (hG : G i = some (.vec c join))
    (hc : G c = some .latin1) (fl : Flags) {b : Blob} {rest : Bytes} (hr : Reachable b)
    (hh : Holds b (255 :: 255 :: rest)) (hl : rest.length = 196605) :
    HasMin G fl i 5 ∧ Returns G fl i b (join []) rest := by
  obtain ⟨c1, c2⟩ := C63_leaves (G := G) (fl := fl) (i := c) |>.2.1 (.inl hc)
  refine ⟨(C63_list hG c1 c2 (by norm_num) (by norm_num)).1, (returns_iff hr hh).2 ?_⟩
  obtain ⟨n, hn⟩ := VecReturns.inv hr.valid hh (C19_violated_count hr hh hl).2
  exact (list_ok_iff hG).2 ⟨_, _, _, [], c1, c2, ⟨n, hn⟩, .nil, by norm_num, rfl⟩

example : ∃ rest : Bytes, rest.length = 196605 := ⟨List.replicate 196605 7, List.length_replicate⟩

end BS
