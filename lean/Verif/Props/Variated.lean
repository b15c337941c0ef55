import Verif.Lemmas.Variated

/-!
# C40: how much stamps of bounded size take
-/

namespace BS

variable {G : Graph} {N : Nat}

/-- **C40**, stamps of bounded size of any make-up, among them sets, structures, lotteries and pickers: the bounds are
what `minSize()` and `maxSize()` return, and every call that returns a text takes that many bytes, however many the
blob has. Missing: blobs of more than `N ≤ 2^31-2` bytes. -/
theorem C40_bounded_partial (hN : N ≤ 2147483646) {fl : Flags} (hf : Unmarked G N fl) {i : Id} {lo hi : Nat}
    (h : VarStamp G N i lo hi) :
    HasMin G fl i lo ∧ HasMax G fl i hi ∧ ∀ b bs s left, Reachable b → Holds b bs → bs.length ≤ N →
      Returns G fl i b s left → lo ≤ bs.length - left.length ∧ bs.length - left.length ≤ hi := by
  obtain ⟨h1, h2⟩ := h.sizes fun k a b hk _ => hf k a b hk
  refine ⟨h1, h2, fun b bs s left hr hh hl hret => ?_⟩
  have := h.within hN hf bs s left hl ((returns_iff hr hh).1 hret)
  omega

/-- **C40**, operators (of one and of two operands) and structures that say they are unbounded: over stamps of bounded
size they take what these take. Missing: blobs of more than `N ≤ 2^31-2` bytes. -/
theorem C40_operators_partial (hN : N ≤ 2147483646) {fl : Flags} (hf : Unmarked G N fl) {i : Id} {lo hi : Nat}
    (h : Between G N i lo hi) {b : Blob} {bs s left : Bytes} (hr : Reachable b) (hh : Holds b bs) (hl : bs.length ≤ N)
    (hret : Returns G fl i b s left) : lo ≤ bs.length - left.length ∧ bs.length - left.length ≤ hi := by
  have := h.within hN hf bs s left hl ((returns_iff hr hh).1 hret)
  omega

/-- A choice between a byte and a structure made of this choice and a byte, the structure adding up the sizes of its
members as in README.md 192-200. -/
def sumRecursive : Graph
  | 0 => some (.picker [1, 2])
  | 1 => some (.arith .u8)
  | 2 => some (.seq [0, 1] (enumJoin [] [] []) false)
  | _ => none

/-- **C40 is violated** by recursive structures that add up the sizes of their members: a picker that is asked
meanwhile says it is unbounded by returning -1, and the sum takes this for a number. The picker promises to take
at most three bytes and takes nine. -/
theorem C40_violated_sum {b : Blob} (hr : Reachable b) (hh : Holds b [255, 255, 255, 255, 0, 0, 5, 5, 5]) :
    HasMin sumRecursive Flags.init 0 3 ∧ HasMax sumRecursive Flags.init 0 3 ∧
      Returns sumRecursive Flags.init 0 b [53, 53, 53] [] :=
  ⟨hasSize_eval 9 (by decide +kernel), hasSize_eval 9 (by decide +kernel),
    Returns.intro hr.valid hh (Extracts.intro (n := 9) (extract_eval (by decide +kernel) (by decide +kernel)) (by simp))⟩

/-- A set of a 16-bit number and a choice between a byte and a 32-bit number; the difference of two such choices. -/
def variedGraph : Graph
  | 0 => some (.set [1, 2] (enumJoin [44] [] []) false)
  | 1 => some (.arith .u16)
  | 2 => some (.picker [3, 4])
  | 3 => some (.arith .u8)
  | 4 => some (.arith .i32)
  | 5 => some (.binary [45] 2 2)
  | _ => none

theorem variedGraph_choice : VarStamp variedGraph 1000 2 3 6 := by
  have h3 : VarStamp variedGraph 1000 3 1 1 := .arith (t := .u8) rfl
  have h4 : VarStamp variedGraph 1000 4 4 4 := .arith (t := .i32) rfl
  refine .picker (cs := [3, 4]) (a := 1) (b := 4) (fun c => if c = 3 then 1 else 4) (fun c => if c = 3 then 1 else 4) rfl
    ?_ (by decide) ⟨3, by decide, rfl⟩ ⟨4, by decide, rfl⟩ (by decide) (by decide)
  simp only [List.mem_cons, List.not_mem_nil, or_false]
  rintro c (rfl | rfl) <;> assumption

/-- The set takes 7 to 10 bytes and the difference 10 to 16, although it says that it takes any number. -/
example : VarStamp variedGraph 1000 0 7 10 ∧ Between variedGraph 1000 5 10 16 ∧ HasMax variedGraph Flags.init 5 (-1) := by
  have h2 := variedGraph_choice
  have h1 : VarStamp variedGraph 1000 1 2 2 := .arith (t := .u16) rfl
  refine ⟨?_, ?_, hasSize_eval 9 (by decide +kernel)⟩
  · refine .set (cs := [1, 2]) (fun c => if c = 1 then 2 else 3) (fun c => if c = 1 then 2 else 6) rfl ?_ (by decide)
      (by decide)
    simp only [List.mem_cons, List.not_mem_nil, or_false]
    rintro c (rfl | rfl) <;> assumption
  · refine .set (cs := [2, 2]) (fun _ => 3) (fun _ => 6) rfl ?_ (by decide) (by decide)
    simp only [List.mem_cons, List.not_mem_nil, or_false]
    rintro c (rfl | rfl) <;> assumption

example {b : Blob} {bs s left : Bytes} (hr : Reachable b) (hh : Holds b bs) (hl : bs.length ≤ 1000)
    (hret : Returns variedGraph Flags.init 2 b s left) : 3 ≤ bs.length - left.length ∧ bs.length - left.length ≤ 6 :=
  (C40_bounded_partial (by decide) (fun _ _ _ _ => rfl) variedGraph_choice).2.2 b bs s left hr hh hl hret

end BS
