import Verif.Props.Format
import Verif.Props.Recursion
import Verif.Props.Owner
import Verif.Props.GalleyVec
import Verif.Props.Blob
import Verif.Props.Copy

/-!
# C04, C17, C20, C26, C31, C34, C35 and C47: exactly when
-/

namespace BS
open BlobLike

/-! ## C04 -/

/-- **C04**, exactly: `AsByteVector` is undefined for the blobs that were built from no bytes and for no others, `DataDup` for
those on a null pointer and for no others; all else returns the bytes that are left. -/
theorem C04_exact {b : Blob} (hr : Reachable b) :
    ∃ bs, Holds b bs ∧ b.asVector = .ok bs ∧ b.asString = .ok bs ∧
      b.asByteVector = (if b.fin = 18446744073709551615 then .ub .ptrArith else .ok bs) ∧
      b.dataDup = (if b.data = .null then .ub .nullDeref else .ok (bs, bs.length)) := by
  have h := hr.valid
  refine ⟨b.abs, (holds_iff h _).2 rfl, Blob.asVector_eq h, Blob.asString_eq h, ?_, ?_⟩
  · have hle := h.beg_le
    have hf := h.1
    by_cases e : b.fin = 18446744073709551615
    · rw [if_pos e]
      have hs : b.stop = 0 := by unfold Blob.stop; rw [e]
      unfold Blob.asByteVector
      have e1 : b.data.add b.beg = .ok b.data := by
        have : b.beg = 0 := by omega
        rw [this]
        have hm := h.2
        cases hd : b.data with
        | null => rfl
        | «at» buf off => rw [hd] at hm; simp only at hm; rw [Ptr.add_at, if_pos (by omega)]; rfl
      have e2 : b.data.add b.fin = .ub .ptrArith := by
        have hm := h.2
        cases hd : b.data with
        | null => rw [e]; rfl
        | «at» buf off => rw [hd] at hm; simp only at hm; rw [Ptr.add_at, if_neg (by omega)]
      rw [e1, e2]; rfl
    · rw [if_neg e]
      by_cases hz : b.size = 0
      · have ha : b.abs = [] := List.length_eq_zero_iff.1 (by rw [h.abs_length, hz])
        rw [ha]
        have hsz := h.size_eq
        have hm := h.2
        have hfin : b.fin + 1 = b.stop := by unfold Blob.stop; omega
        unfold Blob.asByteVector
        cases hd : b.data with
        | null => rw [hd] at hm; simp only at hm; omega
        | «at» buf off =>
          rw [hd] at hm; simp only at hm
          have e1 : Ptr.add (.at buf off) b.beg = .ok (.at buf (off + b.beg)) := by rw [Ptr.add_at, if_pos (by omega)]
          have e2 : Ptr.add (.at buf off) b.fin = .ok (.at buf (off + b.fin)) := by rw [Ptr.add_at, if_pos (by omega)]
          have e3 : Ptr.add (.at buf (off + b.fin)) 1 = .ok (.at buf (off + b.fin + 1)) := by
            rw [Ptr.add_at, if_pos (by omega)]
          simp only [e1, e2, e3, Out.bind]
          rw [Ptr.range_at, if_pos (by omega), Ptr.read_at, if_pos (by omega)]
          have : off + b.fin + 1 - (off + b.beg) = 0 := by omega
          rw [this]; simp
      · exact Blob.asByteVector_eq h hz
  · split
    · rename_i hd
      have hm := h.2
      rw [hd] at hm
      unfold Blob.dataDup
      rw [hd, hm.1]; rfl
    · rename_i hd
      rw [Blob.dataDup_eq h hd, h.abs_length]

/-- Of an empty blob that has been read to its end both are defined; of one that `Chop(0)` returned `AsByteVector` is not. -/
example : (⟨.at [1, 2, 3] 0, 3, 2⟩ : Blob).asByteVector = .ok [] ∧ (Blob.mk' (.at [1, 2, 3] 1) 0).asByteVector = .ub .ptrArith ∧
    (Blob.mk' (.at [1, 2, 3] 1) 0).dataDup = .ok ([], 0) := by decide +kernel

/-! ## C17 -/

/-- **C17**, exactly: the vector galley loops for ever over stamps of fixed size 0 and over no others. -/
theorem C17_exact {mn mx : Int} (hi : -W31 ≤ mn) (hi2 : mn < W31) {b : Blob} (hr : Reachable b) :
    VecDiverges mn mx b ↔ mn = 0 ∧ mx = 0 := by
  constructor
  · intro h
    by_contra hc
    obtain ⟨o, b', ⟨N, hN⟩, ho⟩ := C17_terminates_partial hi hi2 hc hr
    have := h N
    rw [hN N (Nat.le_refl _)] at this
    exact ho this
  · rintro ⟨rfl, rfl⟩
    exact C17_violated hr

example : VecDiverges 0 0 (Blob.mk' (.at [1, 2, 3] 0) 3) ∧ ¬ VecDiverges 0 1 (Blob.mk' (.at [1, 2, 3] 0) 3) := by
  have hr : Reachable (Blob.mk' (.at [1, 2, 3] 0) 3) := .new (by decide) (by decide)
  exact ⟨(C17_exact (by decide) (by decide) hr).2 ⟨rfl, rfl⟩, fun h => by
    have := ((C17_exact (by decide) (by decide) hr).1 h).2
    cases this⟩

/-! ## C20 -/

/-- **C20**, what happens below the galley's `minSize()`, exactly: fewer bytes than the stamp itself needs, or no room for the
oracle of the count, and it throws and the blob stays as it was; otherwise it returns no piece at all. -/
theorem C20_exact {mn : Nat} {mx : Int} (hm : mn ≤ INT_MAX - 4) (hmx : mx = -1 ∨ ((mn : Int) ≤ mx ∧ mx ≤ INT_MAX))
    {b : Blob} {bs : Bytes} (hr : Reachable b) (hh : Holds b bs) (hlt : (bs.length : Int) < vecNeeds mn mx) :
    (bs.length < mn ∨ (mx = -1 ∧ bs.length < 2) → VecThrows mn mx b bs) ∧
    (mn ≤ bs.length → ¬ (mx = -1 ∧ bs.length < 2) → VecReturns mn mx b [] (if mx = -1 then bs.drop 2 else bs)) := by
  have hM : (INT_MAX : Int) = 2147483647 := rfl
  unfold vecNeeds at hlt
  have small : bs.length < mn → VecThrows mn mx b bs := fun h =>
    VecThrows.intro hr.valid hh (n := 0) (vecSplit_small (by omega) (by omega) (by omega))
  by_cases hfix : (mn : Int) = mx
  · rw [if_pos hfix] at hlt
    exact ⟨fun _ => small (by omega), fun h => by omega⟩
  rw [if_neg hfix] at hlt
  by_cases hu : mx = -1
  · subst hu
    rw [if_pos rfl] at hlt
    have hden : toSz (((toSz mn : Nat) : Int) + 2) = mn + 2 := by unfold toSz; omega
    refine ⟨?_, fun h1 h2 => ?_⟩
    · rintro (h | ⟨-, h⟩)
      · exact small h
      · by_cases hs : bs.length < mn
        · exact small hs
        · refine VecThrows.intro hr.valid hh (n := 0) ?_
          rw [vecSplit_enough (by omega) (by omega) (by omega), if_neg (by omega), if_pos rfl]
          unfold vecUnbounded
          rw [M.bind_ok (M.get_apply _)]
          dsimp only
          rw [hden, if_neg (by omega)]
          exact M.bind_ood (by rw [oracle_abs, if_pos h])
    · have h2' : 2 ≤ bs.length := by
        by_contra hc
        exact h2 ⟨rfl, by omega⟩
      rw [if_pos rfl]
      refine VecReturns.intro hr.valid hh (n := 0) ?_
      rw [vecSplit_enough (by omega) (by omega) (by omega), if_neg (by omega), if_pos rfl]
      unfold vecUnbounded
      rw [M.bind_ok (M.get_apply _)]
      dsimp only
      rw [hden, if_neg (by omega), size_abs]
      have hz : toSz ((bs.length : Int) - 2) / (mn + 2) = 0 := Nat.div_eq_of_lt (by unfold toSz; omega)
      rw [hz, M.bind_ok (show (oracle : M ABlob Nat) bs = (.ok (leNat (bs.take 2)), bs.drop 2) by
        rw [oracle_abs, if_neg (by omega)])]
      have hc : countTarget 0 (leNat (bs.take 2)) = 0 := by
        unfold countTarget
        rw [Nat.cast_zero, zero_mul]
        decide +kernel
      rw [hc]
      have h0 : (sizeOracles 0 0 : M ABlob _) (bs.drop 2) = (.ok ([], 0), bs.drop 2) := rfl
      rw [M.bind_ok h0, M.bind_ok (M.get_apply _)]
      dsimp only
      have e1 : (M.lift (ckInt ((mn : Int) * ((0 : Nat) : Int))) : M ABlob Int) (bs.drop 2) = (.ok 0, bs.drop 2) := by
        rw [Nat.cast_zero, mul_zero]; rfl
      rw [M.bind_ok e1]
      have e2 : (M.lift (ckInt (wrap32 ((size (bs.drop 2) : Nat) : Int) - 0)) : M ABlob Int) (bs.drop 2) =
          (.ok ((bs.drop 2).length : Int), bs.drop 2) := by
        have hd : (bs.drop 2).length = bs.length - 2 := List.length_drop
        rw [size_abs, wrap32_of_fits (by omega) (by omega), ckInt_ok (by omega) (by omega)]
        simp [M.lift]
      rw [M.bind_ok e2]
      rfl
  · rw [if_neg hu] at hlt
    have hmx' : (mn : Int) ≤ mx ∧ mx ≤ INT_MAX := hmx.resolve_left hu
    refine ⟨fun h => small (h.resolve_right fun h => hu h.1), fun h1 _ => ?_⟩
    rw [if_neg hu]
    refine VecReturns.intro hr.valid hh (n := 1) ?_
    rw [vecSplit_enough (by omega) (by omega) (by omega), if_neg hfix, if_neg hu]
    have e1 : (M.lift (ckInt (mx - mn)) : M ABlob Int) bs = (.ok (mx - mn), bs) := by
      rw [ckInt_ok (by omega) (by omega)]; rfl
    rw [M.bind_ok e1]
    unfold variatedLoop
    have e2 : (M.lift (ckInt ((mn : Int) + 2)) : M ABlob Int) bs = (.ok ((mn : Int) + 2), bs) := by
      rw [ckInt_ok (by omega) (by omega)]; rfl
    rw [M.bind_ok e2, M.bind_ok (M.get_apply _), if_pos (by rw [size_abs]; unfold toSz; omega)]
    rfl

/-- One byte for an unbounded stamp of no bytes or more: no room for the oracle. Five for one of two or more: no piece. -/
example (b b' : Blob) (hr : Reachable b) (hr' : Reachable b') (h : Holds b [7]) (h' : Holds b' [7, 8, 9, 10, 11]) :
    VecThrows 0 (-1) b [7] ∧ VecReturns 2 (-1) b' [] [9, 10, 11] :=
  ⟨(C20_exact (mn := 0) (by decide) (.inl rfl) hr h (by decide)).1 (.inr ⟨rfl, by decide⟩),
    (C20_exact (mn := 2) (by decide) (.inl rfl) hr' h' (by decide)).2 (by decide) (by decide)⟩

/-! ## C26 -/

theorem joinLoop_strip (sep : Bytes) (xs : List Bytes) : joinLoop sep [] xs = sep.intercalate (xs.dropWhile List.isEmpty) := by
  induction xs with
  | nil => rfl
  | cons x xs ih =>
    cases x with
    | nil => exact ih
    | cons a x => exact joinLoop_head sep (by simp)

theorem inter_strip_le (sep : Bytes) (xs : List Bytes) :
    (sep.intercalate (xs.dropWhile List.isEmpty)).length ≤ (sep.intercalate xs).length := by
  induction xs with
  | nil => exact Nat.le_refl _
  | cons x xs ih =>
    cases x with
    | cons a x => exact Nat.le_refl _
    | nil =>
      refine ih.trans ?_
      cases xs with
      | nil => exact Nat.zero_le _
      | cons y ys => rw [List.intercalate_cons_cons]; simp

theorem inter_strip_iff (sep : Bytes) (xs : List Bytes) :
    sep.intercalate (xs.dropWhile List.isEmpty) = sep.intercalate xs ↔ sep = [] ∨ xs.head? ≠ some [] ∨ xs = [[]] := by
  constructor
  · intro h
    cases xs with
    | nil => exact .inr (.inl (by simp))
    | cons x xs =>
      cases x with
      | cons a x => exact .inr (.inl (by simp))
      | nil =>
        cases xs with
        | nil => exact .inr (.inr rfl)
        | cons y ys =>
          left
          have h1 := inter_strip_le sep (y :: ys)
          have h2 := congrArg List.length h
          rw [List.intercalate_cons_cons, List.length_append, List.length_append, List.length_nil] at h2
          replace h2 : (sep.intercalate ((y :: ys).dropWhile List.isEmpty)).length = _ := h2
          exact List.length_eq_zero_iff.1 (by omega)
  · rintro (rfl | h | rfl)
    · have flat : ∀ l : List Bytes, List.intercalate [] l = l.flatten := by
        intro l
        induction l with
        | nil => rfl
        | cons x l ih =>
          cases l with
          | nil => simp
          | cons y l => rw [List.intercalate_cons_cons, ih]; simp
      rw [flat, flat]
      induction xs with
      | nil => rfl
      | cons x xs ih =>
        cases x with
        | nil => exact ih
        | cons a x => rfl
    · cases xs with
      | nil => rfl
      | cons x xs =>
        cases x with
        | nil => simp at h
        | cons a x => rfl
    · rfl

/-- **C26**, exactly: an enumerator writes its elements without the empty ones at the beginning, between the brackets, with
the separator between them. That is what the property states unless the separator is not empty, the first element is, and
there are others. -/
theorem C26_exact {G : Graph} {i c : Id} {sep l r : Bytes} (hG : G i = some (.enumerator c sep l r)) {fl : Flags} {b : Blob}
    {s left : Bytes} (hr : Reachable b) (h : Returns G fl i b s left) :
    ∃ mn mx parts xs, HasMin G fl c mn ∧ HasMax G fl c mx ∧ VecReturns mn mx b parts left ∧
      List.Forall₂ (Gives G fl c) parts xs ∧ s = l ++ sep.intercalate (xs.dropWhile List.isEmpty) ++ r ∧
      (s = l ++ sep.intercalate xs ++ r ↔ sep = [] ∨ xs.head? ≠ some [] ∨ xs = [[]]) := by
  obtain ⟨mn, mx, parts, xs, h1, h2, h3, h4, h5⟩ := vec_returns hG hr h
  have e : s = l ++ sep.intercalate (xs.dropWhile List.isEmpty) ++ r := by rw [h5, enumJoin, joinLoop_strip]
  refine ⟨mn, mx, parts, xs, h1, h2, h3, h4, e, ?_⟩
  rw [e, List.append_cancel_right_eq, List.append_cancel_left_eq]
  exact inter_strip_iff sep xs

/-- **C26**, exactly, for texts. -/
theorem C26_text_exact {G : Graph} {i c : Id} (hG : G i = some (.text c)) {fl : Flags} {b : Blob} {s left : Bytes}
    (hr : Reachable b) (h : Returns G fl i b s left) :
    ∃ mn mx parts xs, HasMin G fl c mn ∧ HasMax G fl c mx ∧ VecReturns mn mx b parts left ∧
      List.Forall₂ (Gives G fl c) parts xs ∧ s = List.intercalate [32] (xs.dropWhile List.isEmpty) ∧
      (s = List.intercalate [32] xs ↔ xs.head? ≠ some [] ∨ xs = [[]]) := by
  obtain ⟨mn, mx, parts, xs, h1, h2, h3, h4, h5⟩ := vec_returns hG hr h
  have e : s = List.intercalate [32] (xs.dropWhile List.isEmpty) := by rw [h5, textJoin, joinLoop_strip]
  refine ⟨mn, mx, parts, xs, h1, h2, h3, h4, e, ?_⟩
  rw [e, inter_strip_iff]
  simp

/-- Empty elements are dropped at the beginning only. -/
example : enumJoin [44] [91] [93] [[], [], [97], [], [98]] = str "[a,,b]" ∧
    List.intercalate [44] ([[], [], [97], [], [98]].dropWhile List.isEmpty) = str "a,,b" := by decide +kernel

/-- A blob on which it matters: two empty words before the third. -/
example : ∃ b, Reachable b ∧ Returns enumExample Flags.init 0 b (str "[a,,a]") [] := by
  obtain ⟨b, hr, hb⟩ := exists_blob (bs := [0, 0, 255, 0, 255]) (by decide)
  exact ⟨b, hr, (returns_iff hr hb).2 (arun_of 20 (by decide +kernel))⟩

/-! ## C35 -/

/-- **C35**, exactly: asked for the first time, a stamp calls itself recursive if and only if through pools of pickers alone one
comes from it to a picker that is in a circle of such, or to a stamp of the user that calls itself recursive. -/
theorem C35_exact {G : Graph} (hfin : ∃ B, ∀ i ≥ B, G i = none) (hcl : ∀ i j, PickEdge G i j → G j ≠ none) {i : Id}
    (hi : G i ≠ none) : ∃ r fl', IsRecRuns G Flags.init i r fl' ∧
      (r = true ↔ ∃ q, Relation.ReflTransGen (PickEdge G) i q ∧
        (Relation.TransGen (PickEdge G) q q ∨ ∃ u, G q = some (.user u) ∧ u.recursive = true)) := by
  obtain ⟨B, hB⟩ := id hfin
  obtain ⟨r, fl', hr, -, -, hiff⟩ := isRec_reaches hB hcl _ Flags.init rfl i hi
  refine ⟨r, fl', hr, fun h => C35_only_recursive hfin hcl (h ▸ hr), fun ⟨q, h1, h2⟩ => hiff.1 ⟨q, h1, ?_⟩⟩
  exact h2.elim .inr fun h => .inl (.inr h)

/-- A picker over one over itself calls itself recursive, though it is in no circle. -/
example : ∃ r fl', IsRecRuns (fun i => if i = 0 then some (.picker [1]) else if i = 1 then some (.picker [1]) else none)
    Flags.init 0 r fl' ∧ r = true := by
  have h01 : PickEdge (fun i => if i = 0 then some (.picker [1]) else if i = 1 then some (.picker [1]) else none) 0 1 :=
    ⟨[1], rfl, by simp⟩
  have h11 : PickEdge (fun i => if i = 0 then some (.picker [1]) else if i = 1 then some (.picker [1]) else none) 1 1 :=
    ⟨[1], rfl, by simp⟩
  obtain ⟨r, fl', h1, h2⟩ := C35_exact (i := 0)
    (G := fun i => if i = 0 then some (.picker [1]) else if i = 1 then some (.picker [1]) else none)
    ⟨2, fun i hi => by
      rw [if_neg (by rintro rfl; exact absurd hi (by decide)), if_neg (by rintro rfl; exact absurd hi (by decide))]⟩
    (by
      rintro i j ⟨pool, hG, hj⟩
      have : pool = [1] := by
        dsimp only at hG
        split at hG
        · cases hG; rfl
        · split at hG
          · cases hG; rfl
          · cases hG
      subst this
      obtain rfl := List.mem_singleton.1 hj
      simp) (by simp)
  exact ⟨r, fl', h1, h2.2 ⟨1, .single h01, .inl (.single h11)⟩⟩

/-! ## C47 -/

/-- **C47**, exactly: in the buffer of a `VLATO_ptr` there is room for all its elements if and only if the size of the buffer
did not wrap (or there are no elements). -/
theorem C47_exact {ops : List OwnOp} {m : Mem} (h : runOwn ops Mem.empty = (.ok (), m)) {x p off len elt : Nat}
    (ho : m.objs x = some (.vlato (some p) off len elt)) :
    ∃ n, m.blocks[p]? = some n ∧
      ((∀ i < len, off + (i + 1) * elt ≤ n) ↔ len = 0 ∨ off + len * elt < 18446744073709551616) := by
  obtain ⟨h1, h2⟩ := C47_size_partial h ho rfl
  refine ⟨_, h1, fun hroom => ?_, ?_⟩
  · by_contra hc
    rw [not_or, not_lt] at hc
    have := hroom (len - 1) (by omega)
    rw [show len - 1 + 1 = len by omega] at this
    have hlt : (off + len * elt) % 18446744073709551616 < 18446744073709551616 := Nat.mod_lt _ (by norm_num)
    unfold Owner.claims at this
    dsimp only at this
    omega
  · rintro (rfl | hf) i hi
    · omega
    · exact h2 _ off len elt rfl hf i hi _ h1

/-- A buffer of 14 bytes with three elements of two bytes after the first eight. -/
example : ∃ m, runOwn [.newVlato 0 8 3 2] Mem.empty = (.ok (), m) ∧ m.objs 0 = some (.vlato (some 0) 8 3 2) ∧
    m.blocks[0]? = some 14 := ⟨_, rfl, rfl, rfl⟩

/-! ## C34 -/

/-- **C34**, the other case: if no derivation is cheaper than `INT_MAX / 2`, then `minSize()` is at least that. -/
theorem C34_otherwise {G : Graph} (hg : PickerGrammar G) {fl : Flags} {i : Id} (hG : G i ≠ none)
    (hno : ∀ k, Derives G fl i k → INT_MAX / 2 ≤ k) : ∃ v, HasMin G fl i v ∧ INT_MAX / 2 ≤ v := by
  obtain ⟨v, _, hv, _⟩ := hg.sizes fl i hG
  refine ⟨v, hv, ?_⟩
  by_contra hc
  exact hc (hno v (C34_converse hg hv (by omega)))

/-- Two pickers, each over the other and nothing else. -/
def idleLoop : Graph
  | 0 => some (.picker [1])
  | 1 => some (.picker [0])
  | _ => none

theorem idleLoop_some (i : Id) (nd : Node) (h : idleLoop i = some nd) :
    (i = 0 ∧ nd = .picker [1]) ∨ (i = 1 ∧ nd = .picker [0]) := by
  match i with
  | 0 => cases h; exact .inl ⟨rfl, rfl⟩
  | 1 => cases h; exact .inr ⟨rfl, rfl⟩
  | _ + 2 => cases h

theorem idleLoop_single : SingleChild idleLoop := by
  have hp := idleLoop_some
  have he : ∀ i j, ¬ PlainEdge idleLoop i j := by
    rintro i j ⟨nd, h1, h2⟩
    rcases hp i nd h1 with ⟨_, rfl⟩ | ⟨_, rfl⟩ <;> cases h2
  refine ⟨fun i h => ?_, ⟨2, by decide, fun i hi => ?_⟩, fun i nd h j hj => ?_, fun i nd h => ?_, fun i nd h _ hn => ?_⟩
  · cases h with
    | single h => exact he _ _ h
    | tail _ h => exact he _ _ h
  · match i with
    | 0 => omega
    | 1 => omega
    | _ + 2 => rfl
  · rcases hp i nd h with ⟨_, rfl⟩ | ⟨_, rfl⟩ <;> simp only [Node.plainKids, Node.choices, List.not_mem_nil, false_or,
      List.mem_singleton] at hj <;> subst hj <;> intro hc <;> cases hc
  · rcases hp i nd h with ⟨_, rfl⟩ | ⟨_, rfl⟩ <;> exact ⟨fun _ _ _ => nofun, fun _ _ _ => nofun⟩
  · rcases hp i nd h with ⟨_, rfl⟩ | ⟨_, rfl⟩ <;> exact absurd rfl (hn _)

/-- Two pickers over each other derive nothing at all; they say so with `INT_MAX / 2`. -/
example : (∀ i k, ¬ Derives idleLoop Flags.init i k) ∧ ∃ v, HasMin idleLoop Flags.init 0 v ∧ INT_MAX / 2 ≤ v := by
  have hno : ∀ i k, ¬ Derives idleLoop Flags.init i k := by
    intro i k h
    induction h with
    | leaf h _ h2 _ => rcases idleLoop_some _ _ h with ⟨_, h⟩ | ⟨_, h⟩ <;> exact h2 _ h
    | vec h => rcases idleLoop_some _ _ h with ⟨_, h⟩ | ⟨_, h⟩ <;> cases h
    | unary h => rcases idleLoop_some _ _ h with ⟨_, h⟩ | ⟨_, h⟩ <;> cases h
    | seq h => rcases idleLoop_some _ _ h with ⟨_, h⟩ | ⟨_, h⟩ <;> cases h
    | pick _ _ _ ih => exact ih
  exact ⟨hno, C34_otherwise idleLoop_single.grammar nofun fun k h => absurd h (hno 0 k)⟩

/-- A picker over a client's stamp of 2000000000 bytes. -/
def hugePicker : Graph
  | 0 => some (.picker [1])
  | 1 => some (.user ⟨2000000000, 2000000000, false, fun _ => (.ok [], 2000000000)⟩)
  | _ => none

/-- **C34 is violated** by sizes of `INT_MAX / 2` and more: a picker over a stamp of 2000000000 bytes needs 2000000002 bytes, but
reports 1073741823, the value that stands for no derivation at all. -/
theorem C34_violated : HasMin hugePicker Flags.init 0 1073741823 ∧
    Derives hugePicker Flags.init 0 2000000002 ∧ ∀ k, Derives hugePicker Flags.init 0 k → k = 2000000002 := by
  have hm : HasMin hugePicker Flags.init 1 2000000000 := SizeRuns.intro (n := 1) rfl
  have h1 : ∀ k, Derives hugePicker Flags.init 1 k → k = 2000000000 := by
    intro k h
    cases h with
    | leaf _ _ _ h => exact (SizeRuns.unique h hm).1
    | vec h => cases h
    | unary h => cases h
    | seq h => cases h
    | pick h => cases h
  refine ⟨?_, ?_, fun k h => ?_⟩
  · obtain ⟨r, _, _, h3, h4⟩ := min_picker (G := hugePicker) (fl := Flags.init) (i := 0) (pool := [1]) rfl rfl
      (m := fun _ => 2000000000) (fun j hj => by
        rw [List.mem_singleton] at hj
        subst hj
        exact SizeRuns.intro (n := 1) rfl)
    have hr : r = INT_MAX / 2 := by
      rcases h3 with h3 | ⟨_, _, h3⟩
      · exact h3
      · have : INT_MAX / 2 = 1073741823 := by decide
        omega
    rw [if_pos hr] at h4
    exact h4
  · exact Derives.pick (pool := [1]) (j := 1) (k := 2000000000) rfl (by simp) (.leaf rfl rfl (by simp) hm)
  · cases h with
    | leaf h1 _ h2 _ => cases h1; exact absurd rfl (h2 _)
    | vec h => cases h
    | unary h => cases h
    | seq h => cases h
    | pick h h2 h3 =>
      cases h
      rw [List.mem_singleton] at h2
      subst h2
      rw [h1 _ h3]
      rfl

/-- **C31 is violated** by the same sizes: the picker over a stamp of 2000000000 bytes has more bytes than it asks for, but too few
for its stamp. It aborts instead of throwing. -/
theorem C31_violated_huge {b : Blob} {bs : Bytes} (hr : Reachable b) (hh : Holds b bs)
    (h1 : 1073741825 ≤ bs.length) (h2 : bs.length < 2000000002) :
    ∃ fl' b', Extracts hugePicker Flags.init 0 b .abort fl' b' := by
  refine picker_aborts (pool := [1]) rfl (m := fun _ => 2000000000) (mx := fun _ => 2000000000) ⟨?_, ?_⟩ C34_violated.1
    (by decide) (by decide) hr hh (fun _ _ => ?_) (by omega)
  · intro j hj
    rw [List.mem_singleton] at hj
    subst hj
    exact ⟨SizeRuns.intro (n := 1) rfl, by decide, by decide⟩
  · intro j hj
    rw [List.mem_singleton] at hj
    subst hj
    exact ⟨SizeRuns.intro (n := 1) rfl, .inr (by decide)⟩
  · show (bs.length : Int) < 2000000000 + 2
    omega

/-- Zeros, a gigabyte and a half of them: the picker aborts. -/
example {b : Blob} (hr : Reachable b) (hh : Holds b (List.replicate 1500000000 0)) :
    ∃ fl' b', Extracts hugePicker Flags.init 0 b .abort fl' b' :=
  C31_violated_huge hr hh (by rw [List.length_replicate]; omega) (by rw [List.length_replicate]; omega)

end BS
