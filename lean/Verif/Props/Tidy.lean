import Verif.Props.Fixed
import Verif.Props.Greed
import Verif.Props.Short

/-!
# Who gives the bytes back when it throws (C60)

For each way of making a stamp out of others: whether a throw leaves the blob as it was.
-/

namespace BS
open BlobLike

variable {G : Graph} {fl : Flags}

/-- **C60**, operators: a unary operator gives back what its operand gives back. -/
theorem C60_unary {i c : Id} {op : Bytes} (hG : G i = some (.unary op c)) {b : Blob} (hr : Reachable b) {left : Bytes} :
    Throws G fl i b left ↔ Throws G fl c b left :=
  (C67_unary hG hr).2 left

/-- **C60**, lists: a list over a stamp of fixed size (a record of numbers and words, say) that throws has taken
nothing, and it throws only if there is not one piece. -/
theorem C60_list (hf : Fresh G fl) {i c : Id} {join : List Bytes → Bytes} (hG : G i = some (.vec c join))
    {n : Nat} (h1 : 1 ≤ n) (h : FixedStamp G c n) {b : Blob} {bs left : Bytes} (hr : Reachable b) (hh : Holds b bs) :
    Throws G fl i b left ↔ bs.length < n ∧ left = bs := by
  obtain ⟨s1, s2⟩ := C83_sizes hf h
  have hn : n ≤ INT_MAX := by have := h.le; omega
  obtain ⟨p1, p2⟩ := C16_fixed_pieces h1 hn hr hh
  constructor
  · intro ht
    by_cases hl : bs.length < n
    · refine ⟨hl, ?_⟩
      have ht' := ((C67_list hG hr).2 bs).2 ⟨n, n, s1, s2, .inl (p1 hl)⟩
      exact (ARun.once (by simp) (by simp) ((throws_iff hr hh).1 ht) ((throws_iff hr hh).1 ht')).2
    · exfalso
      obtain ⟨parts, left', v, -, -, hp, -⟩ := p2 (by omega)
      obtain ⟨mn, mx, q1, q2, ht⟩ := ((C67_list hG hr).2 left).1 ht
      obtain rfl := (SizeRuns.unique q1 s1).1
      obtain rfl := (SizeRuns.unique q2 s2).1
      rcases ht with ht | ⟨pre, p, post, xs, v', -, -, hx⟩
      · obtain ⟨k, e⟩ := VecThrows.inv hr.valid hh ht
        obtain ⟨k', e'⟩ := VecReturns.inv hr.valid hh v
        have e1 := vecSplit_lift (le_max_left k k') (by simp) e
        have e2 := vecSplit_lift (le_max_right k k') (by simp) e'
        rw [e1] at e2
        cases e2
      · obtain ⟨rfl, -⟩ := VecReturns.once hr hh v v'
        have hpl := hp p (by simp)
        obtain ⟨s, hs⟩ := (h.exact hf).1 p hpl
        have hs := hs []
        rw [List.append_nil] at hs
        obtain ⟨l', hx⟩ := hx
        obtain ⟨b', hr', hh'⟩ := exists_blob (v.part_lt hr p (by simp))
        have := (ARun.once (by simp) (by simp) ((throws_iff hr' hh').1 (hx b' hr' hh')) hs).1
        cases this
  · rintro ⟨hl, rfl⟩
    exact ((C67_list hG hr).2 left).2 ⟨n, n, s1, s2, .inl (p1 hl)⟩

/-- **C60**, sets: a set of stamps of fixed sizes that throws has taken nothing, and it throws only if there are fewer
bytes than these sizes add up to. -/
theorem C60_set (hf : Fresh G fl) {i : Id} {cs : List Id} {join : List Bytes → Bytes} {unb : Bool} {sz : Id → Nat}
    (hG : G i = some (.set cs join unb)) (hc : ∀ c ∈ cs, FixedStamp G c (sz c))
    (hn : (cs.map sz).sum + 2 * (cs.length + 1) ≤ INT_MAX) {b : Blob} {bs left : Bytes} (hr : Reachable b)
    (hh : Holds b bs) : Throws G fl i b left ↔ bs.length < (cs.map sz).sum ∧ left = bs := by
  have hs := fun c hx => C83_sizes hf (hc c hx)
  have hz := forall₂_fixed hs
  rw [pairs_eq] at hz
  have short : bs.length < (cs.map sz).sum → ARun G fl i bs .outOfData bs := fun ha => by
    have e := setSplit_fixed (cs.map sz) (by omega) bs
    rw [if_pos ha] at e
    exact (set_ood_iff hG).2 ⟨_, hz, Or.inl e⟩
  rw [throws_iff hr hh]
  constructor
  · intro ht
    by_cases hl : bs.length < (cs.map sz).sum
    · exact ⟨hl, (ARun.once (by simp) (by simp) ht (short hl)).2⟩
    · exfalso
      obtain ⟨s, e⟩ := (set_exact hG hs (fun c hx => (hc c hx).exact hf) hn).1 (bs.take (cs.map sz).sum)
        (by rw [List.length_take]; omega)
      have e := e (bs.drop (cs.map sz).sum)
      rw [List.take_append_drop] at e
      cases (ARun.once (by simp) (by simp) ht e).1
  · rintro ⟨hl, rfl⟩
    exact short hl

/-- **C60 fails** for every structure of two or more stamps: once the first stamp has read, its bytes are gone. -/
theorem C60_violated_seq (hf : Fresh G fl) {i c : Id} {cs : List Id} {join : List Bytes → Bytes} {unb : Bool} {n : Nat}
    (hG : G i = some (.seq (c :: cs) join unb)) (h1 : 1 ≤ n) (h : ExactStamp G c n) {b : Blob} {bs left : Bytes}
    (hr : Reachable b) (hh : Holds b bs) (hl : n ≤ bs.length) (ht : Throws G fl i b left) :
    left <:+ bs.drop n ∧ left ≠ bs := by
  have key : left <:+ bs.drop n := by
    obtain ⟨k, ht⟩ := (throws_iff hr hh).1 ht
    cases k with
    | zero => cases ht
    | succ k =>
      unfold extract at ht
      rw [hG] at ht
      dsimp only at ht
      rcases M.bind_eq_ood.1 ht with ht | ⟨x, s1, -, ht⟩
      · unfold extractSeq at ht
        obtain ⟨s, e⟩ := (h.exact hf).1 (bs.take n) (by rw [List.length_take]; omega)
        have e := e (bs.drop n)
        rw [List.take_append_drop] at e
        rcases M.bind_eq_ood.1 ht with ht | ⟨x, s1, e1, ht⟩
        · cases (ARun.once (by simp) (by simp) ⟨k, ht⟩ e).1
        · obtain ⟨fl1, a1⟩ := s1
          have hk : fl1 = fl := keeps_ok (s := (fl, bs)) (s' := (fl1, a1)) (keeps_extract G k c) e1
          subst hk
          obtain rfl := (ARun.once (by simp) (by simp) ⟨k, e1⟩ e).2
          rcases M.bind_eq_ood.1 ht with ht | ⟨y, s2, -, ht⟩
          · have := suf_extractSeq (fun j => suf_extract G k j) cs (fl1, bs.drop n)
            rw [ht] at this
            exact this
          · cases ht
      · cases ht
  refine ⟨key, fun e => ?_⟩
  have := key.length_le
  rw [List.length_drop, e] at this
  omega

/-- **C60**, lotteries: a lottery that throws gives its bytes back only if it could not even read its oracle. -/
theorem C60_lottery {i : Id} {rec4 : Bool} {cs : List Id} {w : Nat} {smin smax : Int}
    (hG : G i = some (.lottery rec4 cs w smin smax)) (hw : 1 ≤ w) {b : Blob} {bs left : Bytes} (hr : Reachable b)
    (hh : Holds b bs) (ht : Throws G fl i b left) : (left = bs ↔ bs.length < w) ∧ (w ≤ bs.length → left <:+ bs.drop w) := by
  have key : (bs.length < w ∧ left = bs) ∨ (w ≤ bs.length ∧ left <:+ bs.drop w) := by
    obtain ⟨k, ht⟩ := (throws_iff hr hh).1 ht
    cases k with
    | zero => cases ht
    | succ k =>
      unfold extract at ht
      rw [hG] at ht
      dsimp only at ht
      cases hty : uOracleTy w with
      | none =>
        exfalso
        unfold uOracle at ht
        rw [hty] at ht
        rcases M.bind_eq_ood.1 ht with ht | ⟨o, s1, e1, -⟩
        · cases ht
        · cases e1
      | some ty =>
        have e := uOracle_abs hty bs
        rcases M.bind_eq_ood.1 ht with ht | ⟨o, s1, e1, ht⟩
        · have ht := liftB_ood ht
          rw [e] at ht
          split at ht
          · rename_i hl
            cases ht
            exact .inl ⟨hl, rfl⟩
          · cases ht
        · have e2 : (liftB (uOracle w) : XM ABlob Nat) (fl, bs) = if bs.length < w then (.outOfData, (fl, bs)) else
              (.ok (leNat (bs.take w)), (fl, bs.drop w)) := by
            unfold liftB; dsimp only; rw [e]; split <;> rfl
          rw [e2] at e1
          split at e1
          · cases e1
          · cases e1
            refine .inr ⟨by omega, ?_⟩
            have hs : SufX (lotFilter rec4 (sizeQ G k .min) (sizeQ G k .max) cs >>= fun l1 => (if l1.isEmpty then
                lotFilter false (sizeQ G k .min) (sizeQ G k .max) cs else pure l1) >>= fun l =>
                if l.isEmpty then M.throwOOD else
                  M.lift (scaledIndex (leNat (bs.take w)) (uMax w) l.length) >>= fun k' => M.lift (vecGet l k') >>= fun j =>
                    extract G k j) :=
              .bind (suf_lotFilter _ _ _ _) fun _ => .bind (.ite (suf_lotFilter _ _ _ _) (.pure _)) fun _ =>
                .ite (.out _) (.bind (.lift _) fun _ => .bind (.lift _) fun j => suf_extract G k j)
            have := hs (fl, bs.drop w)
            rw [ht] at this
            exact this
  rcases key with ⟨h1, h2⟩ | ⟨h1, h2⟩
  · exact ⟨⟨fun _ => h1, fun _ => h2⟩, fun _ => by omega⟩
  · refine ⟨⟨fun e => ?_, fun _ => by omega⟩, fun _ => h2⟩
    have := h2.length_le
    rw [List.length_drop, e] at this
    omega

/-- **C60**, pickers: a pool picker (arrays and objects of `StampJSON`, and `StampJSON` itself) that throws gives its
bytes back only if there was not even the oracle. -/
theorem C60_picker {i : Id} {cs : List Id} (hG : G i = some (.picker cs)) {b : Blob} {bs left : Bytes} (hr : Reachable b)
    (hh : Holds b bs) (ht : Throws G fl i b left) : (left = bs ↔ bs.length < 2) ∧ (2 ≤ bs.length → left <:+ bs.drop 2) := by
  have key : (bs.length < 2 ∧ left = bs) ∨ (2 ≤ bs.length ∧ left <:+ bs.drop 2) := by
    obtain ⟨k, ht⟩ := (throws_iff hr hh).1 ht
    cases k with
    | zero => cases ht
    | succ k =>
      unfold extract at ht
      rw [hG] at ht
      dsimp only at ht
      have e := oracle_abs bs
      rcases M.bind_eq_ood.1 ht with ht | ⟨o, s1, e1, ht⟩
      · have ht := liftB_ood ht
        rw [e] at ht
        split at ht
        · rename_i hl
          cases ht
          exact .inl ⟨hl, rfl⟩
        · cases ht
      · have e2 : (liftB oracle : XM ABlob Nat) (fl, bs) = if bs.length < 2 then (.outOfData, (fl, bs)) else
            (.ok (leNat (bs.take 2)), (fl, bs.drop 2)) := by
          unfold liftB; dsimp only; rw [e]; split <;> rfl
        rw [e2] at e1
        split at e1
        · cases e1
        · cases e1
          refine .inr ⟨by omega, ?_⟩
          rcases M.bind_eq_ood.1 ht with ht | ⟨r, s2, e3, ht⟩
          · have := suf_pickFilter (sizeQ G k .min) (sizeQ G k .max) cs (fl, bs.drop 2)
            rw [ht] at this
            exact this
          · have h3 := suf_pickFilter (sizeQ G k .min) (sizeQ G k .max) cs (fl, bs.drop 2)
            rw [e3] at h3
            have hs : ∀ l : List Id, SufX (if l.isEmpty then (liftF (sizeQ G (k + 1) .min i) >>= fun mn => curSize >>= fun sz =>
                if sz < toSz mn then M.throwOOD else M.out .abort) else
                  M.lift (oracleProportion (leNat (bs.take 2)) 0 (toSz ((l.length : Int) - 1))) >>= fun k' =>
                    M.lift (vecGet l k') >>= fun j => extract G k j) := fun l =>
              .ite (.bind (.liftF _) fun _ => .bind .size fun _ => .ite (.out _) (.out _))
                (.bind (.lift _) fun _ => .bind (.lift _) fun j => suf_extract G k j)
            have := hs (if r.2.isEmpty = true then r.1 else r.2) s2
            rw [ht] at this
            exact this.trans h3
  rcases key with ⟨h1, h2⟩ | ⟨h1, h2⟩
  · exact ⟨⟨fun _ => h1, fun _ => h2⟩, fun _ => by omega⟩
  · refine ⟨⟨fun e => ?_, fun _ => by omega⟩, fun _ => h2⟩
    have := h2.length_le
    rw [List.length_drop, e] at this
    omega

/-! ## Examples -/

/-- A list of records, a record made by a set, a record read in turn, and a lottery and a picker over it. -/
def tidyG : Graph
  | 0 => some (.vec 1 (enumJoin [44] [91] [93]))
  | 1 => some (.set [2, 3] (enumJoin [58] [] []) false)
  | 2 => some (.arith .u8)
  | 3 => some (.arith .u16)
  | 4 => some (.seq [2, 3] (enumJoin [58] [] []) false)
  | 5 => some (.lottery false [4] 1 3 3)
  | 6 => some (.picker [4])
  | _ => none

theorem tidyG_byte : FixedStamp tidyG 2 1 := .arith (t := .u8) rfl

theorem tidyG_parts : ∀ c ∈ [2, 3], FixedStamp tidyG c (if c = 2 then 1 else 2) := by
  simp only [List.mem_cons, List.not_mem_nil, or_false]
  rintro c (rfl | rfl)
  · exact tidyG_byte
  · exact .arith (t := .u16) rfl

theorem tidyG_record : FixedStamp tidyG 1 3 :=
  .set (cs := [2, 3]) (fun c => if c = 2 then 1 else 2) rfl tidyG_parts (by decide)

/-- On two bytes the list and the record made by a set throw and take nothing; on seven neither throws. The record read
in turn keeps the first byte; the lottery and the picker keep at least their oracles. -/
example {b b' : Blob} {left : Bytes} (hr : Reachable b) (hh : Holds b [7, 8]) (hr' : Reachable b')
    (hh' : Holds b' [7, 8, 9, 10, 11, 12, 13]) :
    (Throws tidyG Flags.init 0 b left ↔ left = [7, 8]) ∧ (Throws tidyG Flags.init 1 b left ↔ left = [7, 8]) ∧
    ¬ Throws tidyG Flags.init 0 b' left ∧ ¬ Throws tidyG Flags.init 1 b' left ∧
    Throws tidyG Flags.init 4 b [8] ∧ Throws tidyG Flags.init 6 b [] ∧
    (Throws tidyG Flags.init 4 b left → left <:+ [8] ∧ left ≠ [7, 8]) ∧
    (Throws tidyG Flags.init 5 b left → left <:+ [8]) ∧ (Throws tidyG Flags.init 6 b left → left <:+ []) := by
  have hf : Fresh tidyG Flags.init := fun _ _ _ => rfl
  have l1 := C60_list hf (i := 0) (left := left) rfl (by decide) tidyG_record hr hh
  have l2 := C60_list hf (i := 0) (left := left) rfl (by decide) tidyG_record hr' hh'
  have s1 := C60_set hf (i := 1) (left := left) rfl tidyG_parts (by decide) hr hh
  have s2 := C60_set hf (i := 1) (left := left) rfl tidyG_parts (by decide) hr' hh'
  refine ⟨⟨fun h => (l1.1 h).2, fun h => l1.2 ⟨by decide, h⟩⟩, ⟨fun h => (s1.1 h).2, fun h => s1.2 ⟨by decide, h⟩⟩,
    fun h => absurd (l2.1 h).1 (by decide), fun h => absurd (s2.1 h).1 (by decide),
    Throws.intro hr.valid hh (Extracts.intro (n := 2) (throw_eval (by decide +kernel) (by decide +kernel)) (by simp)),
    Throws.intro hr.valid hh (Extracts.intro (n := 4) (throw_eval (by decide +kernel) (by decide +kernel)) (by simp)),
    fun h => C60_violated_seq hf (i := 4) rfl (le_refl 1) (.fixed tidyG_byte) hr hh (by decide) h,
    fun h => (C60_lottery (i := 5) rfl (le_refl 1) hr hh h).2 (by decide),
    fun h => (C60_picker (i := 6) rfl hr hh h).2 (by decide)⟩

end BS
