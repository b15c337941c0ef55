import Verif.Expr
import Verif.Spec.Expr
import Verif.Props.Lottery
import Verif.Props.Sizes
import Verif.Props.Compose
import Verif.Props.SetAny

/-!
# C70: the stamp for expressions of examples/exampleZZ.cpp
-/

namespace BS
open BlobLike

/-! ## Sizes -/

theorem exprLot_eq (k : Nat) : exprLot k = ⟨1 :: 2 :: List.range' 3 k, initOracleSize (k + 2), 1,
    if k = 0 then 1 else -1⟩ := by
  induction k with
  | zero => rfl
  | succ k ih =>
    unfold exprLot LotState.append
    rw [ih]
    have e : (1 :: 2 :: List.range' 3 k) ++ [k + 3] = 1 :: 2 :: List.range' 3 (k + 1) := by
      rw [List.range'_concat]; simp [Nat.add_comm]
    dsimp only
    rw [e]
    have h2 : (1 :: 2 :: List.range' 3 (k + 1)).length = k + 1 + 2 := by simp
    rw [h2]
    congr 1
    · by_cases hk : k = 0 <;> simp [hk]
    
theorem exprGraph_lot {ops : List Bytes} {k : Nat} (hk : k ≤ 252) :
    exprGraph ops k 0 = some (.lottery true (1 :: 2 :: List.range' 3 k) 1 1 (if k = 0 then 1 else -1)) := by
  show some ((exprLot k).node true) = _
  rw [exprLot_eq]
  unfold LotState.node
  have : initOracleSize (k + 2) = 1 := by unfold initOracleSize; rw [if_pos (by omega)]
  rw [this]

theorem exprGraph_op {ops : List Bytes} {k j : Nat} (hj : j < ops.length) :
    exprGraph ops k (j + 3) = some (.set [0, 0] (binaryText ops[j]) true) := by
  show (ops[j]?).map _ = _
  rw [List.getElem?_eq_getElem hj]; rfl

/-- **C70 (sizes).** After `k` operators have been appended (at most 252), the lottery asks for two bytes and is
bounded only while there is no operator; every operator asks for 4 bytes then, for 8 afterwards, and is unbounded.
So `exprLot` writes down the sizes that `Append` is told. -/
theorem C70_sizes (ops : List Bytes) {k : Nat} (hk : k ≤ 252) (fl : Flags) :
    HasMin (exprGraph ops k) fl 0 2 ∧ HasMax (exprGraph ops k) fl 0 (if k = 0 then 2 else -1) ∧
    (∀ j, j = 1 ∨ j = 2 → HasMin (exprGraph ops k) fl j 1 ∧ HasMax (exprGraph ops k) fl j 1) ∧
    ∀ j < ops.length, HasMin (exprGraph ops k) fl (j + 3) (if k = 0 then 4 else 8) ∧
      HasMax (exprGraph ops k) fl (j + 3) (-1) := by
  have hG := exprGraph_lot (ops := ops) hk
  have h0 : HasMin (exprGraph ops k) fl 0 2 := by
    refine .intro (n := 1) ?_
    unfold sizeQ; rw [hG]; rfl
  have h1 : HasMax (exprGraph ops k) fl 0 (if k = 0 then 2 else -1) := by
    refine .intro (n := 1) ?_
    unfold sizeQ; rw [hG]
    by_cases h : k = 0
    · rw [if_pos h, if_pos h]; rfl
    · rw [if_neg h, if_neg h]; rfl
  refine ⟨h0, h1, ?_, ?_⟩
  · rintro j (rfl | rfl)
    · exact (C63_leaves (G := exprGraph ops k) (i := 1) (fl := fl)).1 .u8 rfl
    · constructor
      · refine .intro (n := 1) ?_
        unfold sizeQ
        show (Out.ok ((chooseStampSize lcAlphaSmall.length).1 : Int), fl) = _
        have : (chooseStampSize lcAlphaSmall.length).1 = 1 := by decide +kernel
        rw [this]; rfl
      · refine .intro (n := 1) ?_
        unfold sizeQ
        show (Out.ok ((chooseStampSize lcAlphaSmall.length).1 : Int), fl) = _
        have : (chooseStampSize lcAlphaSmall.length).1 = 1 := by decide +kernel
        rw [this]; rfl
  · intro j hj
    have hs : List.Forall₂ (fun j (s : SizePair) => HasMin (exprGraph ops k) fl j s.1 ∧ HasMax (exprGraph ops k) fl j s.2)
        [0, 0] [(2, if k = 0 then 2 else -1), (2, if k = 0 then 2 else -1)] := .cons ⟨h0, h1⟩ (.cons ⟨h0, h1⟩ .nil)
    by_cases h : k = 0
    · subst h
      have := C63_set (exprGraph_op (k := 0) hj) hs ⟨by simp, by decide, by decide⟩ (by decide)
      have e : setNeeds [(2, 2), (2, 2)] = 4 := by decide +kernel
      exact e ▸ this
    · simp only [if_neg h] at hs ⊢
      have := C63_set (exprGraph_op (k := k) hj) hs ⟨by simp, by decide, by decide⟩ (by decide)
      have e : setNeeds [(2, -1), (2, -1)] = 8 := by decide +kernel
      rw [e] at this
      exact this

/-- The operators of the example: the last one is told 8 bytes, the first one 4. -/
example : (exprLot 5).minSize = .ok 2 ∧ (exprLot 5).maxSize = .ok (-1) ∧ (exprLot 0).maxSize = .ok 2 ∧
    HasMin (exprGraph exampleOps 0) Flags.init 3 4 ∧ HasMin (exprGraph exampleOps 4) Flags.init 7 8 :=
  ⟨by decide +kernel, by decide +kernel, by decide +kernel,
    ((C70_sizes exampleOps (k := 0) (by decide) Flags.init).2.2.2 0 (by decide)).1,
    ((C70_sizes exampleOps (k := 4) (by decide) Flags.init).2.2.2 4 (by decide)).1⟩

/-! ## Leaves -/

theorem u8_text (v : UInt8) : intDec (v.toNat : Int) = (Expr.num v).text := by
  have h : ∀ n : Fin 256, intDec (n.val : Int) = str (toString n.val) := by decide +kernel
  exact h ⟨v.toNat, v.toNat_lt⟩

section
variable {ops : List Bytes} {k : Nat} {fl : Flags}

theorem run_num (v : UInt8) (rest : Bytes) : ARun (exprGraph ops k) fl 1 (v :: rest) (.ok (Expr.num v).text) rest := by
  refine ⟨1, ?_⟩
  have e : extract (exprGraph ops k) 1 1 (fl, (v :: rest : ABlob)) = liftB (extractArithStr .u8) (fl, v :: rest) := by
    unfold extract; rfl
  rw [e]
  unfold liftB
  rw [extractArithStr_abs]
  have h : ArithTy.u8.size = 1 := rfl
  rw [h, if_neg (by simp)]
  have : toStringPrecise .u8 (decode .u8 ((v :: rest).take 1)) = .ok (intDec (v.toNat : Int)) := by
    simp [toStringPrecise, decode, ArithTy.isInt, ArithTy.isSigned, leNat]
  rw [this, u8_text]; rfl

theorem words_size : chooseStampSize lcAlphaSmall.length = (1, 255) := by decide +kernel

theorem run_word (v : UInt8) (rest : Bytes) :
    ∃ w ∈ lcAlphaSmall, ARun (exprGraph ops k) fl 2 (v :: rest) (.ok w) rest := by
  have e : extract (exprGraph ops k) 1 2 (fl, (v :: rest : ABlob)) = liftB (extractDict lcAlphaSmall) (fl, v :: rest) := by
    unfold extract; rfl
  obtain ⟨-, h⟩ := extractDict_abs lcAlphaSmall (by decide +kernel) (by decide +kernel) (v :: rest)
  rw [words_size] at h
  obtain ⟨i, hi, -, hx⟩ := h (by simp)
  refine ⟨_, List.getElem_mem hi, 1, ?_⟩
  rw [e]
  unfold liftB
  rw [hx]; rfl

theorem run_every_word {w : Bytes} (hw : w ∈ lcAlphaSmall) :
    ∃ v : UInt8, ARun (exprGraph ops k) fl 2 [v] (.ok w) [] := by
  obtain ⟨j, hj, rfl⟩ := List.mem_iff_getElem.1 hw
  obtain ⟨p, hp, h⟩ := C13_every_word_reachable (G := exprGraph ops k) (i := 2) rfl (by decide +kernel) fl j hj
  have hl : lcAlphaSmall.length ≤ 256 := by decide +kernel
  rw [if_pos hl] at hp
  obtain ⟨v, rfl⟩ := List.length_eq_one_iff.1 hp
  obtain ⟨b, hr, hh⟩ := exists_blob (bs := [v]) (by simp)
  exact ⟨v, (returns_iff hr hh).1 (h b [] hr (by simpa using hh))⟩

/-! ## The choice -/

/-- Sizes of the stamps of the lottery. -/
def exprMin (j : Nat) : Int := if j < 3 then 1 else 8
/-- Sizes of the stamps of the lottery. -/
def exprMax (j : Nat) : Int := if j < 3 then 1 else -1

theorem mem_objs {n j : Nat} (hj : j ∈ 1 :: 2 :: List.range' 3 n) : (j = 1 ∨ j = 2) ∨ ∃ q < n, j = q + 3 := by
  simp only [List.mem_cons, List.mem_range'_1] at hj
  rcases hj with h | h | h
  · exact .inl (.inl h)
  · exact .inl (.inr h)
  · exact .inr ⟨j - 3, by omega, by omega⟩

theorem expr_lotSizes (h1 : 1 ≤ ops.length) (h2 : ops.length ≤ 252) :
    LotSizes (exprGraph ops ops.length) fl (1 :: 2 :: List.range' 3 ops.length) exprMin exprMax := by
  obtain ⟨-, -, hl, ho⟩ := C70_sizes ops h2 fl
  constructor
  · intro j hj
    rcases mem_objs hj with h | ⟨q, hq, rfl⟩
    · have : exprMin j = 1 := by rcases h with rfl | rfl <;> rfl
      rw [this]
      exact ⟨(hl j h).1, by decide, by decide⟩
    · have : exprMin (q + 3) = 8 := by unfold exprMin; rw [if_neg (by omega)]
      rw [this]
      have := (ho q hq).1
      rw [if_neg (by omega)] at this
      exact ⟨this, by decide, by decide⟩
  · intro j hj
    rcases mem_objs hj with h | ⟨q, hq, rfl⟩
    · have : exprMin j = 1 ∧ exprMax j = 1 := by rcases h with rfl | rfl <;> exact ⟨rfl, rfl⟩
      rw [this.1, this.2]
      exact ⟨(hl j h).2, .inr ⟨by decide, by decide⟩⟩
    · have : exprMax (q + 3) = -1 := by unfold exprMax; rw [if_neg (by omega)]
      rw [this]
      exact ⟨(ho q hq).2, .inl rfl⟩

theorem expr_candidates {n : Nat} (hn : 1 ≤ n) {L : Nat} {j : Nat} (hL : 1 ≤ L) :
    j ∈ lotCandidates true exprMin exprMax L (1 :: 2 :: List.range' 3 n) ↔
      (L < 8 ∧ (j = 1 ∨ j = 2)) ∨ (8 ≤ L ∧ ∃ q < n, j = q + 3) := by
  have hfit : ∀ x : Nat, x ∈ (1 :: 2 :: List.range' 3 n).filter (fun j => decide (exprMin j ≤ L)) ↔
      (x = 1 ∨ x = 2) ∨ (8 ≤ L ∧ ∃ q < n, x = q + 3) := by
    intro x
    rw [List.mem_filter, List.mem_cons, List.mem_cons, List.mem_range'_1, decide_eq_true_iff]
    unfold exprMin
    constructor
    · rintro ⟨h | h | h, h'⟩
      · exact .inl (.inl h)
      · exact .inl (.inr h)
      · rw [if_neg (by omega)] at h'
        exact .inr ⟨by omega, x - 3, by omega, by omega⟩
    · rintro ((rfl | rfl) | ⟨h, q, hq, rfl⟩)
      · exact ⟨by simp, by simp; omega⟩
      · exact ⟨by simp, by simp; omega⟩
      · exact ⟨by omega, by rw [if_neg (by omega)]; omega⟩
  have hsoft : ∀ x : Nat, x ∈ ((1 :: 2 :: List.range' 3 n).filter (fun j => decide (exprMin j ≤ L))).filter
      (fun j => decide (exprMax j = -1 ∨ (L : Int) < exprMin j + exprMax j)) ↔
      (L = 1 ∧ (x = 1 ∨ x = 2)) ∨ (8 ≤ L ∧ ∃ q < n, x = q + 3) := by
    intro x
    rw [List.mem_filter, hfit, decide_eq_true_iff]
    constructor
    · rintro ⟨h | h, h'⟩
      · refine .inl ⟨?_, h⟩
        have : exprMin x = 1 ∧ exprMax x = 1 := by rcases h with rfl | rfl <;> exact ⟨rfl, rfl⟩
        rw [this.1, this.2] at h'
        omega
      · exact .inr h
    · rintro (⟨h, h'⟩ | ⟨h, q, hq, rfl⟩)
      · have : exprMin x = 1 ∧ exprMax x = 1 := by rcases h' with rfl | rfl <;> exact ⟨rfl, rfl⟩
        exact ⟨.inl h', by rw [this.1, this.2]; omega⟩
      · exact ⟨.inr ⟨h, q, hq, rfl⟩, .inl (by unfold exprMax; rw [if_neg (by omega)])⟩
  unfold lotCandidates
  dsimp only
  split
  · rename_i h
    rw [hsoft]
    constructor
    · rintro (⟨h, h'⟩ | h')
      · exact .inl ⟨by omega, h'⟩
      · exact .inr h'
    · rintro (⟨h1, h'⟩ | h')
      · obtain ⟨x, hx⟩ := List.exists_mem_of_ne_nil _ h.2
        rcases (hsoft x).1 hx with h3 | h3
        · exact .inl ⟨h3.1, h'⟩
        · omega
      · exact .inr h'
  · rename_i h
    have hne : ∀ x : Nat, ¬ ((L = 1 ∧ (x = 1 ∨ x = 2)) ∨ (8 ≤ L ∧ ∃ q < n, x = q + 3)) := by
      intro x hx
      exact h ⟨rfl, List.ne_nil_of_mem ((hsoft x).2 hx)⟩
    rw [hfit]
    have h8 : ¬ 8 ≤ L := fun h8 => hne 3 (.inr ⟨h8, 0, by omega, rfl⟩)
    constructor
    · rintro (h' | h')
      · exact .inl ⟨by omega, h'⟩
      · omega
    · rintro (h' | h')
      · exact .inl h'.2
      · omega

theorem delegate_run {G : Graph} {i j : Id} {bs rest s left : Bytes} (h : Delegates G fl i bs j rest)
    (h1 : bs.length < 9223372036854775808) (h2 : rest.length < 9223372036854775808)
    (hj : ARun G fl j rest (.ok s) left) : ARun G fl i bs (.ok s) left := by
  obtain ⟨b, hr, hh⟩ := exists_blob h1
  obtain ⟨b1, hr1, hh1⟩ := exists_blob h2
  exact (returns_iff hr hh).1 (((h b b1 hr hh hr1 hh1).1 s left).2 ((returns_iff hr1 hh1).2 hj))

/-- The lottery hands the bytes after its oracle to a leaf if there are less than eight, to an operator otherwise. -/
theorem expr_choice (h1 : 1 ≤ ops.length) (h2 : ops.length ≤ 252) {bs : Bytes} (hl : 2 ≤ bs.length)
    (hS : bs.length ≤ 2147483646) :
    ∃ j, Delegates (exprGraph ops ops.length) fl 0 bs j (bs.drop 1) ∧
      ((bs.length < 9 ∧ (j = 1 ∨ j = 2)) ∨ (9 ≤ bs.length ∧ ∃ q < ops.length, j = q + 3)) := by
  have hs := expr_lotSizes (ops := ops) (fl := fl) h1 h2
  have hG := exprGraph_lot (ops := ops) h2
  have hne : lotCandidates true exprMin exprMax (bs.length - 1) (1 :: 2 :: List.range' 3 ops.length) ≠ [] :=
    lotCandidates_ne (j := 1) (by simp) (by show (1 : Int) ≤ _; omega)
  have hpos := List.length_pos_iff.2 hne
  have hcl := lotCandidates_length true exprMin exprMax (bs.length - 1) (1 :: 2 :: List.range' 3 ops.length)
  simp only [List.length_cons, List.length_range'] at hcl
  have ho : leNat (bs.take 1) ≤ uMax 1 := by
    have := leNat_take_lt bs 1
    unfold uMax; omega
  obtain ⟨k, e, hk⟩ := scaledIndex_lt (by decide) ho (by decide) hpos (by omega)
  refine ⟨_, lottery_core hG (.inl rfl) hs (by omega) (fun _ => by omega) hk e (by simp; omega), ?_⟩
  have := (expr_candidates h1 (by omega)).1 (List.getElem_mem hk)
  rcases this with h | h
  · exact .inl ⟨by omega, h.2⟩
  · exact .inr ⟨by omega, h.2⟩

/-! ## Operators -/

theorem run_bin (h1 : 1 ≤ ops.length) (h2 : ops.length ≤ 252) {q : Nat} (hq : q < ops.length) {a p r x y : Bytes}
    (hs : setSplit [(2, -1), (2, -1)] (a : ABlob) = (.ok [p, r], [])) {l1 l2 : Bytes}
    (hx : ARun (exprGraph ops ops.length) fl 0 p (.ok x) l1) (hy : ARun (exprGraph ops ops.length) fl 0 r (.ok y) l2) :
    ARun (exprGraph ops ops.length) fl (q + 3) a (.ok (binaryText ops[q] [x, y])) [] := by
  obtain ⟨hm, hM, -, -⟩ := C70_sizes ops h2 fl
  rw [if_neg (by omega)] at hM
  refine (set_ok_iff (exprGraph_op hq)).2 ⟨[(2, -1), (2, -1)], [p, r], [x, y], ?_, hs, ?_, by decide, rfl⟩
  · exact .cons ⟨hm, hM⟩ (.cons ⟨hm, hM⟩ .nil)
  · exact .cons ⟨l1, hx⟩ (.cons ⟨l2, hy⟩ .nil)

theorem split_two {a : Bytes} (hl : 8 ≤ a.length) (hS : a.length ≤ 2147483646) :
    ∃ p r : Bytes, setSplit [(2, -1), (2, -1)] (a : ABlob) = (.ok [p, r], []) ∧ 2 ≤ p.length ∧ 2 ≤ r.length ∧
      p.length + r.length + 4 = a.length := by
  have hok : ∀ s ∈ ([(2, -1), (2, -1)] : List SizePair), SizePair.Ok s ∧ SizePair.var s = false := by
    intro s hs
    simp only [List.mem_cons, List.not_mem_nil, or_false, or_self] at hs
    subst hs
    exact ⟨⟨by decide, by decide, .inl rfl⟩, rfl⟩
  obtain ⟨parts, h1, h2, h3⟩ := setSplit_two hok rfl a (by
    have : setNeed [(2, -1), (2, -1)] = 8 := by decide +kernel
    rw [this]; omega) hS (by simp only [List.length_cons, List.length_nil]; omega)
  cases h2 with
  | cons hp h2 => cases h2 with
    | cons hr h2 =>
      cases h2
      rename_i p r
      refine ⟨p, r, h1, Int.ofNat_le.1 hp, Int.ofNat_le.1 hr, ?_⟩
      have := congrArg List.length h3
      simp only [List.length_append, List.length_take, List.flatten_cons, List.flatten_nil, List.length_nil] at this
      omega

theorem expr_total (h1 : 1 ≤ ops.length) (h2 : ops.length ≤ 252) (n : Nat) : ∀ bs : Bytes, bs.length = n →
    2 ≤ n → n ≤ 2147483646 → ∃ (e : Expr) (left : Bytes), e.Over ops lcAlphaSmall ∧
      ARun (exprGraph ops ops.length) fl 0 bs (.ok e.text) left ∧
      left = (if n < 9 then bs.drop 2 else []) ∧ 7 * e.leaves ≤ n + 5 ∧ n + 5 ≤ 13 * e.leaves := by
  induction n using Nat.strongRecOn with
  | _ n ih =>
    intro bs hbs hn hS
    subst hbs
    obtain ⟨j, hd, hj⟩ := expr_choice (fl := fl) h1 h2 hn hS
    have hb1 : bs.length < 9223372036854775808 := by omega
    have hb2 : (bs.drop 1).length < 9223372036854775808 := by rw [List.length_drop]; omega
    rcases hj with ⟨hlt, hj⟩ | ⟨hge, q, hq, rfl⟩
    · obtain ⟨v, rest, hv⟩ : ∃ v rest, bs.drop 1 = v :: rest := by
        cases h : bs.drop 1 with
        | nil =>
          have := congrArg List.length h
          rw [List.length_drop] at this; simp at this; omega
        | cons v rest => exact ⟨v, rest, rfl⟩
      have hr : rest = bs.drop 2 := by
        have := congrArg (List.drop 1) hv
        simpa [List.drop_drop] using this.symm
      rw [if_pos hlt]
      rw [hv] at hd hb2
      rcases hj with rfl | rfl
      · exact ⟨.num v, rest, trivial, delegate_run hd hb1 hb2 (run_num v rest), hr, by
          show 7 * 1 ≤ _; omega, by show _ ≤ 13 * 1; omega⟩
      · obtain ⟨w, hw, hrun⟩ := run_word (ops := ops) (k := ops.length) (fl := fl) v rest
        exact ⟨.word w, rest, hw, delegate_run hd hb1 hb2 hrun, hr, by
          show 7 * 1 ≤ _; omega, by show _ ≤ 13 * 1; omega⟩
    · have hd1 : (bs.drop 1).length = bs.length - 1 := List.length_drop ..
      obtain ⟨p, r, hs, hp, hr, hsum⟩ := split_two (a := bs.drop 1) (by omega) (by omega)
      obtain ⟨e1, l1, o1, r1, -, a1, b1⟩ := ih p.length (by omega) p rfl hp (by omega)
      obtain ⟨e2, l2, o2, r2, -, a2, b2⟩ := ih r.length (by omega) r rfl hr (by omega)
      rw [if_neg (by omega)]
      refine ⟨.bin ops[q] e1 e2, [], ⟨List.getElem_mem hq, o1, o2⟩,
        delegate_run hd hb1 hb2 (run_bin h1 h2 hq hs r1 r2), rfl, ?_, ?_⟩
      · show 7 * (e1.leaves + e2.leaves) ≤ _; omega
      · show _ ≤ 13 * (e1.leaves + e2.leaves); omega

/-- **C70 (always an expression).** With at most 252 operators, the stamp returns the text of an expression on every
blob from two bytes (its `minSize()`) to 2147483646 bytes. An expression has a number or word for every 7 to 13
bytes of the blob plus five. From nine bytes on it is an operator's and the whole blob is used. On shorter
blobs `OutOfData` is thrown. -/
theorem C70_total (h1 : 1 ≤ ops.length) (h2 : ops.length ≤ 252) {b : Blob} {bs : Bytes} (hr : Reachable b)
    (hh : Holds b bs) :
    (bs.length < 2 → Throws (exprGraph ops ops.length) fl 0 b []) ∧
    (2 ≤ bs.length → bs.length ≤ 2147483646 → ∃ e : Expr, e.Over ops lcAlphaSmall ∧
      Returns (exprGraph ops ops.length) fl 0 b e.text (if bs.length < 9 then bs.drop 2 else []) ∧
      7 * e.leaves ≤ bs.length + 5 ∧ bs.length + 5 ≤ 13 * e.leaves) := by
  constructor
  · intro hl
    have hG := exprGraph_lot (ops := ops) h2
    rw [throws_iff hr hh]
    have hs := expr_lotSizes (ops := ops) (fl := fl) h1 h2
    obtain ⟨N1, q1⟩ := exists_common (1 :: 2 :: List.range' 3 ops.length) fun j hj => (hs.min j hj).1
    obtain ⟨N2, q2⟩ := exists_common (1 :: 2 :: List.range' 3 ops.length) fun j hj => (hs.max j hj).1
    refine ⟨max N1 N2 + 1, ?_⟩
    have hf := fun rec4 => lotFilter_run (rec4 := rec4) (fl := fl) (m := exprMin) (mx := exprMax)
      (qmin := sizeQ (exprGraph ops ops.length) (max N1 N2) .min)
      (qmax := sizeQ (exprGraph ops ops.length) (max N1 N2) .max)
      (l := 1 :: 2 :: List.range' 3 ops.length)
      (fun j hj => ⟨q1 _ (by omega) j hj, (hs.min j hj).2⟩) (fun j hj => ⟨q2 _ (by omega) j hj, (hs.max j hj).2⟩)
      (a := []) (fun _ => by simp)
    have hnil : (1 :: 2 :: List.range' 3 ops.length).filter
        (fun j => decide (exprMin j ≤ (([] : ABlob).length : Nat))) = [] := by
      rw [List.filter_eq_nil_iff]
      intro j _
      unfold exprMin
      split <;> simp
    have hu := uOracle_abs (w := 1) (ty := .u8) rfl bs
    unfold extract
    rw [hG]
    dsimp only
    cases bs with
    | nil => rw [M.bind_ood (s' := (fl, [])) (by unfold liftB; rw [hu]; rfl)]
    | cons v rest =>
      have hrest : rest = [] := List.length_eq_zero_iff.1 (by simp at hl; omega)
      subst hrest
      rw [M.bind_ok (s' := (fl, [])) (a := v.toNat) (by unfold liftB; dsimp only; rw [hu]; simp [leNat])]
      rw [M.bind_ok (hf true), hnil]
      simp only [List.filter_nil, List.isEmpty_nil, if_true]
      rw [M.bind_ok (hf false), hnil]
      rfl
  · intro hl hS
    obtain ⟨e, left, ho, hrun, hleft, ha, hb⟩ := expr_total (fl := fl) h1 h2 bs.length bs rfl hl hS
    subst hleft
    exact ⟨e, ho, (returns_iff hr hh).2 hrun, ha, hb⟩

/-- The first nine bytes of the example's data (line 43). -/
example : (extract (exprGraph exampleOps 5) 20 0
      (Flags.init, ([0x51, 0x4E, 0x5A, 0x18, 0x43, 0x0C, 0x39, 0xDC, 0x69] : ABlob))).1 =
        .ok (Expr.bin (str "-") (.num 57) (.word (str "headrest"))).text := by
  decide +kernel

/-- The five operators of the example and any blob of 404 bytes: 32 to 58 numbers and words. -/
example {b : Blob} {bs : Bytes} (hr : Reachable b) (hh : Holds b bs) (hl : bs.length = 404) : ∃ e : Expr,
    Returns (exprGraph exampleOps 5) Flags.init 0 b e.text [] ∧ 32 ≤ e.leaves ∧ e.leaves ≤ 58 := by
  obtain ⟨e, -, h, h1, h2⟩ := (C70_total (ops := exampleOps) (by decide) (by decide) hr hh).2 (by omega) (by omega)
  rw [if_neg (by omega)] at h
  exact ⟨e, h, by omega, by omega⟩

/-! ## Only expressions -/

theorem expr_only (n : Nat) : ∀ (a a' : ABlob) (fl' : Flags) (s : Bytes),
    extract (exprGraph ops ops.length) n 0 (fl, a) = (.ok s, (fl', a')) →
      ∃ e : Expr, e.Over ops lcAlphaSmall ∧ e.text = s := by
  induction n using Nat.strongRecOn with
  | _ n ih =>
    intro a a' fl' s h
    cases n with
    | zero => cases h
    | succ n =>
      have hG : exprGraph ops ops.length 0 = some (.lottery true (1 :: 2 :: List.range' 3 ops.length)
          (initOracleSize (ops.length + 2)) 1 (if ops.length = 0 then 1 else -1)) := by
        show some ((exprLot ops.length).node true) = _
        rw [exprLot_eq]; rfl
      obtain ⟨o, b1, j, mn, -, -, hj, -, -, hx⟩ := extract_lottery_ok hG h
      cases n with
      | zero => cases hx
      | succ n =>
        rcases mem_objs hj with (rfl | rfl) | ⟨q, hq, rfl⟩
        · have e : extract (exprGraph ops ops.length) (n + 1) 1 (fl, b1) = liftB (extractArithStr .u8) (fl, b1) := by
            unfold extract; rfl
          rw [e] at hx
          unfold liftB at hx
          rw [extractArithStr_abs] at hx
          split at hx
          · cases hx
          · cases b1 with
            | nil => rename_i h; exact absurd (show ([] : Bytes).length < ArithTy.u8.size by decide) h
            | cons v rest =>
              have : toStringPrecise .u8 (decode .u8 ((v :: rest).take 1)) = .ok (intDec (v.toNat : Int)) := by
                simp [toStringPrecise, decode, ArithTy.isInt, ArithTy.isSigned, leNat]
              have h3 := (Prod.mk.inj hx).1
              refine ⟨.num v, trivial, ?_⟩
              have h4 := this.symm.trans h3
              rw [u8_text] at h4
              exact Out.ok.inj h4
        · have e : extract (exprGraph ops ops.length) (n + 1) 2 (fl, b1) = liftB (extractDict lcAlphaSmall) (fl, b1) := by
            unfold extract; rfl
          rw [e] at hx
          unfold liftB at hx
          obtain ⟨d1, d2⟩ := extractDict_abs lcAlphaSmall (by decide +kernel) (by decide +kernel) b1
          by_cases hl : b1.length < (chooseStampSize lcAlphaSmall.length).1
          · dsimp only at hx
            rw [d1 hl] at hx; cases hx
          · obtain ⟨i, hi, -, hd⟩ := d2 (by omega)
            dsimp only at hx
            rw [hd] at hx
            have h3 := Out.ok.inj (Prod.mk.inj hx).1
            exact ⟨.word lcAlphaSmall[i], List.getElem_mem hi, h3⟩
        · obtain ⟨mns, mxs, parts, xs, -, m1, m2, hsp, hxs, rfl⟩ := extract_set_ok (exprGraph_op hq) hx
          have hpl : parts.length = 2 := by
            rw [setSplit_length hsp, List.length_zip, ← m1.length_eq, ← m2.length_eq]; rfl
          obtain ⟨p, r, rfl⟩ := List.length_eq_two.1 hpl
          cases hxs with
          | cons hx1 hxs => cases hxs with
            | cons hx2 hxs =>
              cases hxs
              obtain ⟨_, hx1⟩ := hx1
              obtain ⟨_, hx2⟩ := hx2
              obtain ⟨e1, o1, t1⟩ := ih n (by omega) _ _ _ _ hx1
              obtain ⟨e2, o2, t2⟩ := ih n (by omega) _ _ _ _ hx2
              exact ⟨.bin ops[q] e1 e2, ⟨List.getElem_mem hq, o1, o2⟩, by rw [← t1, ← t2]; rfl⟩

/-- **C70 (only expressions).** Whatever the operators and the blob: what the stamp returns is the text of an
expression over these operators and the words of the dictionary. -/
theorem C70_language {b : Blob} {bs s left : Bytes} (hr : Reachable b) (hh : Holds b bs)
    (h : Returns (exprGraph ops ops.length) fl 0 b s left) : ∃ e : Expr, e.Over ops lcAlphaSmall ∧ e.text = s := by
  obtain ⟨n, hn⟩ := (returns_iff hr hh).1 h
  exact expr_only n _ _ _ _ hn

/-- No blob at all makes the example print `2+2`. -/
example {b : Blob} {bs left : Bytes} (hr : Reachable b) (hh : Holds b bs) :
    ¬ Returns (exprGraph exampleOps 5) fl 0 b (str "2+2") left := by
  intro h
  obtain ⟨e, ho, ht⟩ := C70_language (ops := exampleOps) hr hh h
  have s3 : str "2+2" = [50, 43, 50] := by decide +kernel
  rw [s3] at ht
  cases e with
  | num v =>
    have : ∀ n : Fin 256, str (toString n.val) ≠ [50, 43, 50] := by decide +kernel
    exact this ⟨v.toNat, v.toNat_lt⟩ ht
  | word w =>
    have : ([50, 43, 50] : Bytes) ∉ lcAlphaSmall := by decide +kernel
    exact this (ht ▸ ho)
  | bin op l r =>
    have := congrArg List.head? ht
    have e : (Expr.bin op l r).text.head? = some 40 := by unfold Expr.text; rfl
    rw [e] at this
    cases this

/-! ## Every expression -/

theorem expr_lot_every (h1 : 1 ≤ ops.length) (h2 : ops.length ≤ 252) {rest : Bytes} (hl : 1 ≤ rest.length)
    (hS : rest.length ≤ 2147483000) {j : Nat}
    (hj : (rest.length < 8 ∧ (j = 1 ∨ j = 2)) ∨ (8 ≤ rest.length ∧ ∃ q < ops.length, j = q + 3)) :
    ∃ v : UInt8, Delegates (exprGraph ops ops.length) fl 0 (v :: rest) j rest := by
  have hmem := (expr_candidates (j := j) h1 hl).2 hj
  obtain ⟨k, hk, rfl⟩ := List.mem_iff_getElem.1 hmem
  have hcl := lotCandidates_length true exprMin exprMax rest.length (1 :: 2 :: List.range' 3 ops.length)
  simp only [List.length_cons, List.length_range'] at hcl
  obtain ⟨o, ho, e⟩ := scaledIndex_surj (M := uMax 1) (by norm_num [uMax]) (by norm_num [uMax]; omega) hk
  have ho' : o < 256 := by have : uMax 1 = 255 := rfl; omega
  refine ⟨UInt8.ofNat o, ?_⟩
  have key := lottery_core (exprGraph_lot (ops := ops) h2) (.inl rfl) (expr_lotSizes (fl := fl) h1 h2)
    (bs := UInt8.ofNat o :: rest) (by simp) (fun _ => by simp; omega) (k := k) hk (by
      have : leNat ((UInt8.ofNat o :: rest).take 1) = o := by
        simp [leNat, Nat.mod_eq_of_lt ho']
      rw [this]; exact e) (by simp; omega)
  exact key

theorem expr_every (h1 : 1 ≤ ops.length) (h2 : ops.length ≤ 252) : ∀ e : Expr, e.Over ops lcAlphaSmall →
    e.leaves ≤ 9363 → 1 ≤ e.leaves ∧ ∃ bs left : Bytes, bs.length + 5 = 7 * e.leaves ∧
      ARun (exprGraph ops ops.length) fl 0 bs (.ok e.text) left := by
  intro e
  induction e with
  | num v =>
    intro _ _
    obtain ⟨o, hd⟩ := expr_lot_every (fl := fl) h1 h2 (rest := [v]) (j := 1) (by simp) (by simp) (.inl ⟨by simp, .inl rfl⟩)
    exact ⟨le_rfl, [o, v], [], rfl, delegate_run hd (by simp) (by simp) (run_num v [])⟩
  | word w =>
    intro hw _
    obtain ⟨v, hrun⟩ := run_every_word (ops := ops) (k := ops.length) (fl := fl) hw
    obtain ⟨o, hd⟩ := expr_lot_every (fl := fl) h1 h2 (rest := [v]) (j := 2) (by simp) (by simp) (.inl ⟨by simp, .inr rfl⟩)
    exact ⟨le_rfl, [o, v], [], rfl, delegate_run hd (by simp) (by simp) hrun⟩
  | bin op l r ihl ihr =>
    rintro ⟨hop, hl, hr⟩ hle
    have hle : l.leaves + r.leaves ≤ 9363 := hle
    obtain ⟨pl, p, l1, hpl, hp⟩ := ihl hl (by omega)
    obtain ⟨ql, q, l2, hql, hq⟩ := ihr hr (by omega)
    obtain ⟨j, hj, rfl⟩ := List.mem_iff_getElem.1 hop
    have hrows : RowsOk [((2, -1), p.length - 2), ((2, -1), q.length - 2)] := by
      constructor
      all_goals
        intro x hx
        simp only [List.mem_cons, List.not_mem_nil, or_false] at hx
      · rcases hx with rfl | rfl <;> exact ⟨by dsimp only; omega, by dsimp only; omega, .inl rfl⟩
      · rcases hx with rfl | rfl <;> dsimp only <;> omega
      · rcases hx with rfl | rfl <;> rfl
      · rcases hx with rfl | rfl <;> exact fun h => by cases h
    have hal : (asks [((2, -1), p.length - 2), ((2, -1), q.length - 2)]).length = 4 := rfl
    have hlen : (asks [((2, -1), p.length - 2), ((2, -1), q.length - 2)] ++ [p, q].flatten).length =
        4 + p.length + q.length := by
      rw [List.length_append, hal]; simp; omega
    have hsp := setSplit_exact hrows (by show 2 ≤ 2; exact le_rfl) (parts := [p, q])
      (.cons (by dsimp only; omega) (.cons (by dsimp only; omega) .nil)) (by rw [hlen]; omega)
      (by rw [hlen]; simp only [List.length_cons, List.length_nil]; omega)
    have hbin := run_bin (fl := fl) h1 h2 hj hsp hp hq
    obtain ⟨o, hd⟩ := expr_lot_every (fl := fl) h1 h2 (j := j + 3) (rest := asks [((2, -1), p.length - 2), ((2, -1), q.length - 2)] ++ [p, q].flatten)
      (by rw [hlen]; omega) (by rw [hlen]; omega) (.inr ⟨by rw [hlen]; omega, j, hj, rfl⟩)
    refine ⟨by show 1 ≤ l.leaves + r.leaves; omega, _, _, ?_,
      delegate_run hd (by rw [List.length_cons, hlen]; omega) (by rw [hlen]; omega) hbin⟩
    rw [List.length_cons, hlen]
    show _ = 7 * (l.leaves + r.leaves)
    omega

/-- **C71.** With at most 252 operators, every expression over them and the words of the
dictionary with at most 9363 numbers and words is what the stamp returns for some blob, of the least possible size. -/
theorem C71_every_partial (h1 : 1 ≤ ops.length) (h2 : ops.length ≤ 252) {e : Expr} (ho : e.Over ops lcAlphaSmall)
    (hl : e.leaves ≤ 9363) :
    ∃ bs : Bytes, bs.length = 7 * e.leaves - 5 ∧ Gives (exprGraph ops ops.length) fl 0 bs e.text := by
  obtain ⟨h, bs, left, hb, hrun⟩ := expr_every (fl := fl) h1 h2 e ho hl
  exact ⟨bs, by omega, (gives_iff (by omega)).2 ⟨left, hrun⟩⟩

/-- `((1 + 2) * (3 - a))` from 23 bytes. -/
example : ∃ bs : Bytes, bs.length = 23 ∧ Gives (exprGraph exampleOps 5) fl 0 bs (str "((1 + 2) * (3 - a))") := by
  have h := C71_every_partial (ops := exampleOps) (fl := fl) (by decide) (by decide)
    (e := .bin (str "*") (.bin (str "+") (.num 1) (.num 2)) (.bin (str "-") (.num 3) (.word (str "a"))))
    ⟨by decide, ⟨by decide, trivial, trivial⟩, by decide, trivial, by
      show str "a" ∈ lcAlphaSmall; decide +kernel⟩ (by decide)
  have e : (Expr.bin (str "*") (.bin (str "+") (.num 1) (.num 2)) (.bin (str "-") (.num 3) (.word (str "a")))).text =
      str "((1 + 2) * (3 - a))" := by decide +kernel
  rw [e] at h
  exact h

end

/-! ## Texts can be read back -/

/-- Digits and small letters. -/
def isWordChar (c : UInt8) : Bool := (48 ≤ c && c ≤ 57) || (97 ≤ c && c ≤ 122)

/-- What may follow an expression inside another one. -/
def LeafEnds (r : Bytes) : Prop := ∀ c ∈ r.head?, isWordChar c = false

theorem span_unique {p : UInt8 → Bool} {a b r t : Bytes} (ha : ∀ c ∈ a, p c = true) (hb : ∀ c ∈ b, p c = true)
    (hr : ∀ c ∈ r.head?, p c = false) (ht : ∀ c ∈ t.head?, p c = false) (h : a ++ r = b ++ t) : a = b ∧ r = t := by
  induction a generalizing b with
  | nil =>
    cases b with
    | nil => exact ⟨rfl, h⟩
    | cons c b =>
      have : r.head? = some c := by rw [List.nil_append] at h; rw [h]; rfl
      have h1 := hr c (by rw [this]; rfl)
      rw [hb c (by simp)] at h1; cases h1
  | cons c a ih =>
    cases b with
    | nil =>
      have : t.head? = some c := by rw [List.nil_append] at h; rw [← h]; rfl
      have h1 := ht c (by rw [this]; rfl)
      rw [ha c (by simp)] at h1; cases h1
    | cons d b =>
      rw [List.cons_append, List.cons_append] at h
      obtain ⟨rfl, h3⟩ := List.cons.inj h
      obtain ⟨rfl, h'⟩ := ih (fun c hc => ha c (by simp [hc])) (fun c hc => hb c (by simp [hc])) h3
      exact ⟨rfl, h'⟩

theorem num_facts (v : UInt8) : (∀ c ∈ (Expr.num v).text, isWordChar c = true) ∧
    ∃ c t, (Expr.num v).text = c :: t ∧ c ≤ 57 := by
  have h : ∀ n : Fin 256, (∀ c ∈ str (toString n.val), isWordChar c = true) ∧
      ((str (toString n.val)).head?.any fun c => c ≤ 57) = true := by decide +kernel
  obtain ⟨h1, h2⟩ := h ⟨v.toNat, v.toNat_lt⟩
  refine ⟨h1, ?_⟩
  change ((Expr.num v).text.head?.any fun c => decide (c ≤ 57)) = true at h2
  cases ht : (Expr.num v).text with
  | nil => rw [ht] at h2; cases h2
  | cons c t => rw [ht] at h2; exact ⟨c, t, rfl, by simpa using h2⟩

theorem num_inj {v w : UInt8} (h : (Expr.num v).text = (Expr.num w).text) : v = w := by
  have key : ∀ n : Fin 256, (str (toString n.val)).foldl (fun a c => 10 * a + (c.toNat - 48)) 0 = n.val := by
    decide +kernel
  have h1 := key ⟨v.toNat, v.toNat_lt⟩
  have h2 := key ⟨w.toNat, w.toNat_lt⟩
  have h : str (toString v.toNat) = str (toString w.toNat) := h
  dsimp only at h1 h2
  rw [h, h2] at h1
  exact UInt8.toNat_inj.1 h1.symm

theorem word_facts {w : Bytes} (h : w ∈ lcAlphaSmall) : (∀ c ∈ w, isWordChar c = true) ∧
    ∃ c t, w = c :: t ∧ 97 ≤ c := by
  have h' : ∀ w ∈ lcAlphaSmall, (∀ c ∈ w, isWordChar c = true) ∧ (w.head?.any fun c => 97 ≤ c) = true := by
    decide +kernel
  obtain ⟨h1, h2⟩ := h' w h
  refine ⟨h1, ?_⟩
  cases w with
  | nil => cases h2
  | cons c t => exact ⟨c, t, rfl, by simpa using h2⟩

theorem leaf_bin {a : Bytes} {op : Bytes} {l r : Expr} {s t : Bytes} (ha : ∀ c ∈ a, isWordChar c = true) (hne : a ≠ [])
    (h : a ++ s = (Expr.bin op l r).text ++ t) : False := by
  cases a with
  | nil => exact hne rfl
  | cons c a =>
    have hc := ha c (by simp)
    have : c = 40 := by
      have := congrArg List.head? h
      have e : ((Expr.bin op l r).text ++ t).head? = some 40 := by
        unfold Expr.text; rfl
      rw [e] at this
      exact Option.some.inj this
    subst this
    cases hc

theorem text_unique {ops : List Bytes} (hops : ∀ op ∈ ops, (32 : UInt8) ∉ op) : ∀ e1 e2 : Expr,
    e1.Over ops lcAlphaSmall → e2.Over ops lcAlphaSmall → ∀ r1 r2 : Bytes, LeafEnds r1 → LeafEnds r2 →
      e1.text ++ r1 = e2.text ++ r2 → e1 = e2 ∧ r1 = r2 := by
  intro e1
  induction e1 with
  | num v =>
    intro e2 _ h2 r1 r2 hr1 hr2 h
    obtain ⟨a1, c, t, a2, a3⟩ := num_facts v
    cases e2 with
    | num w =>
      obtain ⟨e, e'⟩ := span_unique a1 (num_facts w).1 hr1 hr2 h
      exact ⟨by rw [num_inj e], e'⟩
    | word w =>
      obtain ⟨b1, d, u, b2, b3⟩ := word_facts h2
      obtain ⟨e, e'⟩ := span_unique a1 b1 hr1 hr2 h
      rw [a2, b2] at e
      obtain ⟨rfl, -⟩ := List.cons.inj e
      exact absurd (UInt8.le_trans b3 a3) (by decide)
    | bin op l r => exact (leaf_bin a1 (by rw [a2]; simp) h).elim
  | word w =>
    intro e2 h1 h2 r1 r2 hr1 hr2 h
    obtain ⟨a1, c, t, a2, a3⟩ := word_facts h1
    cases e2 with
    | num v =>
      obtain ⟨b1, d, u, b2, b3⟩ := num_facts v
      obtain ⟨e, e'⟩ := span_unique a1 b1 hr1 hr2 h
      rw [a2, b2] at e
      obtain ⟨rfl, -⟩ := List.cons.inj e
      exact absurd (UInt8.le_trans a3 b3) (by decide)
    | word w' =>
      obtain ⟨e, e'⟩ := span_unique a1 (word_facts h2).1 hr1 hr2 h
      exact ⟨by rw [e], e'⟩
    | bin op l r => exact (leaf_bin a1 (by rw [a2]; simp) h).elim
  | bin op l r ihl ihr =>
    intro e2 h1 h2 r1 r2 hr1 hr2 h
    cases e2 with
    | num v =>
      obtain ⟨b1, d, u, b2, b3⟩ := num_facts v
      exact (leaf_bin b1 (by rw [b2]; simp) h.symm).elim
    | word w =>
      obtain ⟨b1, d, u, b2, b3⟩ := word_facts h2
      exact (leaf_bin b1 (by rw [b2]; simp) h.symm).elim
    | bin op' l' r' =>
      have e : ∀ (op : Bytes) (l r : Expr) (t : Bytes), (Expr.bin op l r).text ++ t =
          40 :: (l.text ++ (32 :: (op ++ (32 :: (r.text ++ (41 :: t)))))) := by
        intro op l r t
        have s1 : str "(" = [40] := by decide +kernel
        have s2 : str " " = [32] := by decide +kernel
        have s3 : str ")" = [41] := by decide +kernel
        rw [Expr.text, s1, s2, s3]
        simp
      rw [e, e] at h
      obtain ⟨-, h⟩ := List.cons.inj h
      have hsp : ∀ t : Bytes, LeafEnds (32 :: t) := by
        intro t c hc
        cases hc
        decide
      have hcl : ∀ t : Bytes, LeafEnds (41 :: t) := by
        intro t c hc
        cases hc
        decide
      obtain ⟨rfl, k1⟩ := ihl l' h1.2.1 h2.2.1 _ _ (hsp _) (hsp _) h
      have hspace : ∀ (t : Bytes), ∀ c ∈ ((32 : UInt8) :: t).head?, (c != 32) = false := by
        intro t c hc
        cases hc
        rfl
      obtain ⟨rfl, k2⟩ := span_unique (p := fun c => c != 32)
        (fun c hc => by simp only [bne_iff_ne, ne_eq]; rintro rfl; exact hops _ h1.1 hc)
        (fun c hc => by simp only [bne_iff_ne, ne_eq]; rintro rfl; exact hops _ h2.1 hc)
        (hspace _) (hspace _) (List.cons.inj k1).2
      obtain ⟨rfl, k3⟩ := ihr r' h1.2.2 h2.2.2 _ _ (hcl _) (hcl _) (List.cons.inj k2).2
      exact ⟨rfl, (List.cons.inj k3).2⟩

/-- **C70 (unambiguous).** If no operator contains a space, different expressions have different texts. -/
theorem C70_unambiguous {ops : List Bytes} (hops : ∀ op ∈ ops, (32 : UInt8) ∉ op) {e1 e2 : Expr}
    (h1 : e1.Over ops lcAlphaSmall) (h2 : e2.Over ops lcAlphaSmall) (h : e1.text = e2.text) : e1 = e2 :=
  (text_unique hops e1 e2 h1 h2 [] [] (by intro c hc; cases hc) (by intro c hc; cases hc) (by rw [h])).1

/-- The operators of the example are told apart. -/
example {e1 e2 : Expr} (h1 : e1.Over exampleOps lcAlphaSmall) (h2 : e2.Over exampleOps lcAlphaSmall)
    (h : e1.text = e2.text) : e1 = e2 :=
  C70_unambiguous (by decide +kernel) h1 h2 h

theorem Expr.Over.ops_mono {ops ops' ws : List Bytes} (hs : ∀ op ∈ ops, op ∈ ops') {e : Expr} (h : e.Over ops ws) :
    e.Over ops' ws := by
  induction e with
  | num v => exact trivial
  | word w => exact h
  | bin op l r ihl ihr => exact ⟨hs _ h.1, ihl h.2.1, ihr h.2.2⟩

/-- The stamp of exampleZZ.cpp writes each of its five operators between any two numbers, and no other sign. -/
theorem C71_operators {fl : Flags} (x y : UInt8) (op : Bytes) (hop : (32 : UInt8) ∉ op) :
    (∃ (b : Blob) (bs left : Bytes), Reachable b ∧ Holds b bs ∧
      Returns (exprGraph exampleOps 5) fl 0 b (Expr.bin op (.num x) (.num y)).text left) ↔
      op ∈ [str "+", str "-", str "*", str "/", str "^"] := by
  constructor
  · rintro ⟨b, bs, left, hr, hh, h⟩
    obtain ⟨e, ho, ht⟩ := C70_language (ops := exampleOps) hr hh h
    have hsp : ∀ o ∈ op :: exampleOps, (32 : UInt8) ∉ o := by
      intro o ho'
      rcases List.mem_cons.1 ho' with rfl | ho'
      · exact hop
      · exact (by decide +kernel : ∀ o ∈ exampleOps, (32 : UInt8) ∉ o) o ho'
    have := C70_unambiguous (ops := op :: exampleOps) hsp (e1 := e) (e2 := .bin op (.num x) (.num y))
      (ho.ops_mono fun _ h => List.mem_cons_of_mem _ h) ⟨List.mem_cons_self, trivial, trivial⟩ ht
    subst this
    exact ho.1
  · intro ho
    obtain ⟨bs, hl, left, h⟩ := C71_every_partial (ops := exampleOps) (fl := fl) (by decide) (by decide)
      (e := .bin op (.num x) (.num y)) ⟨ho, trivial, trivial⟩ (by show 2 ≤ 9363; decide)
    have hl : bs.length = 9 := hl
    obtain ⟨b, hr, hh⟩ := exists_blob (bs := bs) (by omega)
    exact ⟨b, bs, left, hr, hh, h b hr hh⟩

/-- `(7 / 2)` is printed for some blob, `(7 % 2)` for none. -/
example {fl : Flags} : (∃ (b : Blob) (bs left : Bytes), Reachable b ∧ Holds b bs ∧
      Returns (exprGraph exampleOps 5) fl 0 b (str "(7 / 2)") left) ∧
    ¬ ∃ (b : Blob) (bs left : Bytes), Reachable b ∧ Holds b bs ∧
      Returns (exprGraph exampleOps 5) fl 0 b (str "(7 % 2)") left := by
  have e1 : str "(7 / 2)" = (Expr.bin (str "/") (.num 7) (.num 2)).text := by decide +kernel
  have e2 : str "(7 % 2)" = (Expr.bin (str "%") (.num 7) (.num 2)).text := by decide +kernel
  rw [e1, e2, C71_operators _ _ _ (by decide +kernel), C71_operators _ _ _ (by decide +kernel)]
  decide +kernel

/-! ## Expressions that cannot be drawn -/

theorem lopsided {ops : List Bytes} {fl : Flags} (h1 : 1 ≤ ops.length) (h2 : ops.length ≤ 252)
    (hops : ∀ op ∈ ops, (32 : UInt8) ∉ op) {op : Bytes} {l r : Expr} (ho : (Expr.bin op l r).Over ops lcAlphaSmall)
    (hl2 : 2 ≤ l.leaves) (hl : l.leaves ≤ 2000) (hrl : 122000 * l.leaves ≤ r.leaves) {bs left : Bytes}
    (hS : bs.length ≤ 2147483646) :
    ¬ ARun (exprGraph ops ops.length) fl 0 bs (.ok (Expr.bin op l r).text) left := by
  intro hrun
  have huniq : ∀ {s' left' : Bytes}, ARun (exprGraph ops ops.length) fl 0 bs (.ok s') left' →
      (Expr.bin op l r).text = s' := by
    rintro s' left' ⟨n, hn⟩
    obtain ⟨m, hm⟩ := hrun
    have e1 := lift_run (Nat.le_max_left n m) (by simp) hn
    have e2 := lift_run (Nat.le_max_right n m) (by simp) hm
    rw [e1] at e2
    exact (Out.ok.inj (Prod.mk.inj e2).1).symm
  have hb : bs.length < 9223372036854775808 := by omega
  by_cases hlt : bs.length < 2
  · obtain ⟨b, hr, hh⟩ := exists_blob hb
    obtain ⟨n, hn⟩ := (throws_iff hr hh).1 ((C70_total (fl := fl) h1 h2 hr hh).1 hlt)
    obtain ⟨m, hm⟩ := hrun
    have e1 := lift_run (Nat.le_max_left n m) (by simp) hn
    have e2 := lift_run (Nat.le_max_right n m) (by simp) hm
    rw [e1] at e2
    cases (Prod.mk.inj e2).1
  obtain ⟨e, lf, ho', hrun', -, he1, he2⟩ := expr_total (fl := fl) h1 h2 bs.length bs rfl (by omega) hS
  have he := C70_unambiguous hops ho ho' (huniq hrun')
  subst he
  have he1 : 7 * (l.leaves + r.leaves) ≤ bs.length + 5 := he1
  obtain ⟨j, hd, hj⟩ := expr_choice (fl := fl) h1 h2 (bs := bs) (by omega) hS
  have hd1 : (bs.drop 1).length = bs.length - 1 := List.length_drop ..
  rcases hj with ⟨h, -⟩ | ⟨-, q, hq, rfl⟩
  · omega
  · obtain ⟨p, t, hs, hp, ht, hsum⟩ := split_two (a := bs.drop 1) (by omega) (by omega)
    obtain ⟨e1, l1, o1, r1, -, a1, b1⟩ := expr_total (fl := fl) h1 h2 p.length p rfl hp (by omega)
    obtain ⟨e2, l2, o2, r2, -, a2, b2⟩ := expr_total (fl := fl) h1 h2 t.length t rfl ht (by omega)
    have hr := delegate_run hd hb (by omega) (run_bin h1 h2 hq hs r1 r2)
    have := C70_unambiguous hops ho (e2 := .bin ops[q] e1 e2) ⟨List.getElem_mem hq, o1, o2⟩ (huniq hr)
    injection this with k1 k2 k3
    subst k2 k3
    have := two_unb_first (m := 2) (c := 13 * l.leaves - 7) (by omega) (by omega) (by omega) (by omega) hs p rfl
    omega

/-- **C71 does not hold for large expressions**: if the left operand has from 2 to 2000 numbers and words and the right
one has 122000 times as many, no blob of up to 2147483646 bytes makes the stamp return the expression. (The operators
contain no space.) -/
theorem C71_violated_lopsided {ops : List Bytes} {fl : Flags} (h1 : 1 ≤ ops.length) (h2 : ops.length ≤ 252)
    (hops : ∀ op ∈ ops, (32 : UInt8) ∉ op) {op : Bytes} {l r : Expr} (ho : (Expr.bin op l r).Over ops lcAlphaSmall)
    (hl2 : 2 ≤ l.leaves) (hl : l.leaves ≤ 2000) (hrl : 122000 * l.leaves ≤ r.leaves) {b : Blob} {bs left : Bytes}
    (hr : Reachable b) (hh : Holds b bs) (hS : bs.length ≤ 2147483646) :
    ¬ Returns (exprGraph ops ops.length) fl 0 b (Expr.bin op l r).text left := by
  rw [returns_iff hr hh]
  exact lopsided h1 h2 hops ho hl2 hl hrl hS

/-- A full binary tree of depth `n`. -/
def fullSum : Nat → Expr
  | 0 => .num 1
  | n + 1 => .bin (str "+") (fullSum n) (fullSum n)

theorem fullSum_facts (n : Nat) : (fullSum n).leaves = 2 ^ n ∧ (fullSum n).Over exampleOps lcAlphaSmall := by
  induction n with
  | zero => exact ⟨rfl, trivial⟩
  | succ n ih =>
    refine ⟨?_, by decide, ih.2, ih.2⟩
    show (fullSum n).leaves + (fullSum n).leaves = _
    rw [ih.1]; omega

/-- A sum of two numbers added to a sum of 2^18 numbers: never drawn. -/
example {b : Blob} {bs left : Bytes} (hr : Reachable b) (hh : Holds b bs) (hS : bs.length ≤ 2147483646) :
    ¬ Returns (exprGraph exampleOps 5) Flags.init 0 b (Expr.bin (str "+") (fullSum 1) (fullSum 18)).text left :=
  C71_violated_lopsided (ops := exampleOps) (by decide) (by decide) (by decide +kernel)
    ⟨by decide, (fullSum_facts 1).2, (fullSum_facts 18).2⟩ (by rw [(fullSum_facts 1).1]; decide) (by rw [(fullSum_facts 1).1]; decide)
    (by rw [(fullSum_facts 1).1, (fullSum_facts 18).1]; decide) hr hh hS

end BS
