import Verif.Props.Shuffle
import Verif.Props.Greed
import Verif.Props.Record

/-!
# C94: further alternatives
-/

namespace BS

section
variable {G H : Graph} {fl fl' : Flags} {R : Id → Id → Prop}

/-- **C94.** A stamp to whose pickers and lotteries further alternatives are added makes every text it made before, of as many
bytes and with the same bytes left. The sizes must stay the same, and a further alternative must fit no size that no
alternative fitted before. -/
theorem C94_texts (hu : LocalUsers G) (hx : Grows G fl H fl' R) (hz : SizesAgree G fl H fl' R) {i j : Id} (hij : R i j) {n : Nat}
    (hn : n < 2147483640) {s left : Bytes} (h : Makes G fl i n s left) : Makes H fl' j n s left :=
  makes_other hu hx hz hij hn h

end

/-! ## Expressions -/

/-- **C94** for the expressions of examples/exampleZZ.cpp: appending further operators to the lottery takes no expression
away. -/
theorem C94_expr {ops ops' : List Bytes} (h : ∀ op ∈ ops, op ∈ ops') (h1 : 1 ≤ ops.length) (h2 : ops.length ≤ 252)
    (h2' : ops'.length ≤ 252) {n : Nat} (hn : n < 2147483640) {s left : Bytes}
    (hm : Makes (exprGraph ops ops.length) Flags.init 0 n s left) : Makes (exprGraph ops' ops'.length) Flags.init 0 n s left := by
  have h1' : 1 ≤ ops'.length := by
    obtain ⟨op, ho⟩ := List.exists_mem_of_length_pos h1
    exact List.length_pos_of_mem (h op ho)
  obtain ⟨a1, a2, a3, a4⟩ := C70_sizes ops h2 Flags.init
  obtain ⟨b1, b2, b3, b4⟩ := C70_sizes ops' h2' Flags.init
  rw [if_neg (by omega)] at a2 b2
  have hz : SizesAgree (exprGraph ops ops.length) Flags.init (exprGraph ops' ops'.length) Flags.init (sameOp ops ops') := by
    rintro i j (⟨hi, rfl⟩ | ⟨p, q, op, rfl, rfl, e1, e2⟩)
    · match j, hi with
      | 0, _ => exact ⟨2, -1, a1, b1, a2, b2, by norm_num, by norm_num, .inl rfl⟩
      | 1, _ => exact ⟨1, 1, (a3 1 (.inl rfl)).1, (b3 1 (.inl rfl)).1, (a3 1 (.inl rfl)).2, (b3 1 (.inl rfl)).2, by norm_num, by norm_num,
          .inr ⟨by norm_num, by norm_num⟩⟩
      | 2, _ => exact ⟨1, 1, (a3 2 (.inr rfl)).1, (b3 2 (.inr rfl)).1, (a3 2 (.inr rfl)).2, (b3 2 (.inr rfl)).2, by norm_num, by norm_num,
          .inr ⟨by norm_num, by norm_num⟩⟩
    · obtain ⟨hp, _⟩ := List.getElem?_eq_some_iff.1 e1
      obtain ⟨hq, _⟩ := List.getElem?_eq_some_iff.1 e2
      have c1 := a4 p hp
      have c2 := b4 q hq
      rw [if_neg (by omega)] at c1 c2
      exact ⟨8, -1, c1.1, c2.1, c1.2, c2.2, by norm_num, by norm_num, .inl rfl⟩
  refine C94_texts (R := sameOp ops ops') ?_ ?_ hz (.inl ⟨by norm_num, rfl⟩) hn hm
  · intro i u hi
    match i with
    | 0 => cases hi
    | 1 => cases hi
    | 2 => cases hi
    | j + 3 =>
      obtain ⟨op, _, e⟩ := Option.map_eq_some_iff.1 (show (ops[j]?).map (fun op => Node.binary op 0 0) = _ from hi)
      cases e
  · rintro i j (⟨hi, rfl⟩ | ⟨p, q, op, rfl, rfl, e1, e2⟩)
    · match j, hi with
      | 0, _ =>
        refine ⟨_, _, exprGraph_lot h2, exprGraph_lot h2', ?_⟩
        rw [if_neg (by omega), if_neg (by omega)]
        refine .lottery true 1 (-1) ⟨fun c hc => ?_, fun d hd => ?_⟩ ?_ ?_ ?_
        · rcases mem_objs hc with e | ⟨q, hq, rfl⟩
          · refine ⟨c, by rcases e with rfl | rfl <;> simp, .inl ⟨by omega, rfl⟩⟩
          · obtain ⟨k, hk, e⟩ := List.mem_iff_getElem.1 (h _ (List.getElem_mem hq))
            refine ⟨k + 3, ?_, .inr ⟨q, k, ops[q], rfl, rfl, List.getElem?_eq_getElem hq, by rw [← e, List.getElem?_eq_getElem hk]⟩⟩
            simp only [List.mem_cons, List.mem_range'_1]; omega
        · rcases mem_objs hd with e | ⟨q, hq, rfl⟩
          · exact ⟨d, by rcases e with rfl | rfl <;> simp, hz.covers (.inl ⟨by omega, rfl⟩)⟩
          · have c1 := a4 0 (by omega)
            have c2 := b4 q hq
            rw [if_neg (by omega)] at c1 c2
            refine ⟨0 + 3, by simp only [List.mem_cons, List.mem_range'_1]; omega, 8, -1, 8, -1, c1.1, c1.2, c2.1, c2.2, by norm_num,
              by norm_num, .inl rfl, le_rfl, .inl rfl⟩
        · unfold lotWidth; rw [if_pos (by simp; omega)]
        · unfold lotWidth; rw [if_pos (by simp; omega)]
        · simp; omega
      | 1, _ => exact ⟨_, _, rfl, rfl, .single rfl⟩
      | 2, _ => exact ⟨_, _, rfl, rfl, .single rfl⟩
    · refine ⟨Node.binary op 0 0, Node.binary op 0 0, ?_, ?_, .set _ _ ?_⟩
      · show (ops[p]?).map _ = _; rw [e1]; rfl
      · show (ops'[q]?).map _ = _; rw [e2]; rfl
      · exact .cons (.inl ⟨by norm_num, rfl⟩) (.cons (.inl ⟨by norm_num, rfl⟩) .nil)

/-! ## JSON -/

/-- The JSON stamps with one more kind of value, a number of type `t`, in the pool (stamp_json.h 99-121). -/
def jsonPlus (t : ArithTy) : Graph := fun i =>
  if i = 0 then some (.picker [1, 2, 3, 4, 5, 8]) else if i = 8 then some (.arith t) else jsonGraph i

theorem jsonPlus_sizes {t : ArithTy} (ht : t = .i64 ∨ t = .u64 ∨ t = .double) {i : Id} (mn mx : Int)
    (h : (sizeQ jsonGraph 20 .min i Flags.init).1 = .ok mn ∧ (sizeQ jsonGraph 20 .max i Flags.init).1 = .ok mx ∧
      ∀ t ∈ ([.i64, .u64, .double] : List ArithTy), (sizeQ (jsonPlus t) 20 .min i Flags.init).1 = .ok mn ∧
        (sizeQ (jsonPlus t) 20 .max i Flags.init).1 = .ok mx)
    (h1 : 0 ≤ mn) (h2 : mn ≤ INT_MAX) (h3 : mx = -1 ∨ 0 ≤ mx ∧ mn + mx ≤ INT_MAX) :
    ∃ mn mx, HasMin jsonGraph Flags.init i mn ∧ HasMin (jsonPlus t) Flags.init i mn ∧ HasMax jsonGraph Flags.init i mx ∧
      HasMax (jsonPlus t) Flags.init i mx ∧ 0 ≤ mn ∧ mn ≤ INT_MAX ∧ (mx = -1 ∨ 0 ≤ mx ∧ mn + mx ≤ INT_MAX) := by
  obtain ⟨k1, k2, k3⟩ := h
  obtain ⟨k4, k5⟩ := k3 t (by simpa using ht)
  exact ⟨mn, mx, hasSize_eval 20 k1, hasSize_eval 20 k4, hasSize_eval 20 k2, hasSize_eval 20 k5, h1, h2, h3⟩

/-- **C94** for JSON: with one more number of eight bytes in the pool, unsigned ones for example, everything that could be made
before can be made. -/
theorem C94_json {t : ArithTy} (ht : t = .i64 ∨ t = .u64 ∨ t = .double) {n : Nat} (hn : n < 2147483640) {s left : Bytes}
    (hm : Makes jsonGraph Flags.init 0 n s left) : Makes (jsonPlus t) Flags.init 0 n s left := by
  have hz : SizesAgree jsonGraph Flags.init (jsonPlus t) Flags.init (fun i j => i = j ∧ i < 8) := by
    rintro i j ⟨rfl, hi⟩
    match i, hi with
    | 0, _ => exact jsonPlus_sizes ht 10 (-1) (by decide +kernel) (by norm_num) (by norm_num) (.inl rfl)
    | 1, _ => exact jsonPlus_sizes ht 8 8 (by decide +kernel) (by norm_num) (by norm_num) (.inr ⟨by norm_num, by norm_num⟩)
    | 2, _ => exact jsonPlus_sizes ht 8 8 (by decide +kernel) (by norm_num) (by norm_num) (.inr ⟨by norm_num, by norm_num⟩)
    | 3, _ => exact jsonPlus_sizes ht 8 8 (by decide +kernel) (by norm_num) (by norm_num) (.inr ⟨by norm_num, by norm_num⟩)
    | 4, _ => exact jsonPlus_sizes ht 14 (-1) (by decide +kernel) (by norm_num) (by norm_num) (.inl rfl)
    | 5, _ => exact jsonPlus_sizes ht 22 (-1) (by decide +kernel) (by norm_num) (by norm_num) (.inl rfl)
    | 6, _ => exact jsonPlus_sizes ht 18 (-1) (by decide +kernel) (by norm_num) (by norm_num) (.inl rfl)
    | 7, _ => exact jsonPlus_sizes ht 8 8 (by decide +kernel) (by norm_num) (by norm_num) (.inr ⟨by norm_num, by norm_num⟩)
  refine C94_texts ?_ ?_ hz ⟨rfl, by norm_num⟩ hn hm
  · intro i u hi
    match i with
    | 0 | 1 | 2 | 3 | 4 | 5 | 6 | 7 => cases hi
    | n + 8 => cases hi
  · rintro i j ⟨rfl, hi⟩
    match i, hi with
    | 0, _ =>
      refine ⟨_, _, rfl, rfl, .picker ⟨fun c hc => ⟨c, ?_, rfl, ?_⟩, fun d hd => ?_⟩ (by simp)⟩
      · simp only [List.mem_cons, List.not_mem_nil, or_false] at hc ⊢; tauto
      · simp only [List.mem_cons, List.not_mem_nil, or_false] at hc
        rcases hc with rfl | rfl | rfl | rfl | rfl <;> norm_num
      · by_cases hd' : d = 8
        · subst hd'
          refine ⟨1, by simp, 8, 8, 8, 8, hasSize_eval 20 (by decide +kernel), hasSize_eval 20 (by decide +kernel), hasSize_eval 20 ?_,
            hasSize_eval 20 ?_, by norm_num, by norm_num, .inr ⟨by norm_num, by norm_num⟩, le_rfl, .inr ⟨by norm_num, le_rfl, le_rfl⟩⟩
          · rcases ht with rfl | rfl | rfl <;> decide +kernel
          · rcases ht with rfl | rfl | rfl <;> decide +kernel
        · simp only [List.mem_cons, List.not_mem_nil, or_false] at hd
          have hc : d = 1 ∨ d = 2 ∨ d = 3 ∨ d = 4 ∨ d = 5 := by tauto
          refine ⟨d, by simp only [List.mem_cons, List.not_mem_nil, or_false]; exact hc, hz.covers ⟨rfl, ?_⟩⟩
          rcases hc with rfl | rfl | rfl | rfl | rfl <;> norm_num
    | 1, _ => exact ⟨_, _, rfl, rfl, .single rfl⟩
    | 2, _ => exact ⟨_, _, rfl, rfl, .single rfl⟩
    | 3, _ => exact ⟨_, _, rfl, rfl, .single rfl⟩
    | 4, _ => exact ⟨_, _, rfl, rfl, .vec _ ⟨rfl, by norm_num⟩⟩
    | 5, _ => exact ⟨_, _, rfl, rfl, .vec _ ⟨rfl, by norm_num⟩⟩
    | 6, _ => exact ⟨_, _, rfl, rfl, .seq _ _ (.cons ⟨rfl, by norm_num⟩ (.cons ⟨rfl, by norm_num⟩ .nil))⟩
    | 7, _ => exact ⟨_, _, rfl, rfl, .single rfl⟩

/-! ## Examples -/

/-- "7" is made of ten bytes whether or not unsigned numbers are in the pool. -/
example : Makes (jsonPlus .u64) Flags.init 0 10 (str "7") [] :=
  C94_json (.inr (.inl rfl)) (by norm_num) (.of (bs := [0, 0, 7, 0, 0, 0, 0, 0, 0, 0]) (by decide) (arun_of 20 (by decide +kernel)))

example {n : Nat} (hn : n < 2147483640) {s left : Bytes} (h : Makes (exprGraph [str "+", str "-"] 2) Flags.init 0 n s left) :
    Makes (exprGraph [str "-", str "*", str "+", str "/"] 4) Flags.init 0 n s left :=
  C94_expr (ops := [str "+", str "-"]) (ops' := [str "-", str "*", str "+", str "/"]) (by simp) (by norm_num) (by norm_num) (by norm_num)
    hn h

/-! ## Where a further alternative takes texts away -/

/-- A lottery and a picker over words and numbers of four bytes. -/
def wordsOrLongs : Graph
  | 0 => some ((LotState.build (some [(2, (1, 1)), (3, (4, 4))]) []).node true)
  | 1 => some (.picker [2, 3])
  | 2 => some (.dict [[97], [98]])
  | 3 => some (.arith .u32)
  | 4 => some (.arith .u16)
  | _ => none

/-- The same with numbers of two bytes added. -/
def wordsOrBoth : Graph
  | 0 => some ((LotState.build (some [(2, (1, 1)), (3, (4, 4))]) [(4, (2, 2))]).node true)
  | 1 => some (.picker [2, 3, 4])
  | 2 => some (.dict [[97], [98]])
  | 3 => some (.arith .u32)
  | 4 => some (.arith .u16)
  | _ => none

theorem wordsOrBoth_sizes : LotSizes wordsOrBoth Flags.init [2, 3, 4] (fun j => if j = 2 then 1 else if j = 3 then 4 else 2)
    (fun j => if j = 2 then 1 else if j = 3 then 4 else 2) := by
  refine ⟨fun j hj => ?_, fun j hj => ?_⟩ <;> simp only [List.mem_cons, List.not_mem_nil, or_false] at hj <;>
    rcases hj with rfl | rfl | rfl
  · exact ⟨hasSize_eval 5 (by decide +kernel), by norm_num, by norm_num⟩
  · exact ⟨hasSize_eval 5 (by decide +kernel), by norm_num, by norm_num⟩
  · exact ⟨hasSize_eval 5 (by decide +kernel), by norm_num, by norm_num⟩
  · exact ⟨hasSize_eval 5 (by decide +kernel), by norm_num⟩
  · exact ⟨hasSize_eval 5 (by decide +kernel), by norm_num⟩
  · exact ⟨hasSize_eval 5 (by decide +kernel), by norm_num⟩

theorem no_word {n : Nat} {a1 a' : ABlob} {fl : Flags} {s : Bytes} (ha : List.length a1 = 2)
    (h : extract wordsOrBoth n 4 (Flags.init, a1) = (.ok s, (fl, a'))) : s ≠ str "b" := by
  obtain ⟨i, _, h2⟩ := arith_run (G := wordsOrBoth) (fl := Flags.init) (j := 4) (t := .u16) rfl ⟨by decide, by decide, by decide⟩
    (a := a1) (by rw [ha]; decide)
  have hk := keeps_extract wordsOrBoth n 4 (Flags.init, a1) (.inl ⟨s, by rw [h]⟩)
  rw [h] at hk
  dsimp only at hk
  subst hk
  obtain ⟨e, -⟩ := ARun.once (by simp) (by simp) ⟨n, h⟩ h2
  have e := Out.ok.inj e
  rintro rfl
  rcases intDec_spec i with ⟨_, h, _⟩ | ⟨_, _, h, _⟩
  · rw [← e] at h
    have := h.2.1 98 (by decide)
    unfold IsDigit at this; revert this; decide
  · rw [← e] at h
    cases h

/-- The sizes stay what they were, and yet a word that was made of three bytes by the lottery and of four by the picker is made
no longer: a number of two bytes fits better. -/
theorem C94_violated :
    (∀ i < 5, ∀ sel, ∃ v, SizeRuns wordsOrLongs Flags.init sel i v Flags.init ∧ SizeRuns wordsOrBoth Flags.init sel i v Flags.init) ∧
    (Makes wordsOrLongs Flags.init 0 3 (str "b") [7] ∧ ∀ left, ¬ Makes wordsOrBoth Flags.init 0 3 (str "b") left) ∧
    (Makes wordsOrLongs Flags.init 1 4 (str "b") [7] ∧ ∀ left, ¬ Makes wordsOrBoth Flags.init 1 4 (str "b") left) := by
  refine ⟨?_, ⟨.of (bs := [0, 128, 7]) (by decide) (arun_of 9 (by decide +kernel)), ?_⟩,
    ⟨.of (bs := [0, 0, 128, 7]) (by decide) (arun_of 9 (by decide +kernel)), ?_⟩⟩
  · intro i hi sel
    match i, sel, hi with
    | 0, .min, _ => exact ⟨2, hasSize_eval 9 (by decide +kernel), hasSize_eval 9 (by decide +kernel)⟩
    | 0, .max, _ => exact ⟨5, hasSize_eval 9 (by decide +kernel), hasSize_eval 9 (by decide +kernel)⟩
    | 1, .min, _ => exact ⟨3, hasSize_eval 9 (by decide +kernel), hasSize_eval 9 (by decide +kernel)⟩
    | 1, .max, _ => exact ⟨6, hasSize_eval 9 (by decide +kernel), hasSize_eval 9 (by decide +kernel)⟩
    | 2, .min, _ => exact ⟨1, hasSize_eval 9 (by decide +kernel), hasSize_eval 9 (by decide +kernel)⟩
    | 2, .max, _ => exact ⟨1, hasSize_eval 9 (by decide +kernel), hasSize_eval 9 (by decide +kernel)⟩
    | 3, .min, _ => exact ⟨4, hasSize_eval 9 (by decide +kernel), hasSize_eval 9 (by decide +kernel)⟩
    | 3, .max, _ => exact ⟨4, hasSize_eval 9 (by decide +kernel), hasSize_eval 9 (by decide +kernel)⟩
    | 4, .min, _ => exact ⟨2, hasSize_eval 9 (by decide +kernel), hasSize_eval 9 (by decide +kernel)⟩
    | 4, .max, _ => exact ⟨2, hasSize_eval 9 (by decide +kernel), hasSize_eval 9 (by decide +kernel)⟩
  · rintro left ⟨b, bs, hr, hh, hl, h⟩
    obtain ⟨n, h⟩ := (returns_iff hr hh).1 h
    cases n with
    | zero => cases h
    | succ n =>
      obtain ⟨u, a1, j, e1, e2, e3, e4⟩ := lot_inv (i := 0) (rec4 := true) (stamps := [2, 3, 4]) (w := 1) (smin := 1) (smax := 4)
        rfl (.inl rfl) wordsOrBoth_sizes (by rw [hl]; norm_num) h
      have ha : List.length a1 = 2 := by rw [e1, List.length_append] at hl; omega
      rw [ha] at e3
      have : j ∈ ([4] : List Id) := by
        have : lotCandidates true (fun j => if j = 2 then 1 else if j = 3 then 4 else 2)
          (fun j => if j = 2 then 1 else if j = 3 then 4 else 2) 2 [2, 3, 4] = [4] := by decide
        rw [← this]; exact e3
      obtain rfl := List.mem_singleton.1 this
      exact no_word ha e4 rfl
  · rintro left ⟨b, bs, hr, hh, hl, h⟩
    obtain ⟨n, h⟩ := (returns_iff hr hh).1 h
    cases n with
    | zero => cases h
    | succ n =>
      obtain ⟨u, a1, j, e1, e2, e3, e4⟩ := pick_inv (i := 1) (pool := [2, 3, 4]) rfl wordsOrBoth_sizes.pool h
      have ha : List.length a1 = 2 := by rw [e1, List.length_append] at hl; omega
      rw [ha] at e3
      have : j ∈ ([4] : List Id) := by
        have : pickCandidates (fun j => if j = 2 then 1 else if j = 3 then 4 else 2)
          (fun j => if j = 2 then 1 else if j = 3 then 4 else 2) 2 [2, 3, 4] = [4] := by decide
        rw [← this]; exact e3
      obtain rfl := List.mem_singleton.1 this
      exact no_word ha e4 rfl

end BS
