import Verif.Props.Json
import Verif.Props.Blob

/-!
# C53, C54: which value `StampJSON` produces, and how long it is
-/

namespace BS
open BlobLike

/-! ## C53 -/

/-- **C53.** Of the eligible stamps of the pool, in pool order, the picker takes number
`floor(oracle * count / 65536)`. Eligible are those that fit into what follows the oracle and can take
all of it, or, if there are none, those that fit. -/
theorem C53_picker_exact {G : Graph} {i : Id} {pool : List Id} (hG : G i = some (.picker pool))
    {fl : Flags} {m mx : Id → Int} (hs : PoolSizes G fl pool m mx) (hlen : pool.length ≤ 256)
    {x y : UInt8} {rest : Bytes} (hfit : ∃ j ∈ pool, m j ≤ rest.length) :
    let c := pickCandidates m mx rest.length pool
    ∃ j, c[(x.toNat + 256 * y.toNat) * c.length / 65536]? = some j ∧
      Delegates G fl i (x :: y :: rest) j rest := by
  intro c
  obtain ⟨j0, hj0, hm0⟩ := hfit
  have hpos : 0 < c.length := List.length_pos_iff.2 (pickCandidates_ne hj0 hm0)
  have hcl : c.length ≤ pool.length := pickCandidates_length m mx rest.length pool
  have hx := x.toNat_lt
  have hy := y.toNat_lt
  have hk : (x.toNat + 256 * y.toNat) * c.length / 65536 < c.length := by
    rw [Nat.div_lt_iff_lt_mul (by norm_num), Nat.mul_comm]
    exact Nat.mul_lt_mul_of_pos_left (by omega) hpos
  refine ⟨_, List.getElem?_eq_getElem hk, ?_⟩
  have hidx := (C11_small_ranges_exact (mn := 0) (mx := c.length - 1) (by omega) (by omega) (by omega)).1
    (x.toNat + 256 * y.toNat) (by omega)
  rw [show c.length - 1 - 0 + 1 = c.length by omega, Nat.zero_add] at hidx
  exact picker_core hG hs (bs := x :: y :: rest) (by simp) (by omega) hk (by
    show oracleProportion (leNat [x, y]) 0 _ = _
    rw [show leNat [x, y] = x.toNat + 256 * y.toNat by simp [leNat]]
    exact hidx)

/-- The sizes of the five kinds. -/
def jsonKindMin : Id → Int
  | 1 | 2 | 3 => 8
  | 4 => 14
  | _ => 22
def jsonKindMax : Id → Int
  | 1 | 2 | 3 => 8
  | _ => -1

theorem jsonPool_sizes : PoolSizes jsonGraph Flags.init [1, 2, 3, 4, 5] jsonKindMin jsonKindMax where
  min := by
    intro j hj
    simp only [List.mem_cons, List.not_mem_nil, or_false] at hj
    rcases hj with rfl | rfl | rfl | rfl | rfl <;>
      exact ⟨hasSize_eval 9 (by decide +kernel), by decide, by decide⟩
  max := by
    intro j hj
    simp only [List.mem_cons, List.not_mem_nil, or_false] at hj
    rcases hj with rfl | rfl | rfl | rfl | rfl <;>
      exact ⟨hasSize_eval 9 (by decide +kernel), by decide⟩

/-- Which kinds are eligible with `L` bytes after the oracle. -/
theorem jsonCandidates (L : Nat) : pickCandidates jsonKindMin jsonKindMax L [1, 2, 3, 4, 5] =
    if L < 8 then [] else if L < 14 then [1, 2, 3] else if L < 22 then [4] else [4, 5] := by
  have e : pickCandidates jsonKindMin jsonKindMax L [1, 2, 3, 4, 5] =
      pickCandidates jsonKindMin jsonKindMax (min L 22) [1, 2, 3, 4, 5] := by
    by_cases h : L ≤ 22
    · rw [Nat.min_eq_left h]
    · rw [Nat.min_eq_right (by omega)]
      unfold pickCandidates
      have f : ∀ j ∈ [1, 2, 3, 4, 5], (decide (jsonKindMin j ≤ (L : Int))) = decide (jsonKindMin j ≤ ((22 : Nat) : Int)) := by
        intro j hj
        have : jsonKindMin j ≤ 22 := by
          revert j; decide
        rw [decide_eq_true (by omega), decide_eq_true (by exact_mod_cast this)]
      have g : ∀ j ∈ [1, 2, 3, 4, 5], (decide (jsonKindMax j = -1 ∨ (L : Int) ≤ jsonKindMax j)) =
          decide (jsonKindMax j = -1 ∨ ((22 : Nat) : Int) ≤ jsonKindMax j) := by
        intro j hj
        have : jsonKindMax j = -1 ∨ jsonKindMax j = 8 := by
          revert j; decide
        rcases this with h1 | h1
        · rw [h1]; simp
        · rw [h1, decide_eq_false (by omega), decide_eq_false (by omega)]
      dsimp only
      rw [List.filter_congr f, List.filter_congr (p := fun j => decide (jsonKindMax j = -1 ∨ (L : Int) ≤ jsonKindMax j))
        (fun j hj => g j (List.mem_of_mem_filter hj))]
  rw [e]
  have k : ∀ M ≤ 22, pickCandidates jsonKindMin jsonKindMax M [1, 2, 3, 4, 5] =
      if M < 8 then [] else if M < 14 then [1, 2, 3] else if M < 22 then [4] else [4, 5] := by decide +kernel
  rw [k _ (by omega)]
  have h1 : min L 22 < 8 ↔ L < 8 := by omega
  have h2 : min L 22 < 14 ↔ L < 14 := by omega
  have h3 : min L 22 < 22 ↔ L < 22 := by omega
  simp only [h1, h2, h3]

/-- **C53** for `StampJSON`, for blobs of any size: from 10 to 15 bytes the two oracle bytes choose an
integer, a float or a string, each in a third of the cases; from 16 to 23 bytes it is always an array;
from 24 bytes on an array in one half of the cases and a hash in the other. -/
theorem C53_json_kind {x y : UInt8} {rest : Bytes} :
    (8 ≤ rest.length → rest.length < 14 →
      Delegates jsonGraph Flags.init 0 (x :: y :: rest) (1 + (x.toNat + 256 * y.toNat) * 3 / 65536) rest) ∧
    (14 ≤ rest.length → rest.length < 22 → Delegates jsonGraph Flags.init 0 (x :: y :: rest) 4 rest) ∧
    (22 ≤ rest.length →
      Delegates jsonGraph Flags.init 0 (x :: y :: rest) (if y.toNat < 128 then 4 else 5) rest) := by
  have key := C53_picker_exact (G := jsonGraph) (i := 0) (x := x) (y := y) (rest := rest) rfl jsonPool_sizes
    (by simp)
  have hx := x.toNat_lt
  have hy := y.toNat_lt
  dsimp only at key
  rw [jsonCandidates] at key
  refine ⟨fun h1 h2 => ?_, fun h1 h2 => ?_, fun h1 => ?_⟩
  · rw [if_neg (by omega), if_pos h2] at key
    obtain ⟨j, e, h⟩ := key ⟨1, by simp, by show (8 : Int) ≤ _; omega⟩
    have hk : (x.toNat + 256 * y.toNat) * 3 / 65536 < 3 := by omega
    generalize (x.toNat + 256 * y.toNat) * 3 / 65536 = k at *
    have : j = 1 + k := by
      have hk' : k = 0 ∨ k = 1 ∨ k = 2 := by omega
      rcases hk' with rfl | rfl | rfl <;> simp at e <;> exact e.symm
    rw [← this]; exact h
  · rw [if_neg (by omega), if_neg (by omega), if_pos h2] at key
    obtain ⟨j, e, h⟩ := key ⟨4, by simp, by show (14 : Int) ≤ _; omega⟩
    have hk : (x.toNat + 256 * y.toNat) * ([4] : List Id).length / 65536 = 0 := by
      show (x.toNat + 256 * y.toNat) * 1 / 65536 = 0
      omega
    rw [hk] at e
    cases e
    exact h
  · rw [if_neg (by omega), if_neg (by omega), if_neg (by omega)] at key
    obtain ⟨j, e, h⟩ := key ⟨4, by simp, by show (14 : Int) ≤ _; omega⟩
    have hk : (x.toNat + 256 * y.toNat) * ([4, 5] : List Id).length / 65536 = if y.toNat < 128 then 0 else 1 := by
      show (x.toNat + 256 * y.toNat) * 2 / 65536 = _
      split <;> omega
    rw [hk] at e
    split at e
    · rw [if_pos (by assumption)]; cases e; exact h
    · rw [if_neg (by assumption)]; cases e; exact h

/-- A string of `StampJSON`'s array stamp, hash stamp. -/
theorem json_array_head {n : Nat} {fl fl' : Flags} {a a' : ABlob} {s : Bytes}
    (h : extract jsonGraph n 4 (fl, a) = (.ok s, (fl', a'))) : ∃ l, s = 91 :: (l ++ [93]) := by
  cases n with
  | zero => cases h
  | succ n =>
    obtain ⟨_, _, _, xs, _, _, _, _, _, rfl⟩ := extract_vec_ok (i := 4) (G := jsonGraph) rfl h
    exact ⟨joinLoop [44, 32] [] xs, rfl⟩

theorem json_hash_head {n : Nat} {fl fl' : Flags} {a a' : ABlob} {s : Bytes}
    (h : extract jsonGraph n 5 (fl, a) = (.ok s, (fl', a'))) : ∃ l, s = 123 :: (l ++ [125]) := by
  cases n with
  | zero => cases h
  | succ n =>
    obtain ⟨_, _, _, xs, _, _, _, _, _, rfl⟩ := extract_vec_ok (i := 5) (G := jsonGraph) rfl h
    exact ⟨joinLoop [44, 32] [] xs, rfl⟩

/-- What that means for the text: with 16 bytes or more it is in brackets, square ones if there are
fewer than 24 or the second byte is below 128, else curly ones. So a number or a string comes out only
of blobs of 10 to 15 bytes. -/
theorem C53_json_text {b : Blob} {x y : UInt8} {rest s left : Bytes} (hr : Reachable b)
    (hh : Holds b (x :: y :: rest)) (h : Returns jsonGraph Flags.init 0 b s left) (hl : 14 ≤ rest.length) :
    if rest.length < 22 ∨ y.toNat < 128 then ∃ l, s = 91 :: (l ++ [93]) else ∃ l, s = 123 :: (l ++ [125]) := by
  obtain ⟨h1, h2⟩ := C02_chop_exact hr 2
  have hsz : b.size = rest.length + 2 := by
    have := hr.valid.abs_length
    rw [holds_iff hr.valid] at hh
    rw [← this, hh]; rfl
  obtain ⟨p, b1, bs, e, hb, _, _, _, hb1, _⟩ := h2 (by omega)
  have hbs : bs = x :: y :: rest := by
    have := hb.symm.trans hh
    exact Out.ok.inj this
  subst hbs
  have hr1 : Reachable b1 := .rest (c := .one 2) hr e
  obtain ⟨k1, k2, k3⟩ := C53_json_kind (x := x) (y := y) (rest := rest)
  by_cases h22 : rest.length < 22
  · rw [if_pos (.inl h22)]
    obtain ⟨n, hn⟩ := Returns.inv hr1 hb1 (((k2 hl h22 b b1 hr hh hr1 hb1).1 s left).1 h)
    exact json_array_head (hn n le_rfl)
  · obtain ⟨n, hn⟩ := Returns.inv hr1 hb1 (((k3 (by omega) b b1 hr hh hr1 hb1).1 s left).1 h)
    have hn := hn n le_rfl
    by_cases hy : y.toNat < 128
    · rw [if_pos (.inr hy)]
      rw [if_pos hy] at hn
      exact json_array_head hn
    · rw [if_neg (by omega)]
      rw [if_neg hy] at hn
      exact json_hash_head hn

/-- 24 bytes and the two values of the bit that decides. -/
example : (extract jsonGraph 12 0 (Flags.init, (255 :: 127 :: List.replicate 22 0 : ABlob))).1 =
      .ok (str "[[0]]") ∧
    (extract jsonGraph 12 0 (Flags.init, (0 :: 128 :: List.replicate 22 0 : ABlob))).1 =
      .ok (str "{\"a\": [0]}") := by
  constructor <;> decide +kernel

/-! ## C54 -/

/-- What a galley hands out and what is left are together no more than there was. -/
def SumOk (m : M ABlob (List ABlob)) : Prop :=
  ∀ a l a', m a = (.ok l, a') → (l.map List.length).sum + a'.length ≤ a.length

/-- Nothing is added to the blob. -/
def Shrinks {α : Type} (m : M ABlob α) : Prop := ∀ a x a', m a = (.ok x, a') → a'.length ≤ a.length

theorem Shrinks.of_sufOk {α : Type} {m : M ABlob α} (h : ∀ a, SufOk (β := ABlob) (· <:+: a) m) : Shrinks m :=
  fun a _ _ e => (h a _ _ _ (List.infix_refl a) e).length_le

namespace SumOk
theorem nil : SumOk (Pure.pure []) := by
  intro a l a' h; cases h; simp
theorem out {o : Out (List ABlob)} (h : ∀ l, o ≠ .ok l) : SumOk (M.out o) := by
  intro a l a' e; cases e; exact absurd rfl (h l)
theorem bind {α : Type} {m : M ABlob α} {f : α → M ABlob (List ABlob)} (h : Shrinks m) (hf : ∀ x, SumOk (f x)) :
    SumOk (m >>= f) := by
  intro a y a' e
  obtain ⟨x, a1, h1, h2⟩ := M.bind_eq_ok.1 e
  exact le_trans (hf x _ _ _ h2) (h _ _ _ h1)
theorem ite {c : Prop} [Decidable c] {m n : M ABlob (List ABlob)} (h : SumOk m) (h' : SumOk n) :
    SumOk (if c then m else n) := by split <;> assumption
theorem cons {r : M ABlob (List ABlob)} (k : Nat) (h : SumOk r) :
    SumOk (chop k >>= fun c => r >>= fun l => Pure.pure (c :: l)) := by
  intro a y a' e
  obtain ⟨c, a1, h1, e⟩ := M.bind_eq_ok.1 e
  obtain ⟨l, a2, h2, e⟩ := M.bind_eq_ok.1 e
  cases e
  have := h _ _ _ h2
  rw [chop_abs] at h1
  split at h1
  · cases h1
  · cases h1
    rw [List.map_cons, List.sum_cons, List.length_take]
    rw [List.length_drop] at this
    omega
end SumOk

theorem shrinks_get : Shrinks (M.get : M ABlob ABlob) := .of_sufOk fun _ => .get
theorem shrinks_lift {α : Type} (o : Out α) : Shrinks (M.lift o : M ABlob α) := .of_sufOk fun _ => .lift o
theorem shrinks_oracle : Shrinks (oracle : M ABlob Nat) := .of_sufOk fun a => .oracle (infix_closed a)

theorem sum_fixedLoop (n : Nat) (mn : Int) : SumOk (fixedLoop n mn) := by
  induction n with
  | zero => exact .out (by simp)
  | succ n ih => exact .bind shrinks_get fun _ => .ite (.cons _ ih) .nil

theorem sum_unbChopLoop (mn total var : Int) (os : List Nat) (r : FV) :
    SumOk (unbChopLoop mn total var os r) := by
  induction os generalizing r with
  | nil => exact .nil
  | cons o os ih => exact .bind (shrinks_lift _) fun _ => .cons _ (ih _)

theorem sum_vecUnbounded (mn : Int) : SumOk (vecUnbounded mn) := by
  unfold vecUnbounded
  exact .bind shrinks_get fun _ => .ite (.out (by simp)) (.bind shrinks_oracle fun _ =>
    .bind (.of_sufOk fun a => sufOk_sizeOracles (infix_closed a) _ _) fun _ =>
    .bind shrinks_get fun _ => .bind (shrinks_lift _) fun _ => .bind (shrinks_lift _) fun _ => sum_unbChopLoop _ _ _ _ _)

theorem sum_variatedLoop (n : Nat) (mn mx : Int) : SumOk (variatedLoop n mn mx) := by
  induction n with
  | zero => exact .out (by simp)
  | succ n ih =>
    exact .bind (shrinks_lift _) fun _ => .bind shrinks_get fun _ => .ite .nil (.bind shrinks_oracle fun _ =>
      .bind (shrinks_lift _) fun _ => .bind shrinks_get fun _ => .cons _ ih)

theorem sum_vecSplit (n : Nat) (mn mx : Int) : SumOk (vecSplit n mn mx) :=
  .bind shrinks_get fun _ => .ite (.out (by simp)) (.ite (sum_fixedLoop _ _) (.ite (sum_vecUnbounded _)
    (.bind (shrinks_lift _) fun _ => sum_variatedLoop _ _ _)))

theorem joinLoop_length (sep : Bytes) (res : Bytes) (xs : List Bytes) :
    (joinLoop sep res xs).length ≤ res.length + (xs.map fun x => x.length + sep.length).sum := by
  induction xs generalizing res with
  | nil => simp [joinLoop]
  | cons x xs ih =>
    unfold joinLoop
    refine le_trans (ih _) ?_
    rw [List.map_cons, List.sum_cons]
    split <;> simp only [List.length_append] <;> omega

theorem lcAlphaSmall_short : ∀ w ∈ lcAlphaSmall, w.length ≤ 20 := by decide +kernel

theorem jsonStr_short {a a' : ABlob} {s : Bytes} (h : (extractJsonStr : M ABlob Bytes) a = (.ok s, a')) :
    s.length ≤ 22 ∧ a'.length + 1 = a.length := by
  obtain ⟨w, a1, h1, h2⟩ := M.bind_eq_ok.1 h
  cases h2
  obtain ⟨e1, e2⟩ := extractDict_abs lcAlphaSmall (by decide +kernel) (by decide +kernel) a
  have hw : (chooseStampSize lcAlphaSmall.length).1 = 1 := by decide +kernel
  by_cases hl : a.length < (chooseStampSize lcAlphaSmall.length).1
  · rw [e1 hl] at h1; cases h1
  · obtain ⟨i, hi, _, e⟩ := e2 (by omega)
    rw [e] at h1
    have e3 : lcAlphaSmall[i] = w := Out.ok.inj (Prod.mk.inj h1).1
    have e4 := (Prod.mk.inj h1).2
    subst e4
    have := lcAlphaSmall_short w (by rw [← e3]; exact List.getElem_mem hi)
    rw [hw] at hl ⊢
    simp only [List.length_append, List.length_cons, List.length_nil, List.length_drop]
    omega

theorem json_length (n : Nat) : ∀ (i : Nat) (fl fl' : Flags) (a a' : ABlob) (s : Bytes),
    extract jsonGraph n i (fl, a) = (.ok s, (fl', a')) →
    (i = 0 → s.length + 2 ≤ 106 * a.length) ∧ (i ≤ 5 → s.length ≤ 106 * a.length + 210) ∧
    (i = 6 → s.length + 2 ≤ 106 * a.length) ∧ (i = 7 → s.length ≤ 22 ∧ a'.length + 1 = a.length) := by
  induction n with
  | zero => intro i fl fl' a a' s h; cases h
  | succ n ih =>
    intro i fl fl' a a' s h
    have hxs : ∀ {c : Nat} {l r : UInt8}, jsonGraph i = some (.vec c (enumJoin [44, 32] [l] [r])) →
        (∀ fl fl' (p p' : ABlob) x, extract jsonGraph n c (fl, p) = (.ok x, (fl', p')) →
          x.length + 2 ≤ 106 * p.length) → s.length ≤ 106 * a.length + 2 := by
      intro c l r hG hP
      obtain ⟨mn, mx, parts, xs, _, _, _, h3, h4, rfl⟩ := extract_vec_ok hG h
      have hp := sum_vecSplit _ _ _ _ _ _ h3
      have hs : (xs.map fun x => x.length + 2).sum ≤ 106 * (parts.map List.length).sum := by
        clear h3 h hp
        induction h4 with
        | nil => simp
        | cons hx hr ih' =>
          obtain ⟨left, hx⟩ := hx
          have := hP _ _ _ _ _ hx
          simp only [List.map_cons, List.sum_cons]
          omega
      have hj : _ ≤ 0 + (xs.map fun x => x.length + 2).sum := joinLoop_length [44, 32] [] xs
      unfold enumJoin
      simp only [List.length_append, List.length_cons, List.length_nil]
      omega
    rcases i with _ | _ | _ | _ | _ | _ | _ | _ | i
    · have key : s.length + 2 ≤ 106 * a.length := by
        obtain ⟨o, a1, j, mn, _, ho, hj, _, _, hx, _⟩ := extract_picker_ok (i := 0) rfl h
        have hl : a1.length + 2 = a.length := by
          rw [oracle_abs] at ho
          split at ho
          · cases ho
          · cases ho
            rw [List.length_drop]; omega
        have := (ih j _ _ _ _ _ hx).2.1 (by
          simp only [List.mem_cons, List.not_mem_nil, or_false] at hj
          rcases hj with rfl | rfl | rfl | rfl | rfl <;> norm_num)
        omega
      exact ⟨fun _ => key, fun _ => by omega, by simp, by simp⟩
    · refine ⟨by simp, fun _ => ?_, by simp, by simp⟩
      have h1 := (liftB_ok h).1
      rw [extractArithStr_abs] at h1
      split at h1
      · cases h1
      · have h2 := (Prod.mk.inj h1).1
        have hb := leNat_take_lt a 8
        have hs : ∀ v : Int, v.natAbs < 10 ^ 20 → (intDec v).length ≤ 21 := by
          intro v hv
          have := natDec_length (k := 20) (by norm_num) hv
          unfold intDec
          split
          · rw [List.length_cons]; omega
          · omega
        unfold decode at h2
        dsimp only at h2
        rw [if_pos (by rfl)] at h2
        have e8 : ArithTy.i64.size = 8 := rfl
        rw [e8] at h2
        split at h2
        · have e := Out.ok.inj (h2 : Out.ok (intDec _) = _)
          rw [← e]
          exact le_trans (hs _ (by norm_num at hb ⊢; omega)) (by omega)
        · have e := Out.ok.inj (h2 : Out.ok (intDec _) = _)
          rw [← e]
          exact le_trans (hs _ (by norm_num at hb ⊢; omega)) (by omega)
    · refine ⟨by simp, fun _ => ?_, by simp, by simp⟩
      have h1 := (liftB_ok h).1
      rw [extractArithStr_abs] at h1
      split at h1
      · cases h1
      · rename_i ha
        have ha : ¬ a.length < 8 := ha
        have h2 := (Prod.mk.inj h1).1
        have e : decode .double (a.take ArithTy.double.size) = .bits (leNat (a.take 8)) := rfl
        rw [e, toString_double] at h2
        have h3 := Out.ok.inj h2
        have := fmtG999_buffer (leNat (a.take 8)) (.inl ⟨rfl, rfl⟩)
        rw [← h3]
        omega
    · refine ⟨by simp, fun _ => ?_, by simp, by simp⟩
      have := (jsonStr_short (liftB_ok h).1).1
      omega
    · refine ⟨by simp, fun _ => ?_, by simp, by simp⟩
      have := hxs rfl fun fl fl' p p' x hx => (ih 0 fl fl' p p' x hx).1 rfl
      omega
    · refine ⟨by simp, fun _ => ?_, by simp, by simp⟩
      have := hxs rfl fun fl fl' p p' x hx => (ih 6 fl fl' p p' x hx).2.2.1 rfl
      omega
    · refine ⟨by simp, by simp, fun _ => ?_, by simp⟩
      obtain ⟨xs, _, hs, rfl⟩ := extract_seq_ok (i := 6) (G := jsonGraph) rfl h
      cases hs with
      | cons hx hs =>
        cases hs with
        | cons hy hs =>
          cases hs
          have h7 := (ih 7 _ _ _ _ _ hx).2.2.2 rfl
          have h0 := (ih 0 _ _ _ _ _ hy).1 rfl
          simp only [hashElText, List.length_append, List.length_cons, List.length_nil]
          omega
    · exact ⟨by simp, by simp, by simp, fun _ => jsonStr_short (liftB_ok h).1⟩
    · cases h

/-- **C54.** What `StampJSON` returns for a blob, of any size, is shorter than 106 times the blob. -/
theorem C54_json_length {b : Blob} {bs s left : Bytes} {fl : Flags} (hr : Reachable b) (hh : Holds b bs)
    (h : Returns jsonGraph fl 0 b s left) : s.length + 2 ≤ 106 * bs.length := by
  obtain ⟨n, hn⟩ := Returns.inv hr hh h
  exact (json_length n 0 _ _ _ _ _ (hn n le_rfl)).1 rfl

/-- Ten bytes, the middle candidate: the largest negative subnormal double takes 774 characters. -/
example : ((extract jsonGraph 9 0 (Flags.init, ([255, 127, 255, 255, 255, 255, 255, 255, 15, 128] : ABlob))).1.map
    List.length) = .ok 774 := by
  decide +kernel

end BS
