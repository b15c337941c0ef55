import Verif.Lemmas.Length
import Verif.Props.Work
import Verif.Expr

/-!
# C88: how long a text can be
-/

namespace BS
open BlobLike

/-- Every returned text is at most as long as its calls and its bytes allow: `2 * (c + 1057)` characters for each call of
`ExtractStr` and `c + 1057` for each byte taken. `1057` is for the longest number. -/
theorem C88_calls {G : Graph} {c : Nat} (ht : Terse G c) {fl : Flags} {i : Id} {b : Blob} {bs s left : Bytes} {w : Nat}
    (hr : Reachable b) (hh : Holds b bs) (hw : Works G fl i bs w) (h : Returns G fl i b s left) :
    s.length ≤ (c + 1057) * (2 * w + (bs.length - left.length)) := by
  obtain ⟨n, hn⟩ := h.inv hr hh
  have e := hn n (le_refl n)
  have hwn := hw b hr hh n
  rw [(work_refines G n i fl hr.valid).2] at hwn
  rw [holds_iff hr.valid] at hh
  subst hh
  obtain ⟨e1, e2⟩ := C87_same (β := ABlob) G n i 0 (fl, b.abs)
  rw [e] at e1 e2
  obtain ⟨h1, h2⟩ := paid_extract ht n i 0 fl b.abs s e1
  rw [e2] at h1 h2
  dsimp only at h1 h2
  have h3 := Nat.mul_le_mul_left (c + 1057) hwn
  obtain ⟨x, hx⟩ := Nat.exists_eq_add_of_le h1
  have hx' : b.abs.length - left.length = x := by rw [hx]; exact Nat.add_sub_cancel_left _ _
  rw [hx']
  rw [hx] at h2
  linarith

/-- **C88.** The text is at most proportional to the data, with explicit constants: weights `P` and `Q` as in
`C87_weights`, `c` as in `Terse`. -/
theorem C88_weights {G : Graph} {c : Nat} (ht : Terse G c) {P : Id → Nat} {Q : Nat}
    (hP : ∀ i nd, G i = some nd → 1 + (nd.plainKids.map P).sum ≤ P i) (hQ : ∀ i, 1 ≤ P i ∧ P i ≤ Q) {fl : Flags} {i : Id}
    {b : Blob} {bs s left : Bytes} (hr : Reachable b) (hh : Holds b bs) (h : Returns G fl i b s left) :
    s.length ≤ (c + 1057) * (2 * P i + (4 * Q + 1) * bs.length) := by
  refine le_trans (C88_calls ht hr hh (C87_weights hP hQ fl i bs) h) (Nat.mul_le_mul_left _ ?_)
  have e : (4 * Q + 1) * bs.length = 2 * (2 * Q * bs.length) + bs.length := by ring
  omega

/-- In any guarded grammar. -/
theorem C88_linear {G : Graph} {c : Nat} (hg : Guarded G) (ht : Terse G c) : ∃ K, ∀ fl i b bs s left, Reachable b →
    Holds b bs → Returns G fl i b s left → s.length ≤ K * (bs.length + 1) := by
  obtain ⟨P, Q, hP, hQ⟩ := hg.weights
  refine ⟨(c + 1057) * (4 * Q + 1), fun fl i b bs s left hr hh h => ?_⟩
  refine le_trans (C88_weights ht hP hQ hr hh h) ?_
  rw [Nat.mul_assoc]
  refine Nat.mul_le_mul_left _ ?_
  have := (hQ i).2
  rw [Nat.mul_add]
  omega

/-! ## The library's own stamps are terse -/

theorem enumJoin_terse {sep l r : Bytes} {c : Nat} (h1 : sep.length ≤ c) (h2 : l.length + r.length ≤ c) (xs : List Bytes) :
    (enumJoin sep l r xs).length ≤ lengths c xs + c := by
  have e : (joinLoop sep [] xs).length ≤ 0 + lengths sep.length xs := joinLoop_length sep [] xs
  have := lengths_mono h1 xs
  unfold enumJoin
  rw [List.length_append, List.length_append]
  omega

theorem textJoin_terse {c : Nat} (hc : 1 ≤ c) (xs : List Bytes) : (textJoin xs).length ≤ lengths c xs + c := by
  have e : (joinLoop [32] [] xs).length ≤ 0 + lengths 1 xs := joinLoop_length [32] [] xs
  have := lengths_mono hc xs
  unfold textJoin
  omega

theorem binaryText_terse {op : Bytes} {c : Nat} (h : op.length ≤ c) (hc : 2 ≤ c) (xs : List Bytes) :
    (binaryText op xs).length ≤ lengths c xs + c := by
  unfold binaryText
  split
  · simp only [List.length_append, List.length_cons, List.length_nil, lengths, List.map_cons, List.map_nil, List.sum_cons,
      List.sum_nil]
    omega
  · exact Nat.zero_le _

theorem hashElText_terse {c : Nat} (hc : 2 ≤ c) (xs : List Bytes) : (hashElText xs).length ≤ lengths c xs + c := by
  unfold hashElText
  split
  · simp only [List.length_append, List.length_cons, List.length_nil, lengths, List.map_cons, List.map_nil, List.sum_cons,
      List.sum_nil]
    omega
  · exact Nat.zero_le _

/-- A `StampJSON` adds at most two characters to each part. -/
theorem jsonGraph_terse : Terse jsonGraph 2 := by
  constructor <;> intro i
  · intro ws h; rcases i with _ | _ | _ | _ | _ | _ | _ | _ | i <;> cases h
  · intro u h; rcases i with _ | _ | _ | _ | _ | _ | _ | _ | i <;> cases h
  · intro j join h; rcases i with _ | _ | _ | _ | _ | _ | _ | _ | i <;> cases h <;>
      exact enumJoin_terse (by decide) (by decide)
  · intro js join unb h; rcases i with _ | _ | _ | _ | _ | _ | _ | _ | i <;> cases h
  · intro js join unb h; rcases i with _ | _ | _ | _ | _ | _ | _ | _ | i <;> cases h
    exact hashElText_terse (by decide)
  · intro op j h; rcases i with _ | _ | _ | _ | _ | _ | _ | _ | i <;> cases h

/-- Whatever a `StampJSON` returns on 24 bytes has at most `1059 * (2 * 25 + 24)` characters. -/
example {b : Blob} {bs s left : Bytes} (hr : Reachable b) (hh : Holds b bs) (hb : bs.length = 24)
    (h : Returns jsonGraph Flags.init 0 b s left) : s.length ≤ 78366 := by
  have := C88_calls jsonGraph_terse hr hh (C87_json bs) h
  omega

/-- The expressions of examples/exampleZZ.cpp: operators of at most `c` characters. -/
theorem exprGraph_terse (ops : List Bytes) (k c : Nat) (hc : 20 ≤ c) (ho : ∀ op ∈ ops, op.length ≤ c) :
    Terse (exprGraph ops k) c := by
  have get : ∀ i nd, exprGraph ops k (i + 3) = some nd → ∃ op ∈ ops, nd = Node.binary op 0 0 := by
    intro i nd h
    obtain ⟨op, h1, h2⟩ := Option.map_eq_some_iff.1 (show (ops[i]?).map _ = some nd from h)
    exact ⟨op, List.mem_of_getElem? h1, h2.symm⟩
  constructor <;> intro i
  · intro ws h
    rcases i with _ | _ | _ | i
    · cases h
    · cases h
    · cases h
      have : ∀ w ∈ lcAlphaSmall, w.length ≤ 20 := by decide +kernel
      exact fun w hw => le_trans (this w hw) hc
    · obtain ⟨op, _, e⟩ := get i _ h; cases e
  · intro u h
    rcases i with _ | _ | _ | i
    · cases h
    · cases h
    · cases h
    · obtain ⟨op, _, e⟩ := get i _ h; cases e
  · intro j join h
    rcases i with _ | _ | _ | i
    · cases h
    · cases h
    · cases h
    · obtain ⟨op, _, e⟩ := get i _ h; cases e
  · intro js join unb h
    rcases i with _ | _ | _ | i
    · cases h
    · cases h
    · cases h
    · obtain ⟨op, hm, e⟩ := get i _ h
      cases e
      exact binaryText_terse (ho op hm) (by omega)
  · intro js join unb h
    rcases i with _ | _ | _ | i
    · cases h
    · cases h
    · cases h
    · obtain ⟨op, _, e⟩ := get i _ h; cases e
  · intro op j h
    rcases i with _ | _ | _ | i
    · cases h
    · cases h
    · cases h
    · obtain ⟨op, _, e⟩ := get i _ h; cases e

/-- Weights of the expressions: an operator has two operands. -/
def exprWeight : Id → Nat
  | 0 | 1 | 2 => 1
  | _ => 3

/-- Any expression of the example, after any number of `Append`s: at most 2154 characters and 14001 more for each byte
of the blob. -/
theorem C88_expr {k : Nat} {fl : Flags} {b : Blob} {bs s left : Bytes} (hr : Reachable b) (hh : Holds b bs)
    (h : Returns (exprGraph exampleOps k) fl 0 b s left) : s.length ≤ 1077 * (2 + 13 * bs.length) := by
  refine C88_weights (P := exprWeight) (Q := 3) (exprGraph_terse exampleOps k 20 (le_refl _) (by decide +kernel)) ?_ ?_ hr hh h
  · intro i nd h
    rcases i with _ | _ | _ | i
    · cases h; exact le_refl 1
    · cases h; decide
    · cases h; decide
    · obtain ⟨op, _, h2⟩ := Option.map_eq_some_iff.1 (show (exampleOps[i]?).map _ = some nd from h)
      subst h2
      show 1 + (exprWeight 0 + (exprWeight 0 + 0)) ≤ 3
      decide
  · intro i
    unfold exprWeight
    split <;> omega

/-- Fourteen bytes that become `(106 * 72)`: ten characters, where `C88_expr` allows 198168. -/
example : (extract (exprGraph exampleOps 5) 60 0 (Flags.init, ((List.range 14).map fun i => UInt8.ofNat (140 + 37 * i) : ABlob))).1 =
    .ok (str "(106 * 72)") ∧ 1077 * (2 + 13 * 14) = 198168 := by decide +kernel

end BS
