import Verif.Lemmas.UnbDivide
import Verif.Props.VecRuns

/-!
# Every division of the data can be asked of a vector (C79)
-/

namespace BS
open BlobLike

/-- **C79.** A vector of elements that are unbounded and need at least `m` bytes: pieces of at least `m` and at most
`m + 32767` bytes, of which the last is longer than `m`, are what the galley cuts some blob into, except that the last
piece may be one byte shorter, and that byte is left over. The blob is the pieces, one after another, behind two
bytes for every piece and two for their number. -/
theorem C79_division_partial {m : Nat} {parts : List Bytes} {last : Bytes} (hne : parts ≠ [])
    (hp : ∀ p ∈ parts, m ≤ p.length ∧ p.length ≤ m + 32767) (hl : m < last.length) (hl' : last.length ≤ m + 32767)
    (hL : parts.flatten.length + last.length ≤ 1500000)
    (hc : (2 * (parts.length + 1) + (parts.flatten.length + last.length)) / (m + 2) ≤ 65535) :
    ∃ oracles last' left : Bytes, oracles.length = 2 + 2 * (parts.length + 1) ∧ last' ++ left = last ∧ left.length ≤ 1 ∧
      ∀ b : Blob, Reachable b → Holds b (oracles ++ (parts.flatten ++ last)) →
        VecReturns m (-1) b (parts ++ [last']) left := by
  obtain ⟨hd, d, f1, f2, f3⟩ := vecUnbounded_divide (m := m) (ls := parts.map List.length) (l := last.length)
    (by simpa using hne) (by simpa using fun p h => (hp p h).1) hl (by simpa using fun p h => (hp p h).2) hl'
    (by rwa [← List.length_flatten]) (by rwa [← List.length_flatten, List.length_map])
  rw [List.length_map] at f1
  rw [← List.length_flatten] at f3
  refine ⟨hd, last.take (last.length - d), last.drop (last.length - d), f1, List.take_append_drop _ _, ?_, fun b hr hh => ?_⟩
  · rw [List.length_drop]; omega
  have f4 := f3 (parts.flatten ++ last) List.length_append
  have e1 : cutSizes (parts.map List.length ++ [last.length - d]) (parts.flatten ++ last) =
      parts ++ [last.take (last.length - d)] := by
    have := cutSizes_self (parts ++ [last.take (last.length - d)]) (last.drop (last.length - d))
    rw [List.map_append, List.map_singleton, List.length_take, Nat.min_eq_left (Nat.sub_le _ _), List.flatten_append,
      List.flatten_singleton, List.append_assoc, List.take_append_drop] at this
    exact this
  have e2 : (parts.flatten ++ last).drop (parts.flatten.length + (last.length - d)) = last.drop (last.length - d) := by
    rw [List.drop_append, List.drop_eq_nil_of_le (by omega), Nat.add_sub_cancel_left, List.nil_append]
  rw [e1, e2] at f4
  refine VecReturns.intro hr.valid hh (n := 0) ?_
  have hlen : (hd ++ (parts.flatten ++ last)).length = 2 + 2 * (parts.length + 1) + (parts.flatten.length + last.length) := by
    rw [List.length_append, f1, List.length_append]
  rw [vecSplit_enough (by omega) (by omega) (by rw [hlen]; omega), if_neg (by omega), if_pos rfl]
  exact f4

/-- A single piece is all the data. -/
theorem C79_single {m : Nat} {p : Bytes} (hp : m ≤ p.length) (hL : p.length ≤ 1500000)
    (hc : (2 + p.length) / (m + 2) ≤ 65535) :
    ∃ oracles : Bytes, oracles.length = 4 ∧
      ∀ b : Blob, Reachable b → Holds b (oracles ++ p) → VecReturns m (-1) b [p] [] := by
  obtain ⟨hd, f1, f2⟩ := vecUnbounded_single (m := m) hp hL hc
  refine ⟨hd, f1, fun b hr hh => VecReturns.intro hr.valid hh (n := 0) ?_⟩
  have hlen : (hd ++ p).length = 4 + p.length := by rw [List.length_append, f1]
  rw [vecSplit_enough (by omega) (by omega) (by rw [hlen]; omega), if_neg (by omega), if_pos rfl]
  exact f2 p rfl

/-- 3, 30000 and 7 bytes for elements of at least 2. -/
example {p q r : Bytes} (hp : p.length = 3) (hq : q.length = 30000) (hr' : r.length = 7) :
    ∃ oracles r' left : Bytes, oracles.length = 8 ∧ r' ++ left = r ∧ left.length ≤ 1 ∧
      ∀ b : Blob, Reachable b → Holds b (oracles ++ (p ++ q ++ r)) → VecReturns 2 (-1) b [p, q, r'] left := by
  have := C79_division_partial (m := 2) (parts := [p, q]) (last := r) (by simp) (by
    intro x hx
    simp only [List.mem_cons, List.not_mem_nil, or_false] at hx
    rcases hx with rfl | rfl <;> omega) (by omega) (by omega) (by simp; omega) (by simp [hp, hq, hr'])
  simpa using this

theorem elfQ_zero {m T var : Nat} (hm : m ≤ 4194304) : elfQ m T var 0 0 = m := by
  have e1 : rnd f32 (m : ℚ) = m := rnd_of_rep (rep32_nat (by omega))
  unfold elfQ shareQ
  rw [Nat.cast_zero, zero_div, rnd_zero, zero_mul, rnd_zero, add_zero, add_zero, e1, e1]

/-- A weight that is not zero, among two, is at least one in 65536. -/
theorem elfQ_ge {m c var o o' : Nat} (hm : m ≤ 4194304) (hv : 65536 * c ≤ var) (hv' : var ≤ 4194304) (ho : 1 ≤ o) (ho1 : o ≤ 65535)
    (ho2 : o' ≤ 65535) : ((m + c : Nat) : ℚ) ≤ elfQ m (o + o') var o 0 := by
  have hT : rnd f32 ((o + o' : Nat) : ℚ) = ((o + o' : Nat) : ℚ) := rnd_of_rep (rep32_nat (by omega))
  have h1 : (pow2 (-16) : ℚ) ≤ rnd f32 ((o : ℚ) / rnd f32 ((o + o' : Nat) : ℚ)) := by
    refine le_rnd_of_rep f32 f32_p ?_ ?_
    · exact ⟨1, -16, by norm_num, by decide, by decide⟩
    · rw [hT, pow2_eq, le_div_iff₀ (by exact_mod_cast (by omega : 0 < o + o'))]
      have : (o + o' : Nat) ≤ 65536 * o := by omega
      have : ((o + o' : Nat) : ℚ) ≤ 65536 * o := by exact_mod_cast this
      norm_num at this ⊢
      linarith
  have h2 : ((c : Nat) : ℚ) ≤ shareQ (o + o') var o := by
    refine le_rnd_of_rep f32 f32_p (rep32_nat (by omega)) ?_
    have hq : ((65536 * c : Nat) : ℚ) ≤ var := by exact_mod_cast hv
    have := mul_le_mul h1 hq (by positivity) (le_trans (by rw [pow2_eq]; positivity) h1)
    have e : (pow2 (-16) : ℚ) * ((65536 * c : Nat) : ℚ) = c := by rw [pow2_eq]; push_cast; norm_num; ring
    rwa [e] at this
  have h3 : ((m + c : Nat) : ℚ) ≤ rnd f32 ((m : ℚ) + shareQ (o + o') var o) :=
    le_rnd_of_rep f32 f32_p (rep32_nat (by omega)) (by push_cast; linarith)
  exact le_rnd_of_rep f32 f32_p (rep32_nat (by omega)) (by rw [add_zero]; exact h3)

/-- **C79 does not hold for larger pieces**: a blob of `c` times 65536 bytes and some more that is cut in two.
Whatever the oracles, the first piece has the minimum or at least `c` bytes more. -/
theorem C79_violated_large {m c : Nat} {b : Blob} {bs : Bytes} (hr : Reachable b) (hh : Holds b bs)
    (h1 : 6 + 2 * m + 65536 * c ≤ bs.length) (h2 : bs.length ≤ 3000000) (h3 : (bs.length - 2) / (m + 2) ≤ 32768)
    {p q : Bytes} {left : Bytes} (h : VecReturns m (-1) b [p, q] left) : p.length = m ∨ m + c ≤ p.length := by
  obtain ⟨n, h⟩ := VecReturns.inv hr.valid hh h
  rw [vecSplit_enough (by omega) (by omega) (by omega), if_neg (by omega), if_pos rfl] at h
  obtain ⟨parts, left', e1, -, -, -, -, -, -, os, g1, g2, g3, -, g4⟩ := vecUnbounded_full (m := m) bs h2 (by omega) h3
  rw [h] at e1
  have ep : parts = [p, q] := by
    have := congrArg Prod.fst e1
    injection this with this
    exact this.symm
  subst ep
  obtain ⟨o, o', rfl⟩ : ∃ o o', os = [o, o'] := by
    match os, g1 with
    | [o, o'], _ => exact ⟨o, o', rfl⟩
  simp only [List.map_cons, unbSizes, List.cons.injEq] at g4
  have hv : bs.length - (2 + 2 * [p, q].length) - m * [p, q].length = bs.length - 6 - 2 * m := by
    simp only [List.length_cons, List.length_nil]; omega
  have hs : [o, o'].sum = o + o' := by simp
  have hm : m ≤ 4194304 := by omega
  have ho := g3 o (by simp)
  have ho' := g3 o' (by simp)
  have hp := g4.1
  rw [hv, hs] at hp
  rcases Nat.eq_zero_or_pos o with rfl | hpos
  · rw [elfQ_zero hm, Int.floor_natCast, Int.toNat_natCast] at hp
    exact .inl hp
  · have := elfQ_ge (m := m) (c := c) (var := bs.length - 6 - 2 * m) hm (by omega) (by omega) hpos ho ho'
    have : ((m + c : Nat) : Int) ≤ ⌊elfQ m (o + o') (bs.length - 6 - 2 * m) o 0⌋ := Int.le_floor.2 (by exact_mod_cast this)
    right
    rw [hp]
    omega

/-- Elements of at least 10 bytes and a blob of 131098 bytes cut in two: the first piece never has 11 bytes. -/
example {b : Blob} {bs : Bytes} (hr : Reachable b) (hh : Holds b bs) (hl : bs.length = 131098) {p q left : Bytes}
    (h : VecReturns (10 : Nat) (-1) b [p, q] left) : p.length ≠ 11 := by
  have := C79_violated_large (m := 10) (c := 2) hr hh (by omega) (by omega) (by omega) h
  omega

end BS
