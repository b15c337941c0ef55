import Verif.Lemmas.SetExact
import Verif.Lemmas.SetSuccess

/-!
# Every division of the data can be asked of a set (C69)
-/

namespace BS
open BlobLike

local notation "R" => rnd f64

/-- What a stamp of a set is given: an unbounded stamp at least its minimum and at most 65535 bytes more, a stamp
of fixed size exactly its size. -/
def Suits (s : SizePair) (p : Bytes) : Prop :=
  if s.2 = -1 then s.1 ≤ p.length ∧ p.length ≤ s.1 + 65535 else (p.length : Int) = s.1

/-- **C69.** A set of stamps that are of fixed size or unbounded, at least two of them unbounded: any pieces that
suit the stamps are what the galley cuts some blob into. The blob is the pieces, one after another, behind two
bytes for every unbounded stamp. -/
theorem C69_division_partial {ss : List SizePair} (hs : ∀ s ∈ ss, 0 ≤ s.1 ∧ (s.2 = s.1 ∨ s.2 = -1))
    (hu : 2 ≤ (ss.filter fun s => decide (s.2 = -1)).length) {parts : List Bytes}
    (hp : List.Forall₂ Suits ss parts)
    (hS : 2 * (ss.filter fun s => decide (s.2 = -1)).length + parts.flatten.length ≤ 2147483646)
    (hn : ss.length * (2 * (ss.filter fun s => decide (s.2 = -1)).length + parts.flatten.length + 1) ≤ 2 ^ 49) :
    ∃ oracles : Bytes, oracles.length = 2 * (ss.filter fun s => decide (s.2 = -1)).length ∧
      ∀ b : Blob, Reachable b → Holds b (oracles ++ parts.flatten) → SetReturns ss b parts [] := by
  obtain ⟨l, hl⟩ : ∃ l : List Row, l = ss.zipWith (fun s (p : Bytes) => (s, ((p.length : Int) - s.1).toNat)) parts := ⟨_, rfl⟩
  have hfst : l.map Prod.fst = ss := by
    rw [hl]
    clear hl hu hS hn
    induction hp with
    | nil => rfl
    | cons _ _ ih => simp [ih (fun s h => hs s (by simp [h]))]
  have hcnt : (ss.filter fun s => decide (s.2 = -1)).length = ss.countP SizePair.unb := by
    rw [← List.countP_eq_length_filter]
    exact List.countP_congr (fun s _ => by rw [s.unb_iff]; simp)
  have hfa : List.Forall₂ (fun (x : Row) (p : Bytes) => (p.length : Int) = x.1.1 + x.2) l parts ∧
      RowsOk l := by
    have hlen : ∀ p ∈ parts, p.length ≤ 2147483646 := by
      intro p hpm
      have : p.length ≤ parts.flatten.length := by
        rw [List.length_flatten]; exact List.le_sum_of_mem (List.mem_map_of_mem hpm)
      omega
    rw [hl]
    clear hl hfst hcnt hu hS hn
    induction hp with
    | nil => exact ⟨.nil, ⟨by simp, by simp, by simp, by simp⟩⟩
    | @cons s p ss parts hsp _ ih =>
      obtain ⟨h1, h2⟩ := ih (fun s h => hs s (by simp [h])) (fun p h => hlen p (by simp [h]))
      obtain ⟨hs0, hs1⟩ := hs s (by simp)
      have hpl := hlen p (by simp)
      have hin : s.1 ≤ p.length ∧ (p.length : Int) ≤ s.1 + 65535 ∧ (s.2 ≠ -1 → (p.length : Int) = s.1) := by
        unfold Suits at hsp
        split at hsp
        · exact ⟨hsp.1, hsp.2, fun h => absurd ‹s.2 = -1› h⟩
        · exact ⟨by omega, by omega, fun _ => hsp⟩
      have hok : s.Ok := by
        refine ⟨hs0, by omega, ?_⟩
        rcases hs1 with h | h
        · exact .inr ⟨by omega, by omega⟩
        · exact .inl h
      have hnv : s.var = false := by
        rcases hok.cases with ⟨_, _, e, _⟩ | ⟨_, _, e, _⟩ | ⟨_, _, _, e4, e5⟩
        · exact e
        · exact e
        · omega
      rw [List.zipWith_cons_cons]
      refine ⟨.cons (by dsimp only; omega) h1, ?_, ?_, ?_, ?_⟩
      · intro x hx
        rcases List.mem_cons.1 hx with rfl | hx
        · exact hok
        · exact h2.ok x hx
      · intro x hx
        rcases List.mem_cons.1 hx with rfl | hx
        · dsimp only; omega
        · exact h2.le x hx
      · intro x hx
        rcases List.mem_cons.1 hx with rfl | hx
        · exact hnv
        · exact h2.novar x hx
      · intro x hx hxu
        rcases List.mem_cons.1 hx with rfl | hx
        · have := hin.2.2 (fun e => by rw [s.unb_iff.2 e] at hxu; cases hxu)
          dsimp only; omega
        · exact h2.fixed x hx hxu
  obtain ⟨hfa, hrows⟩ := hfa
  have hal : (asks l).length = 2 * (ss.filter fun s => decide (s.2 = -1)).length := by
    rw [asks_length, hfst, hcnt]
  have hll : l.length = ss.length := by rw [← hfst, List.length_map]
  refine ⟨asks l, hal, fun b hr hh => ?_⟩
  have := setSplit_exact hrows (by rw [hfst, ← hcnt]; exact hu) hfa (by rw [List.length_append, hal]; exact hS)
    (by rw [List.length_append, hal, hll]; exact hn)
  rw [hfst] at this
  exact SetReturns.intro hr.valid hh this

/-- Two unbounded stamps of at least two bytes around a byte: pieces of 300, 1 and 2 bytes. -/
example (p q : Bytes) (x : UInt8) (hp : p.length = 300) (hq : q.length = 2) :
    ∃ oracles : Bytes, oracles.length = 4 ∧ ∀ b : Blob, Reachable b → Holds b (oracles ++ [p, [x], q].flatten) →
      SetReturns [(2, -1), (1, 1), (2, -1)] b [p, [x], q] [] := by
  obtain ⟨o, h1, h2⟩ := C69_division_partial (ss := [(2, -1), (1, 1), (2, -1)]) (parts := [p, [x], q])
    (by decide) (by decide)
    (.cons (by simp [Suits, hp]) (.cons (by simp [Suits]) (.cons (by simp [Suits, hq]) .nil)))
    (by simp [hp, hq]) (by simp [hp, hq])
  exact ⟨o, by rw [h1]; decide, h2⟩

/-! ## Two unbounded stamps -/

/-- **C21, C22 in full** for a set with exactly two unbounded stamps, the others of fixed size (a binary operator
over unbounded operands is one): with at least `minSize()` bytes it returns one piece per stamp, whatever the
oracles, every stamp gets its minimum, and all data is used. -/
theorem C22_two_unbounded {ss : List SizePair} (hs : ∀ s ∈ ss, 0 ≤ s.1 ∧ s.1 ≤ INT_MAX ∧ (s.2 = s.1 ∨ s.2 = -1))
    (hu : (ss.filter fun s => decide (s.2 = -1)).length = 2) {b : Blob} {bs : Bytes} (hr : Reachable b)
    (hh : Holds b bs) (hmin : setNeeds ss ≤ bs.length) (hS : bs.length ≤ 2147483646)
    (hn : ss.length * (bs.length + 1) ≤ 2 ^ 49) :
    ∃ parts : List Bytes, SetReturns ss b parts [] ∧
      List.Forall₂ (fun (s : SizePair) (p : Bytes) => s.1 ≤ p.length ∧ (s.2 = s.1 → (p.length : Int) = s.1)) ss parts ∧
      bs.take 4 ++ parts.flatten = bs := by
  have hcnt : ss.countP SizePair.unb = 2 := by
    rw [← hu, ← List.countP_eq_length_filter]
    exact List.countP_congr (fun s _ => by rw [s.unb_iff]; simp)
  have hok : ∀ s ∈ ss, s.Ok ∧ s.var = false := by
    intro s h
    obtain ⟨h0, h1, h2⟩ := hs s h
    have hok : s.Ok := ⟨h0, h1, by
      rcases h2 with h2 | h2
      · exact .inr ⟨by omega, by omega⟩
      · exact .inl h2⟩
    refine ⟨hok, ?_⟩
    rcases hok.cases with ⟨_, _, e, _⟩ | ⟨_, _, e, _⟩ | ⟨_, _, _, e4, e5⟩
    · exact e
    · exact e
    · omega
  rw [setNeeds_eq] at hmin
  obtain ⟨parts, h1, h2, h3⟩ := setSplit_two hok hcnt bs hmin hS hn
  refine ⟨parts, SetReturns.intro hr.valid hh h1, ?_, h3⟩
  obtain ⟨h4, _⟩ := setSplit_ok (fun s h => by
    obtain ⟨h0, h1, h2⟩ := hs s h
    refine ⟨h0, h1, ?_⟩
    rcases h2 with h2 | h2
    · exact .inr ⟨by omega, by omega⟩
    · exact .inl h2) (holds_length_lt hr.valid hh) h1
  rw [List.forall₂_iff_get] at h2 h4 ⊢
  exact ⟨h2.1, fun i hi hi' => ⟨h2.2 i hi hi', fun e => (h4.2 i hi hi').2 e.symm⟩⟩

/-- The second oracle is 0, which with three unbounded stamps may cost a byte (`C22_violated`). -/
example {b : Blob} (hr : Reachable b) (hh : Holds b [255, 255, 0, 0, 1, 2, 3, 4, 5]) :
    ∃ parts : List Bytes, SetReturns [(1, -1), (1, -1)] b parts [] ∧
      List.Forall₂ (fun (s : SizePair) (p : Bytes) => s.1 ≤ p.length ∧ (s.2 = s.1 → (p.length : Int) = s.1))
        [(1, -1), (1, -1)] parts ∧
      [255, 255, 0, 0, 1, 2, 3, 4, 5].take 4 ++ parts.flatten = [255, 255, 0, 0, 1, 2, 3, 4, 5] :=
  C22_two_unbounded (by decide) (by decide) hr hh (by decide) (by decide) (by decide)

/-! ## What cannot be asked for -/

/-- The first piece of two unbounded stamps: the minimum, or more than `c` bytes above it when there is enough data. -/
theorem two_unb_first {m c : Nat} (hm : m ≤ 1000000) (hc : c ≤ 30000) {a : ABlob} {parts : List Bytes} {left : Bytes}
    (h1 : 33004 + 2 * m + 65537 * c ≤ a.length) (h2 : a.length ≤ 2147483646)
    (h : setSplit [((m : Int), -1), ((m : Int), -1)] a = (.ok parts, left)) :
    ∀ p ∈ parts.head?, p.length = m ∨ m + c < p.length := by
  have hunb : SizePair.unb ((m : Int), -1) = true := rfl
  have hvar : SizePair.var ((m : Int), -1) = false := by simp [SizePair.var, hunb]
  obtain ⟨ss, hss⟩ : ∃ ss : List SizePair, ss = [((m : Int), -1), ((m : Int), -1)] := ⟨_, rfl⟩
  have hok : ∀ s ∈ ss, s.Ok := by
    rw [hss]
    intro s hs
    simp only [List.mem_cons, List.not_mem_nil, or_false, or_self] at hs
    subst hs
    exact ⟨by dsimp only; omega, by dsimp only; omega, .inl rfl⟩
  have hcv : ss.countP SizePair.var = 0 := by rw [hss]; simp [hvar]
  have hcu : ss.countP SizePair.unb = 2 := by rw [hss]; rfl
  have hneed : setNeed ss = 2 * m + 4 := by
    unfold setNeed
    rw [hcv, hcu, hss]
    simp [minSum]; omega
  have hdiv : divides ss = 0 := by unfold divides; rw [hcv]; simp
  have hoc : oracleCount ss = 2 := by
    unfold oracleCount
    rw [hdiv, countP_takes hok, hcv, hcu]; rfl
  obtain ⟨els, fv, hrun, hthrow, hpo, _, _, hsum, hels⟩ := setSplit_full hok (by rw [dSum_zero hcv]; norm_num) a
    (by rw [hneed]; omega) h2
    (by rw [hss]; simp only [List.length_cons, List.length_nil]; omega) (fun hc => by omega)
  have hels := hels hcv (by omega)
  obtain ⟨F, hF⟩ : ∃ F : Nat, F = (a.length - setNeed ss : Int).toNat := ⟨_, rfl⟩
  rw [← hF] at hels
  rw [hneed] at hF
  have h' : 33000 + 65537 * c ≤ F := by clear * - hF h1; omega
  have hset : setRows ss a = [(((m : Int), -1), leNat (a.take 2)), (((m : Int), -1), leNat ((a.drop 2).take 2))] := by
    unfold setRows
    rw [hdiv, hcu, hss]
    rfl
  have hrow : ∃ u v : Nat, u ≤ 65535 ∧ v ≤ 65535 ∧
      finRows (setRows ss a) = [(((m : Int), -1), u), (((m : Int), -1), v)] := by
    rw [hset]
    unfold finRows
    split
    · exact ⟨65535, 65535, le_refl _, le_refl _, rfl⟩
    · exact ⟨_, _, leNat_two _, leNat_two _, rfl⟩
  obtain ⟨u, v, hu, hv, hrow⟩ := hrow
  have hW1 : 1 / 2 ^ 16 ≤ sumW (unbW (finRows (setRows ss a))) 0 :=
    finRows_unb (x := (((m : Int), -1), leNat (a.take 2))) (by rw [hset]; exact List.mem_cons_self ..) rfl
  rw [hrow] at hels hW1
  have hWe : sumW (unbW [(((m : Int), -1), u), (((m : Int), -1), v)]) 0 = R (modQ u + modQ v) := by
    have : unbW [(((m : Int), -1), u), (((m : Int), -1), v)] = [modQ u, modQ v] := rfl
    rw [this]
    simp only [sumW, zero_add, rnd_of_rep (modQ_rep u)]
  rw [hWe] at hels hW1
  obtain ⟨k, hk⟩ : ∃ k, k = R ((F : ℚ) / R (modQ u + modQ v)) := ⟨_, rfl⟩
  rw [← hk] at hels
  have hhead : els.head? = some (roundHA (lenQ k (modQ u) 0) + m) := by
    rw [hels]
    simp [setEls, hunb]
  -- the first size
  have hne : roundHA (lenQ k (modQ u) 0) = 0 ∨ (c : Int) < roundHA (lenQ k (modQ u) 0) := by
    rcases Nat.eq_zero_or_pos u with rfl | hu1
    · left
      rw [modQ_zero]
      unfold lenQ
      rw [zero_mul, rnd_zero, zero_add, rnd_zero, roundHA_zero]
    · right
      have hw := abs_le.1 (modQ_err u)
      have hu1q : (1 : ℚ) ≤ u := by exact_mod_cast hu1
      have hv1 := modQ_le hv
      have hv0 := modQ_nonneg v
      have hw1 := modQ_le hu
      have hWerr := abs_le.1 (rnd64_err (modQ u + modQ v))
      have hw0 : (1 / 65535 : ℚ) * (1 - 1 / 2 ^ 52) ≤ modQ u := by
        have := hw.1
        norm_num at this ⊢
        linarith
      have hq0 : 0 ≤ modQ u + modQ v := by
        have := modQ_nonneg u
        linarith
      rw [abs_of_nonneg hq0] at hWerr
      have hWle : R (modQ u + modQ v) ≤ (modQ u + 1) * (1 + 1 / 2 ^ 51) := by
        have := hWerr.2
        norm_num at this ⊢
        linarith
      obtain ⟨N, hN⟩ : ∃ N : ℚ, N = 33000 + 65537 * (c : ℚ) := ⟨_, rfl⟩
      have hc0 : (0 : ℚ) ≤ c := by positivity
      have hcq : (c : ℚ) ≤ 30000 := by exact_mod_cast hc
      have hN0 : 33000 ≤ N := by rw [hN]; linarith
      have hFq : N ≤ F := by
        rw [hN]
        have h'' : ((33000 + 65537 * c : Nat) : ℚ) ≤ (F : ℚ) := Nat.cast_le.2 h'
        push_cast at h''
        exact h''
      generalize R (modQ u + modQ v) = W at *
      have hWpos : 0 < W := lt_of_lt_of_le (by norm_num) hW1
      have hw00 : 0 < modQ u := lt_of_lt_of_le (by norm_num) hw0
      generalize modQ u = w at *
      have hFW : N / W ≤ F / W := div_le_div_of_nonneg_right hFq hWpos.le
      have hkerr := abs_le.1 (rnd64_err ((F : ℚ) / W))
      rw [← hk, abs_of_nonneg (by positivity)] at hkerr
      have hwk : (c : ℚ) + 502 / 1000 ≤ w * k := by
        have hk1 : N / W * (1 - 1 / 2 ^ 52) ≤ k := by
          have h3 := hkerr.1
          have h5 : N / 4 ≤ N / W := by
            apply div_le_div_of_nonneg_left (by linarith) hWpos
            norm_num at hWle; linarith
          norm_num at h3 ⊢
          linarith
        have hkW : N * (1 - 1 / 2 ^ 52) ≤ k * W := by
          have := mul_le_mul_of_nonneg_right hk1 hWpos.le
          have e : N / W * (1 - 1 / 2 ^ 52) * W = N * (1 - 1 / 2 ^ 52) := by field_simp
          linarith
        have hk0 : 0 ≤ k := le_trans (by
          apply mul_nonneg
          · exact div_nonneg (by linarith) hWpos.le
          · norm_num) hk1
        have h6 := mul_le_mul_of_nonneg_left hWle hk0
        -- k (w + 1) is nearly N and w / (w + 1) is at least 1 / 65537
        have h7 : w + 1 ≤ 65537 * w := by norm_num at hw0; linarith
        have h8 := mul_le_mul_of_nonneg_left h7 hk0
        have h9 : k * (w + 1) * (1 + 1 / 2 ^ 51) ≤ k * (65537 * w) * (1 + 1 / 2 ^ 51) :=
          mul_le_mul_of_nonneg_right h8 (by norm_num)
        have h10 : k * (65537 * w) = 65537 * (w * k) := by ring
        rw [h10] at h9
        rw [← mul_assoc] at h6
        generalize w * k = x at *
        generalize k * (w + 1) = y at *
        generalize k * W = z at *
        rw [hN] at hkW
        norm_num at h6 h9 hkW ⊢
        linarith
      by_contra hcon
      push Not at hcon
      have hk0 : 0 ≤ k := by
        by_contra hcc
        push Not at hcc
        have := mul_neg_of_pos_of_neg hw00 hcc
        linarith
      obtain ⟨_, l2, _, _⟩ := lenQ_step (r := 0) hk0 hw00.le (by norm_num)
      have h11 := abs_le.1 (roundHA_err (lenQ k w 0))
      have hcon : ((roundHA (lenQ k w 0) : Int) : ℚ) ≤ c := by exact_mod_cast hcon
      have l2 := abs_le.1 l2
      have h12 := l2.1
      have h13 := h11.1
      have h14 := h11.2
      rw [add_zero] at h12
      generalize w * k = x at *
      norm_num at h12 h13 h14
      linarith
  intro p hp
  have h := hss ▸ h
  by_cases hneg : ∃ e ∈ els, e < 0
  · obtain ⟨lft, ht⟩ := hthrow hneg
    rw [h] at ht; cases ht
  · have hnn : ∀ e ∈ els, 0 ≤ e := fun e he => by
      by_contra hc
      exact hneg ⟨e, he, by omega⟩
    have hr := hrun hnn
    rw [h, hoc] at hr
    have hparts : parts = cutSizes (els.map Int.toNat) (a.drop (2 * 2)) := by
      have := congrArg Prod.fst hr
      injection this
    rcases els with _ | ⟨e, els⟩
    · cases hhead
    · simp only [List.head?_cons, Option.some.injEq] at hhead
      rw [hparts] at hp
      simp only [List.map_cons, cutSizes, List.head?_cons, Option.mem_def, Option.some.injEq] at hp
      subst hp
      have he0 := hnn e (by simp)
      rw [List.length_take, List.length_drop]
      omega

/-- **C69 does not hold for larger pieces**: two unbounded stamps with the same minimum `m`, and a blob of `c` times
65537 bytes and some more. Whatever the oracles, the first stamp gets its minimum or more than `c` bytes above it. -/
theorem C69_violated_large {m c : Nat} (hm : m ≤ 1000000) (hc : c ≤ 30000) {b : Blob} {bs : Bytes} (hr : Reachable b)
    (hh : Holds b bs) (h1 : 33004 + 2 * m + 65537 * c ≤ bs.length)
    (h2 : bs.length ≤ 2147483646) {p : Bytes} {parts : List Bytes} {left : Bytes}
    (h : SetReturns [((m : Int), -1), ((m : Int), -1)] b (p :: parts) left) : p.length = m ∨ m + c < p.length :=
  two_unb_first (a := bs) hm hc h1 h2 (h.inv hr.valid hh) p rfl

/-- Two such stamps without minimum and 100000 bytes: the first is never given exactly one byte. -/
example {b : Blob} {bs : Bytes} (hr : Reachable b) (hh : Holds b bs) (hl : bs.length = 100000) {p : Bytes}
    {parts : List Bytes} {left : Bytes} (h : SetReturns [(0, -1), (0, -1)] b (p :: parts) left) : p.length ≠ 1 := by
  have := C69_violated_large (m := 0) (c := 1) (by omega) (by omega) hr hh (by omega) (by omega) h
  omega

end BS
