import Verif.Props.GalleySet
import Verif.Props.Copy

/-!
# C69 for sets with at most one unbounded stamp
-/

namespace BS
open BlobLike

/-- What a stamp of such a set is given: an unbounded stamp at least its minimum, a stamp of fixed size exactly its size. -/
def SuitsAny (s : SizePair) (p : Bytes) : Prop :=
  if s.2 = -1 then s.1 ≤ p.length else (p.length : Int) = s.1

theorem stampOracles_few {ss : List SizePair} (hs : ∀ s ∈ ss, s.2 = s.1 ∨ s.2 = -1) (bs : Bytes) :
    ∀ o ∈ stampOracles false ss bs, o = none := by
  induction ss generalizing bs with
  | nil => intro o ho; cases ho
  | cons s ss ih =>
    intro o ho
    unfold stampOracles at ho
    rw [if_pos (by rcases hs s (by simp) with h | h <;> simp [h])] at ho
    rcases List.mem_cons.1 ho with rfl | ho
    · rfl
    · exact ih (fun x hx => hs x (by simp [hx])) bs o ho

/-- Pieces of fixed sizes are as long together as the sizes add up to. -/
theorem flatten_fixed {ss : List SizePair} {ps : List Bytes}
    (h : List.Forall₂ (fun (s : SizePair) (p : Bytes) => s.2 ≠ -1 → (p.length : Int) = s.1) ss ps)
    (h0 : ss.countP (fun s => s.2 = -1) = 0) : (ps.flatten.length : Int) = (ss.map Prod.fst).sum := by
  induction h with
  | nil => rfl
  | @cons s p ss ps h1 _ ih =>
    rw [List.countP_eq_zero] at h0
    have e1 := h1 (by simpa using h0 s (by simp))
    have e2 := ih (by rw [List.countP_eq_zero]; exact fun x hx => h0 x (by simp [hx]))
    simp only [List.flatten_cons, List.length_append, List.map_cons, List.sum_cons]
    push_cast
    omega

/-- Bytes can be cut in one way only into pieces of which all but one have given lengths. -/
theorem flatten_one {ss : List SizePair} {ps qs : List Bytes}
    (hp : List.Forall₂ (fun (s : SizePair) (p : Bytes) => s.2 ≠ -1 → (p.length : Int) = s.1) ss ps)
    (hq : List.Forall₂ (fun (s : SizePair) (p : Bytes) => s.2 ≠ -1 → (p.length : Int) = s.1) ss qs)
    (h1 : ss.countP (fun s => s.2 = -1) ≤ 1) (he : ps.flatten = qs.flatten) : ps = qs := by
  induction hp generalizing qs with
  | nil => cases hq; rfl
  | @cons s p ss ps hsp hps ih =>
    cases hq with
    | @cons _ q _ qs hsq hqs =>
      simp only [List.flatten_cons] at he
      by_cases hu : s.2 = -1
      · have h0 : ss.countP (fun s => s.2 = -1) = 0 := by
          rw [List.countP_cons, if_pos (by simpa using hu)] at h1; omega
        have e1 := flatten_fixed hps h0
        have e2 := flatten_fixed hqs h0
        obtain ⟨e3, e4⟩ := List.append_inj' he (by omega)
        rw [e3, ih hqs (by omega) e4]
      · have e1 := hsp hu
        have e2 := hsq hu
        obtain ⟨e3, e4⟩ := List.append_inj he (by omega)
        rw [List.countP_cons_of_neg (by simpa using hu)] at h1
        rw [e3, ih hqs h1 e4]

/-- **C69** for sets of stamps of fixed size with at most one unbounded stamp among them: no oracle is read, and the
galley cuts the pieces, one after another, apart again, however long the piece of the unbounded stamp. -/
theorem C69_few {ss : List SizePair} (hs : ∀ s ∈ ss, 0 ≤ s.1 ∧ (s.2 = s.1 ∨ s.2 = -1))
    (hu : (ss.filter fun s => decide (s.2 = -1)).length ≤ 1) {parts : List Bytes}
    (hp : List.Forall₂ SuitsAny ss parts) (hS : parts.flatten.length + 2 * (ss.length + 1) ≤ 2147483646)
    (hn : ss.length * (parts.flatten.length + 1) ≤ 2 ^ 49) {b : Blob} (hr : Reachable b)
    (hh : Holds b parts.flatten) : SetReturns ss b parts [] := by
  rw [← List.countP_eq_length_filter] at hu
  have hpe : List.Forall₂ (fun (s : SizePair) (p : Bytes) => s.2 ≠ -1 → (p.length : Int) = s.1) ss parts := by
    refine hp.imp fun s p h hne => ?_
    unfold SuitsAny at h
    rwa [if_neg hne] at h
  have hle : (ss.map Prod.fst).sum ≤ (parts.flatten.length : Int) := by
    clear hu hS hn hh hpe
    induction hp with
    | nil => rfl
    | @cons s p ss parts h _ ih =>
      have e1 := ih (fun s h => hs s (by simp [h]))
      have e2 : s.1 ≤ p.length := by
        unfold SuitsAny at h
        split at h <;> omega
      simp only [List.flatten_cons, List.length_append, List.map_cons, List.sum_cons]
      push_cast
      omega
  have hmem : ∀ s ∈ ss, s.1 ≤ (ss.map Prod.fst).sum := by
    intro s h
    refine List.single_le_sum (fun x hx => ?_) _ (List.mem_map_of_mem h)
    obtain ⟨t, ht, rfl⟩ := List.mem_map.1 hx
    exact (hs t ht).1
  have hnv : ∀ s ∈ ss, ¬ IsVariated s := fun s h hv => by
    rcases (hs s h).2 with e | e
    · exact hv.1 e.symm
    · exact hv.2 e
  have hz : SetSizes ss := by
    refine ⟨fun s h => ⟨(hs s h).1, ?_⟩, by omega, ?_⟩
    · have := hmem s h
      rcases (hs s h).2 with e | e
      · exact .inr ⟨by omega, by omega⟩
      · exact .inl e
    · have : ∀ x ∈ ss.map slack, x = 0 := by
        intro x hx
        obtain ⟨t, ht, rfl⟩ := List.mem_map.1 hx
        unfold slack
        split
        · rfl
        · rcases (hs t ht).2 with e | e
          · omega
          · contradiction
      rw [List.sum_eq_zero this]
      decide
  have hneed : setNeeds ss = (ss.map Prod.fst).sum := by
    unfold setNeeds
    rw [← List.countP_eq_length_filter, ← List.countP_eq_length_filter, if_neg (by omega),
      if_neg (by rintro ⟨⟨s, h, hv⟩, _⟩; exact hnv s h hv),
      List.countP_eq_zero.2 (fun s h => by simpa using hnv s h)]
    simp
  have ho : SetOraclesOk ss parts.flatten := by
    refine ⟨fun ⟨s, h, hv⟩ => absurd hv (hnv s h), fun ⟨s, h, _⟩ => ?_⟩
    have h2 := (List.of_mem_zip h).2
    unfold setOracles at h2
    rw [show decide (1 < ss.countP (fun s => s.2 = -1)) = false by simpa using hu] at h2
    have := stampOracles_few (fun s h => (hs s h).2) _ _ h2
    cases this
  obtain ⟨os, qs, left, h1, h2, h3, h4⟩ := C21_set_pieces_partial hr hh hz (by omega) ho (by omega) hn
  have hos : os = [] := List.length_eq_zero_iff.1 (by omega)
  subst hos
  rw [List.nil_append] at h3
  have hqe : List.Forall₂ (fun (s : SizePair) (p : Bytes) => s.2 ≠ -1 → (p.length : Int) = s.1) ss qs := by
    rw [List.forall₂_iff_get]
    refine ⟨h2.symm, fun i k1 k2 hne => ?_⟩
    refine (C23_maximum hr hh (fun s h => ?_) h1 (i := i) (List.getElem?_eq_getElem k1) (List.getElem?_eq_getElem k2)).2 ?_
    · have := hmem s h
      exact ⟨(hs s h).1, by omega, (hz.sizes s h).2⟩
    · rcases (hs _ (List.get_mem ss ⟨i, k1⟩)).2 with e | e
      · exact e.symm
      · exact absurd e hne
  have hl : left = [] := by
    by_cases hc : ∃ s ∈ ss, s.2 = -1
    · exact (C24_consumed_partial hr hh hz (by omega) hn h1).1 hc
    · have h0 : ss.countP (fun s => s.2 = -1) = 0 := by
        rw [List.countP_eq_zero]
        exact fun s h hv => hc ⟨s, h, by simpa using hv⟩
      have e1 := flatten_fixed hpe h0
      have e2 := flatten_fixed hqe h0
      have e3 := congrArg List.length h3
      rw [List.length_append] at e3
      exact List.length_eq_zero_iff.1 (by omega)
  subst hl
  rw [List.append_nil] at h3
  rwa [flatten_one hqe hpe hu h3] at h1

/-- An unbounded stamp of at least two bytes between a stamp of one byte and one of two: 100000 bytes for it. -/
example (p : Bytes) (x y z : UInt8) (hp : p.length = 100000) {b : Blob} (hr : Reachable b)
    (hh : Holds b [[x], p, [y, z]].flatten) : SetReturns [(1, 1), (2, -1), (2, 2)] b [[x], p, [y, z]] [] :=
  C69_few (by decide) (by decide)
    (.cons (by simp [SuitsAny]) (.cons (by simp [SuitsAny, hp]) (.cons (by simp [SuitsAny]) .nil)))
    (by simp [hp]) (by simp [hp]) hr hh

end BS
