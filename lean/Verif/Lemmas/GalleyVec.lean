import Verif.Lemmas.FloatErr
import Verif.Lemmas.Arith
import Verif.Lemmas.Fuel
import Verif.Spec.Galley

/-!
# Lemmas about the vector galley
-/

namespace BS
open BlobLike

theorem chop_abs (n : Nat) (a : ABlob) : (chop n : M ABlob ABlob) a =
    if a.length < n then (.outOfData, a) else (.ok (a.take n), a.drop n) := rfl

theorem size_abs (a : ABlob) : BlobLike.size a = a.length := rfl

/-! ## From remaining bytes to blobs -/

theorem forall₂_holds {ps : List Blob} {parts : List ABlob} (h : BRL ps parts) :
    List.Forall₂ Holds ps parts := by
  induction h with
  | nil => exact .nil
  | cons h _ ih => exact .cons ((holds_iff h.1 _).2 h.2) ih

theorem VecReturns.intro {mn mx : Int} {b : Blob} {bs : Bytes} (hb : b.Valid) (hh : Holds b bs)
    {n : Nat} {parts : List ABlob} {left : ABlob}
    (h : vecSplit n mn mx (bs : ABlob) = (.ok parts, left)) : VecReturns mn mx b parts left := by
  rw [holds_iff hb] at hh
  subst hh
  obtain ⟨h1, h2⟩ := sim_vecSplit n mn mx b b.abs ⟨hb, rfl⟩
  rw [h] at h1 h2
  rcases he : vecSplit n mn mx b with ⟨o, b'⟩
  rw [he] at h1 h2
  cases h1 with
  | @ok ps _ h1 =>
    refine ⟨ps, b', ⟨n, fun m hm => ?_⟩, forall₂_holds h1, (holds_iff h2.1 _).2 h2.2⟩
    rcases fle_vecSplit (β := Blob) hm mn mx b with e | e
    · rw [he] at e; cases e
    · rw [← e, he]

theorem VecThrows.intro {mn mx : Int} {b : Blob} {bs : Bytes} (hb : b.Valid) (hh : Holds b bs)
    {n : Nat} {left : ABlob}
    (h : vecSplit n mn mx (bs : ABlob) = (.outOfData, left)) : VecThrows mn mx b left := by
  rw [holds_iff hb] at hh
  subst hh
  obtain ⟨h1, h2⟩ := sim_vecSplit n mn mx b b.abs ⟨hb, rfl⟩
  rw [h] at h1 h2
  rcases he : vecSplit n mn mx b with ⟨o, b'⟩
  rw [he] at h1 h2
  cases h1
  refine ⟨b', ⟨n, fun m hm => ?_⟩, (holds_iff h2.1 _).2 h2.2⟩
  rcases fle_vecSplit (β := Blob) hm mn mx b with e | e
  · rw [he] at e; cases e
  · rw [← e, he]

/-! ## Fixed size -/

theorem fixedLoop_abs {k : Nat} (hk : 1 ≤ k) (hk2 : k < W64) (fuel : Nat) (a : ABlob)
    (hf : a.length / k < fuel) :
    ∃ (parts : List ABlob) (left : ABlob), fixedLoop fuel (k : Int) a = (.ok parts, left) ∧
      parts.flatten ++ left = a ∧ (∀ p ∈ parts, p.length = k) ∧ left.length < k := by
  induction fuel generalizing a with
  | zero => exact absurd hf (Nat.not_lt_zero _)
  | succ fuel ih =>
    unfold fixedLoop
    rw [M.bind_ok (M.get_apply a), toSz_natCast hk2, size_abs]
    by_cases h : k ≤ a.length
    · rw [if_pos h]
      have hc : (chop k : M ABlob ABlob) a = (.ok (a.take k), a.drop k) := by
        rw [chop_abs, if_neg (by omega)]
      rw [M.bind_ok hc]
      have hl : (a.drop k).length / k < fuel := by
        rw [List.length_drop]
        have : a.length / k = (a.length - k) / k + 1 := by
          rw [← Nat.add_div_right _ (by omega : 0 < k)]; congr 1; omega
        omega
      obtain ⟨parts, left, e, h1, h2, h3⟩ := ih (a.drop k) hl
      refine ⟨a.take k :: parts, left, ?_, ?_, ?_, h3⟩
      · rw [M.bind_ok e]; rfl
      · rw [List.flatten_cons, List.append_assoc, h1, List.take_append_drop]
      · intro p hp
        rcases List.mem_cons.1 hp with rfl | hp
        · rw [List.length_take]; omega
        · exact h2 p hp
    · rw [if_neg h]
      exact ⟨[], a, rfl, rfl, by simp, by omega⟩

theorem flatten_length_const {parts : List Bytes} {k : Nat} (h : ∀ p ∈ parts, p.length = k) :
    parts.flatten.length = parts.length * k := by
  induction parts with
  | nil => simp
  | cons p ps ih =>
    rw [List.flatten_cons, List.length_append, ih fun q hq => h q (by simp [hq]), h p (by simp),
      List.length_cons]
    ring

/-! ## Variated size -/

theorem prop_range {o mn mx : Nat} (ho : o < 65536) (h : mn ≤ mx) (hx : mx < W64 - 1) :
    ∃ t, oracleProportion o mn mx = .ok t ∧ mn ≤ t ∧ t ≤ mx := by
  obtain ⟨g1, _⟩ := oracleProportion_range (o := o) (by omega) h (by omega : mx < W64)
  obtain ⟨g2, g3⟩ := g1 (by omega)
  exact ⟨_, g2, by omega, by omega⟩

theorem variatedLoop_abs {mn mx : Nat} (h0 : mn ≤ mx) (h1 : mn + 2 ≤ INT_MAX) (h2 : mx ≤ INT_MAX)
    (fuel : Nat) (a : ABlob) (hf : a.length < 2 * fuel) :
    ∃ (ops : List (Bytes × Bytes)) (left : ABlob),
      variatedLoop fuel (mn : Int) (mx : Int) a = (.ok (ops.map Prod.snd), left) ∧
      (ops.flatMap fun x => x.1 ++ x.2) ++ left = a ∧ left.length < mn + 2 ∧
      (∀ x ∈ ops, x.1.length = 2 ∧ mn ≤ x.2.length ∧ x.2.length ≤ mx) ∧
      (∀ x ∈ ops.dropLast, oracleProportion (leNat x.1) mn mx = .ok x.2.length) ∧
      (∀ x ∈ ops.getLast?, ∃ t, oracleProportion (leNat x.1) mn mx = .ok t ∧
        (x.2.length = t ∨ (x.2.length < t ∧ left = []))) := by
  induction fuel generalizing a with
  | zero => omega
  | succ fuel ih =>
    unfold variatedLoop
    have e1 : ((M.lift (ckInt ((mn : Int) + 2)) : M ABlob Int) a) = (.ok ((mn : Int) + 2), a) := by
      rw [ckInt_ok (by omega) (by omega)]; rfl
    rw [M.bind_ok e1, M.bind_ok (M.get_apply a),
      show toSz ((mn : Int) + 2) = mn + 2 by rw [toSz_of_nonneg (by omega) (by omega)]; omega, size_abs]
    by_cases h : a.length < mn + 2
    · rw [if_pos h]
      exact ⟨[], a, rfl, rfl, h, by simp, by simp, by simp⟩
    · rw [if_neg h]
      have ho := oracle_abs a
      rw [if_neg (by omega)] at ho
      rw [M.bind_ok ho, toSz_natCast (by omega : mn < W64), toSz_natCast (by omega : mx < W64)]
      have hlt : leNat (a.take 2) < 65536 := oracle_lt ho
      obtain ⟨t, g2, htr⟩ := prop_range hlt h0 (by omega : mx < W64 - 1)
      have hlift : (M.lift (oracleProportion (leNat (a.take 2)) mn mx) : M ABlob Nat) (a.drop 2)
          = (.ok t, a.drop 2) := by rw [g2]; rfl
      rw [M.bind_ok hlift, M.bind_ok (M.get_apply (a.drop 2)),
        wrap32_of_fits (by omega : (-W31 : Int) ≤ (t : Int)) (by omega), toSz_natCast (by omega), size_abs]
      obtain ⟨s, hs1, hs2, hs3⟩ : ∃ s, s ≤ t ∧ s ≤ (a.drop 2).length ∧
          (s = t ∨ s = (a.drop 2).length) :=
        ⟨min t (a.drop 2).length, min_le_left _ _, min_le_right _ _, min_choice _ _⟩
      have hsz : (if (a.drop 2).length < t then wrap32 ((a.drop 2).length : Int) else (t : Int)) = (s : Int) := by
        by_cases hc : (a.drop 2).length < t
        · rw [if_pos hc, wrap32_of_fits (by omega) (by omega)]; omega
        · rw [if_neg hc]; omega
      have hsmx : s ≤ mx := hs1.trans htr.2
      have hs64 : s < W64 := lt_of_le_of_lt (hsmx.trans h2) (by norm_num)
      rw [hsz, toSz_natCast hs64]
      clear hsz hlift
      have hc : (chop s : M ABlob ABlob) (a.drop 2) = (.ok ((a.drop 2).take s), (a.drop 2).drop s) := by
        rw [chop_abs, if_neg (by omega)]
      rw [M.bind_ok hc]
      have hd2 : (a.drop 2).length = a.length - 2 := List.length_drop
      have hlen : ((a.drop 2).drop s).length < 2 * fuel := by
        rw [List.length_drop]; omega
      obtain ⟨ops, left, e, i1, i2, i3, i4, i5⟩ := ih _ hlen
      have hps : ((a.drop 2).take s).length = s := by rw [List.length_take]; omega
      refine ⟨(a.take 2, (a.drop 2).take s) :: ops, left, ?_, ?_, i2, ?_, ?_, ?_⟩
      · rw [M.bind_ok e]; rfl
      · rw [List.flatMap_cons, List.append_assoc, i1, List.append_assoc, List.take_append_drop,
          List.take_append_drop]
      · intro x hx
        rcases List.mem_cons.1 hx with rfl | hx
        · refine ⟨by rw [List.length_take]; omega, ?_, ?_⟩ <;> simp only [hps] <;> omega
        · exact i3 x hx
      · cases ops with
        | nil => simp
        | cons q qs =>
          rw [List.dropLast_cons_cons]
          intro x hx
          rcases List.mem_cons.1 hx with rfl | hx
          · simp only [hps]
            rw [g2]
            congr 1
            -- the blob was not used up, so the piece was not cut
            have hq := i3 q (by simp)
            have : 2 ≤ ((a.drop 2).drop s).length := by
              rw [← i1, List.flatMap_cons]; simp only [List.length_append]; omega
            rw [List.length_drop] at this
            omega
          · exact i4 x hx
      · cases ops with
        | nil =>
          intro x hx
          simp only [List.getLast?_singleton, Option.mem_def, Option.some.injEq] at hx
          subst hx
          refine ⟨t, g2, ?_⟩
          simp only [hps]
          rcases (by omega : s = t ∨ (s < t ∧ s = (a.drop 2).length)) with h5 | ⟨h5, h6⟩
          · exact Or.inl h5
          · refine Or.inr ⟨h5, ?_⟩
            have : left = (a.drop 2).drop s := by simpa using i1
            rw [this, h6, List.drop_length]
        | cons q qs =>
          intro x hx
          rw [List.getLast?_cons_cons] at hx
          exact i5 x hx

end BS
