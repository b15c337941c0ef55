import Verif.Lemmas.UnbExact
import Verif.Lemmas.SetSuccess

/-!
# What every split over an unbounded stamp that returns has done
-/

namespace BS
open BlobLike

theorem rep32_pow {n : Nat} : Rep f32 ((2 : ℚ) ^ n) :=
  ⟨1, n, by rw [pow2_natCast]; norm_num, by decide, by show (-149 : Int) ≤ n; omega⟩

theorem sizeOracles_ok {n : Nat} {tot t : Int} {a a' : ABlob} {os : List Nat} (h0 : 0 ≤ tot)
    (h : sizeOracles n tot a = (.ok (os, t), a')) :
    os.length = n ∧ (∀ o ∈ os, o ≤ 65535) ∧ t = tot + os.sum ∧ a' = a.drop (2 * n) ∧ 2 * n ≤ a.length ∧
      (n ≠ 0 → t < W31) ∧ os = (List.range n).map fun k => leNat ((a.drop (2 * k)).take 2) := by
  induction n generalizing tot a os t with
  | zero => cases h; simp
  | succ n ih =>
    unfold sizeOracles at h
    obtain ⟨o, a1, h1, h⟩ := M.bind_eq_ok.1 h
    obtain ⟨tot', a2, h2, h⟩ := M.bind_eq_ok.1 h
    obtain ⟨⟨os', t'⟩, a3, h3, h⟩ := M.bind_eq_ok.1 h
    cases h
    have hlt := oracle_lt h1
    rw [oracle_abs] at h1
    split at h1
    · cases h1
    · rename_i hl
      obtain ⟨e1, e2⟩ := Prod.mk.inj h1
      have e1 := Out.ok.inj e1
      obtain ⟨f1, f2⟩ := Prod.mk.inj h2
      subst f2
      obtain ⟨g1, g2, g3⟩ := ckInt_eq f1
      obtain ⟨i1, i2, i3, i4, i5, i6, i7⟩ := ih (by omega) h3
      subst e2
      rw [List.length_drop] at i5
      refine ⟨by simp [i1], ?_, ?_, ?_, by omega, ?_, ?_⟩
      · intro x hx
        rcases List.mem_cons.1 hx with rfl | hx
        · omega
        · exact i2 x hx
      · rw [i3, g1, List.sum_cons]; push_cast; ring
      · rw [i4, List.drop_drop, show 2 + 2 * n = 2 * (n + 1) by omega]
      · intro _
        rcases Nat.eq_zero_or_pos n with rfl | hn
        · have : os' = [] := List.length_eq_zero_iff.1 i1
          subst this
          rw [i3, g1]; simpa using g3
        · exact i6 (by omega)
      · rw [List.range_succ_eq_map, List.map_cons, List.map_map, i7, ← e1]
        simp only [Nat.mul_zero, List.drop_zero, List.cons.injEq, true_and]
        refine List.map_congr_left fun k _ => ?_
        simp only [Function.comp, List.drop_drop]
        rw [show 2 + 2 * k = 2 * (k + 1) by omega]

/-- Every piece has at least the minimum, and the pieces are cut one after the other. -/
theorem unbChopLoop_ok {m T var : Nat} (hT : 1 ≤ T) (hT2 : T < W31) (hm : m ≤ 2 ^ 24) (hv : var < W31)
    {os : List Nat} (hos : ∀ o ∈ os, o ≤ 65535) {r : ℚ} (hr0 : 0 ≤ r) (hr1 : r < 1)
    {a a' : ABlob} {parts : List ABlob}
    (h : unbChopLoop (m : Int) (T : Int) (var : Int) os (.fin r) a = (.ok parts, a')) :
    parts.length = os.length ∧ (∀ p ∈ parts, m ≤ p.length) ∧ parts.flatten ++ a' = a := by
  induction os generalizing r a parts with
  | nil => cases h; simp
  | cons o os ih =>
    have ho := hos o (by simp)
    have hT' := rnd32_nat_ge_one hT
    have hoq : (o : ℚ) ≤ 65535 := by exact_mod_cast ho
    have hTq2 : (T : ℚ) ≤ 2 ^ 31 := by
      have : (T : ℚ) < ((W31 : Int) : ℚ) := by exact_mod_cast hT2
      norm_num at this ⊢; linarith
    have hvq : (var : ℚ) ≤ 2 ^ 31 := by
      have : (var : ℚ) < ((W31 : Int) : ℚ) := by exact_mod_cast hv
      norm_num at this ⊢; linarith
    have hmq : (m : ℚ) ≤ 16777216 := by
      have : m ≤ 16777216 := by simpa using hm
      exact_mod_cast this
    have t1 : FV.ofInt f32 (o : Int) = .fin (o : ℚ) := by
      unfold FV.ofInt
      have h := ofQ32_rep (q := ((o : Nat) : ℚ)) (by
        rw [abs_of_nonneg (by positivity)]; norm_num; linarith) (rep32_nat (by omega))
      exact_mod_cast h
    have t2 : FV.ofInt f32 (T : Int) = .fin (rnd f32 (T : ℚ)) := by
      unfold FV.ofInt
      have h := ofQ32 (q := ((T : Nat) : ℚ)) (by
        rw [abs_of_nonneg (by positivity)]; norm_num at hTq2 ⊢; linarith)
      exact_mod_cast h
    have t3 : FV.ofInt f32 (var : Int) = .fin (rnd f32 (var : ℚ)) := by
      unfold FV.ofInt
      have h := ofQ32 (q := ((var : Nat) : ℚ)) (by
        rw [abs_of_nonneg (by positivity)]; norm_num at hvq ⊢; linarith)
      exact_mod_cast h
    have t4 : FV.ofInt f32 (m : Int) = .fin (m : ℚ) := by
      unfold FV.ofInt
      have h := ofQ32_rep (q := ((m : Nat) : ℚ)) (by
        rw [abs_of_nonneg (by positivity)]; norm_num; linarith) (rep32_nat hm)
      exact_mod_cast h
    have t5 : ∃ y, FV.add f32 (FV.add f32 (.fin (m : ℚ)) (FV.mul f32 (FV.div f32 (.fin (o : ℚ))
        (.fin (rnd f32 (T : ℚ)))) (.fin (rnd f32 (var : ℚ))))) (.fin r) = .fin y ∧ (m : ℚ) ≤ y ∧ Rep f32 y ∧ y ≤ 2 ^ 70 := by
      have q0 : 0 ≤ (o : ℚ) / rnd f32 (T : ℚ) := div_nonneg (by positivity) (by linarith)
      have q1 : (o : ℚ) / rnd f32 (T : ℚ) ≤ 2 ^ 16 := by
        rw [div_le_iff₀ (by linarith)]; norm_num; linarith
      have x0 := rnd_nonneg f32 q0
      have x1 := rnd_le_of_rep f32 f32_p (rep32_pow (n := 16)) q1
      have v0 : 0 ≤ rnd f32 (var : ℚ) := rnd_nonneg f32 (by positivity)
      have v1 := rnd_le_of_rep f32 f32_p (rep32_pow (n := 31)) hvq
      have p0 := mul_nonneg x0 v0
      have p1 : rnd f32 ((o : ℚ) / rnd f32 (T : ℚ)) * rnd f32 (var : ℚ) ≤ 2 ^ 47 :=
        le_trans (mul_le_mul x1 v1 v0 (by norm_num)) (by norm_num)
      have s0 := rnd_nonneg f32 p0
      have s1 := rnd_le_of_rep f32 f32_p (rep32_pow (n := 47)) p1
      set sh := rnd f32 (rnd f32 ((o : ℚ) / rnd f32 (T : ℚ)) * rnd f32 (var : ℚ))
      have z0 := le_rnd_of_rep f32 f32_p (rep32_nat hm) (by linarith : (m : ℚ) ≤ m + sh)
      have z1 := rnd_le_of_rep f32 f32_p (rep32_pow (n := 60)) (by norm_num at s1 ⊢; linarith : (m : ℚ) + sh ≤ 2 ^ 60)
      have y0 := le_rnd_of_rep f32 f32_p (rep32_nat hm) (by linarith : (m : ℚ) ≤ rnd f32 (m + sh) + r)
      have y1 := rnd_le_of_rep f32 f32_p (rep32_pow (n := 70))
        (by norm_num at z1 ⊢; linarith : rnd f32 ((m : ℚ) + sh) + r ≤ 2 ^ 70)
      have hm0 : (0 : ℚ) ≤ m := by positivity
      refine ⟨rnd f32 (rnd f32 (m + sh) + r), ?_, y0, rnd_rep f32 f32_p _, y1⟩
      rw [FV.div_fin _ _ (by linarith), ofQ32 (by
          rw [abs_of_nonneg q0]; norm_num at q1 ⊢; linarith), FV.mul_fin, ofQ32 (by
          rw [abs_of_nonneg p0]; norm_num at p1 ⊢; linarith), FV.add_fin, ofQ32 (by
          rw [abs_of_nonneg (by linarith)]; norm_num at s1 ⊢; linarith), FV.add_fin, ofQ32 (by
          rw [abs_of_nonneg (by linarith)]; norm_num at z1 ⊢; linarith)]
    obtain ⟨y, ty, y0, yr, y1⟩ := t5
    unfold unbChopLoop at h
    simp only at h
    rw [t1, t2, t3, t4, ty] at h
    obtain ⟨el, a1, h1, h⟩ := M.bind_eq_ok.1 h
    obtain ⟨c, a2, h2, h⟩ := M.bind_eq_ok.1 h
    obtain ⟨ps, a3, h3, h⟩ := M.bind_eq_ok.1 h
    cases h
    have hm0 : (0 : ℚ) ≤ m := by positivity
    have hy0 : 0 ≤ y := by linarith
    obtain ⟨f1, f2⟩ := Prod.mk.inj h1
    subst f2
    have htr : truncQ y = ⌊y⌋ := by unfold truncQ; rw [if_pos hy0]
    have f1 : (if (-W31 : Int) ≤ truncQ y ∧ truncQ y ≤ W31 - 1 then Out.ok (truncQ y) else .ub .floatToInt) = .ok el := f1
    rw [htr] at f1
    split at f1
    · rename_i hrange
      have f1 := Out.ok.inj f1
      subst f1
      have g1 := Int.floor_le y
      have g2 := Int.lt_floor_add_one y
      have g0 : 0 ≤ ⌊y⌋ := Int.floor_nonneg.2 hy0
      obtain ⟨p1, p2⟩ := yr.floor_frac (by decide) hy0
      have t7 : FV.ofInt f32 ⌊y⌋ = .fin (⌊y⌋ : ℚ) := by
        unfold FV.ofInt
        refine ofQ32_rep ?_ p1
        rw [abs_of_nonneg (by exact_mod_cast g0)]
        norm_num at y1 ⊢; linarith
      have t8 : FV.sub f32 (.fin y) (.fin (⌊y⌋ : ℚ)) = .fin (y - ⌊y⌋) := by
        rw [FV.sub_fin]
        refine ofQ32_rep ?_ p2
        rw [abs_of_nonneg (sub_nonneg.2 g1)]
        exact le_trans (b := (1 : ℚ)) (by linarith) (by norm_num)
      rw [t7, t8] at h3
      obtain ⟨i1, i2, i3⟩ := ih (fun x hx => hos x (by simp [hx])) (by linarith) (by linarith) h3
      have hmf : (m : Int) ≤ ⌊y⌋ := Int.le_floor.2 (by exact_mod_cast y0)
      have hsz : toSz ⌊y⌋ = ⌊y⌋.toNat := toSz_of_nonneg g0 (by omega)
      rw [hsz, chop_abs] at h2
      split at h2
      · cases h2
      · rename_i hle
        obtain ⟨k1, k2⟩ := Prod.mk.inj h2
        have k1 := Out.ok.inj k1
        subst k1 k2
        refine ⟨by simp [i1], ?_, ?_⟩
        · intro p hp
          rcases List.mem_cons.1 hp with rfl | hp
          · rw [List.length_take]; omega
          · exact i2 p hp
        · rw [List.flatten_cons, List.append_assoc, i3, List.take_append_drop]
    · cases f1

/-- The whole split, for blobs below 2 GiB. -/
theorem vecUnbounded_ok {m : Nat} (hm : m ≤ 2 ^ 24) {a a' : ABlob} {parts : List ABlob} (hl : a.length < 2 ^ 31)
    (h : vecUnbounded (m : Int) a = (.ok parts, a')) :
    parts.length = countTarget ((a.length - 2) / (m + 2)) (leNat (a.take 2)) ∧ (∀ p ∈ parts, m ≤ p.length) ∧
      parts.flatten ++ a' = a.drop (2 + 2 * parts.length) ∧ 2 + 2 * parts.length ≤ a.length := by
  unfold vecUnbounded at h
  obtain ⟨b, a0, h0, h⟩ := M.bind_eq_ok.1 h
  cases h0
  simp only at h
  have d1 : toSz ((toSz (m : Int) : Int) + 2) = m + 2 := by
    rw [toSz_natCast (by omega), toSz_of_nonneg (by omega) (by omega)]; omega
  rw [d1, if_neg (by omega)] at h
  obtain ⟨co, a1, h1, h⟩ := M.bind_eq_ok.1 h
  have hco := oracle_lt h1
  rw [oracle_abs] at h1
  split at h1
  · cases h1
  · rename_i hge
    obtain ⟨e1, e2⟩ := Prod.mk.inj h1
    have e1 := Out.ok.inj e1
    subst e2
    have d2 : toSz ((BlobLike.size a : Int) - 2) = a.length - 2 := by
      rw [size_abs, toSz_of_nonneg (by omega) (by omega)]; omega
    rw [d2] at h
    set cm := (a.length - 2) / (m + 2) with hcm
    have hct : countTarget cm co ≤ cm := by
      unfold countTarget; simp only; split <;> omega
    have hct2 : countTarget cm co < 65536 := by
      unfold countTarget; simp only
      split
      · rename_i hlt; exact lt_trans hlt (Nat.mod_lt _ (by norm_num))
      · exact Nat.mod_lt _ (by norm_num)
    rw [e1]
    set ct := countTarget cm co with hctd
    clear_value ct cm
    obtain ⟨⟨os, tot⟩, a2, h2, h⟩ := M.bind_eq_ok.1 h
    obtain ⟨i1, i2, i3, i4, i5, i6, _⟩ := sizeOracles_ok le_rfl h2
    rw [List.drop_drop] at i4
    rw [List.length_drop] at i5
    subst i4
    obtain ⟨b', a3, h3, h⟩ := M.bind_eq_ok.1 h
    cases h3
    obtain ⟨fx, a4, h4, h⟩ := M.bind_eq_ok.1 h
    obtain ⟨var, a5, h5, h⟩ := M.bind_eq_ok.1 h
    obtain ⟨f1, f2⟩ := Prod.mk.inj h4
    subst f2
    obtain ⟨g1, g2⟩ := Prod.mk.inj h5
    subst g2
    obtain ⟨f1, f3, f4⟩ := ckInt_eq f1
    obtain ⟨g1, g3, g4⟩ := ckInt_eq g1
    have hmul : ct * (m + 2) ≤ a.length - 2 := by
      calc ct * (m + 2) ≤ cm * (m + 2) := Nat.mul_le_mul_right _ hct
        _ ≤ _ := by rw [hcm]; exact Nat.div_mul_le_self _ _
    have hmul' : ct * (m + 2) = m * ct + 2 * ct := by ring
    have hfx : fx = ((m * ct : Nat) : Int) := by rw [f1]; push_cast; rfl
    set a6 : ABlob := a.drop (2 + 2 * ct) with ha'
    clear_value a6
    have hal : a6.length = a.length - (2 + 2 * ct) := by rw [ha', List.length_drop]
    have hw : wrap32 (BlobLike.size a6 : Int) = (a6.length : Int) :=
      wrap32_of_fits (by rw [size_abs]; omega) (by rw [size_abs]; omega)
    have hPL : m * ct ≤ a6.length := by clear * - hal hmul hmul'; omega
    obtain ⟨v, hv⟩ : ∃ v : Nat, var = (v : Int) :=
      ⟨a6.length - m * ct, by rw [g1, hw, hfx, Nat.cast_sub hPL]⟩
    have hvl0 : var < W31 := lt_of_eq_of_lt g1 g4
    have hvl : v < W31 := by clear * - hvl0 hv; omega
    simp only at h
    rcases Nat.eq_zero_or_pos ct with h0 | hpos
    · subst h0
      have : os = [] := List.length_eq_zero_iff.1 i1
      subst this
      have : (if tot = 0 then List.replicate 0 1 else []) = ([] : List Nat) := by split <;> rfl
      rw [this] at h
      cases h
      simp only [List.length_nil, List.flatten_nil, List.nil_append, List.not_mem_nil, false_implies, implies_true, true_and]
      exact ⟨ha', by omega⟩
    · obtain ⟨T, os', hT, hos', hT1, hT2, hl', ho'⟩ : ∃ (T : Nat) (os' : List Nat),
          (if tot = 0 then (ct : Int) else tot) = (T : Int) ∧ (if tot = 0 then List.replicate ct 1 else os) = os' ∧
          1 ≤ T ∧ T < W31 ∧ os'.length = ct ∧ ∀ o ∈ os', o ≤ 65535 := by
        by_cases h0 : tot = 0
        · refine ⟨ct, _, if_pos h0, if_pos h0, hpos, by omega, by simp, ?_⟩
          intro o ho
          rw [List.mem_replicate] at ho
          omega
        · have := i6 (by omega)
          refine ⟨os.sum, os, by rw [if_neg h0]; omega, if_neg h0, by omega, by omega, i1, i2⟩
      rw [hT, hos', hv] at h
      obtain ⟨k1, k2, k3⟩ := unbChopLoop_ok hT1 hT2 hm hvl ho' le_rfl (by norm_num) h
      rw [hl'] at k1
      rw [k1]
      exact ⟨rfl, k2, k3.trans ha', by clear * - i5 hge; omega⟩

end BS
