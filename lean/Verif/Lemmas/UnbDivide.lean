import Verif.Lemmas.UnbExact

/-!
# Divisions of longer data that can be asked of the vector galley over an unbounded stamp
-/

namespace BS
open BlobLike

theorem unbSizes_take {m T var : Nat} (os : List Nat) (r : ℚ) (j : Nat) :
    (unbSizes m T var os r).take j = unbSizes m T var (os.take j) r := by
  induction os generalizing r j with
  | nil => simp [unbSizes]
  | cons o os ih =>
    cases j with
    | zero => simp [unbSizes]
    | succ j => simp only [unbSizes, List.take_succ_cons, ih]

theorem eq_of_take_sums {l l' : List Nat} (hl : l.length = l'.length)
    (h : ∀ j ≤ l.length, (l.take j).sum = (l'.take j).sum) : l = l' := by
  induction l generalizing l' with
  | nil => exact (List.length_eq_zero_iff.1 hl.symm).symm
  | cons x l ih =>
    cases l' with
    | nil => cases hl
    | cons y l' =>
      have h1 := h 1 (by simp)
      simp only [List.take_succ_cons, List.take_zero, List.sum_cons, List.sum_nil] at h1
      have hxy : x = y := by omega
      subst hxy
      rw [ih (by simpa using hl) fun j hj => ?_]
      have := h (j + 1) (by simpa using hj)
      simp only [List.take_succ_cons, List.sum_cons] at this
      omega

/-- Oracles that put every boundary but the last half way between two bytes. -/
def halfOracles (e0 : Nat) (mid : List Nat) (ek : Nat) : List Nat := (2 * e0 + 1) :: (mid.map (2 * ·) ++ [2 * ek - 1])

theorem sum_map_two (l : List Nat) : (l.map (2 * ·)).sum = 2 * l.sum := by
  induction l with
  | nil => rfl
  | cons x l ih => simp only [List.map_cons, List.sum_cons, ih]; omega

theorem sum_map_add (m : Nat) (l : List Nat) : (l.map (m + ·)).sum = m * l.length + l.sum := by
  induction l with
  | nil => rfl
  | cons x l ih => simp only [List.map_cons, List.sum_cons, List.length_cons, ih, Nat.mul_add]; omega

theorem halfOracles_sum {e0 : Nat} {mid : List Nat} {ek : Nat} (h : 1 ≤ ek) :
    (halfOracles e0 mid ek).sum = 2 * (e0 + mid.sum + ek) := by
  unfold halfOracles
  simp only [List.sum_cons, List.sum_append, sum_map_two, List.sum_nil]
  omega

/-- The sizes computed from them: the last may be one byte short. -/
theorem halfOracles_sizes {m e0 : Nat} {mid : List Nat} {ek : Nat} (hk : 1 ≤ ek)
    (hL : m * (mid.length + 2) + (e0 + mid.sum + ek) ≤ 1500000) (hmid : mid.length ≤ 65533) :
    ∃ d ≤ 1, unbSizes m (2 * (e0 + mid.sum + ek)) (e0 + mid.sum + ek) (halfOracles e0 mid ek) 0 =
      (e0 :: mid).map (m + ·) ++ [m + ek - d] := by
  obtain ⟨var, hvar⟩ : ∃ var, var = e0 + mid.sum + ek := ⟨_, rfl⟩
  rw [← hvar] at hL ⊢
  have hmk : m ≤ m * (mid.length + 2) := Nat.le_mul_of_pos_right m (by omega)
  have hos : ∀ o ∈ halfOracles e0 mid ek, o ≤ 2 * var := by
    intro o ho
    unfold halfOracles at ho
    rcases List.mem_cons.1 ho with rfl | ho
    · omega
    · rcases List.mem_append.1 ho with ho | ho
      · obtain ⟨e, he, rfl⟩ := List.mem_map.1 ho
        have := List.le_sum_of_mem he
        show 2 * e ≤ _
        omega
      · simp only [List.mem_singleton] at ho
        omega
  have hsum : ∀ j : Nat, _ := fun j => unbSizes_sum (m := m) (T := 2 * var) (var := var) (by omega)
    (by show _ ≤ 2147483647; omega) (by omega) (by omega) ((halfOracles e0 mid ek).take j)
    (fun o ho => hos o (List.mem_of_mem_take ho)) 0 le_rfl (by norm_num)
  have hvq : (0 : ℚ) < var := by exact_mod_cast (by omega : 0 < var)
  have hshare : ∀ O : Nat, (O : ℚ) / ((2 * var : Nat) : ℚ) * var = (O : ℚ) / 2 := by
    intro O
    push_cast
    field_simp
  -- rounding errors
  have herr : ∀ (O j : Nat), O ≤ 2 * var → j ≤ mid.length + 2 →
      ((O : ℚ) / 2 * (52 / 10) + j * (m * (21 / 10) + 12 / 10)) / 2 ^ 24 < 1 / 2 := by
    intro O j hO hj
    have h1 : (O : ℚ) / 2 ≤ var := by
      have : (O : ℚ) ≤ 2 * var := by exact_mod_cast hO
      linarith
    have h2 : (j : ℚ) ≤ mid.length + 2 := by exact_mod_cast hj
    have h3 : (m : ℚ) * (mid.length + 2) + var ≤ 1500000 := by exact_mod_cast hL
    have h4 : (mid.length : ℚ) ≤ 65533 := by exact_mod_cast hmid
    have h5 : (j : ℚ) * m ≤ (mid.length + 2) * m := mul_le_mul_of_nonneg_right h2 (by positivity)
    rw [div_lt_iff₀ (by norm_num)]
    nlinarith
  have hlen : (halfOracles e0 mid ek).length = mid.length + 2 := by simp [halfOracles]
  -- the first ones
  have htk : ∀ j ≤ mid.length, ((halfOracles e0 mid ek).take (j + 1)).sum = 2 * (e0 + (mid.take j).sum) + 1 := by
    intro j hj
    unfold halfOracles
    rw [List.take_succ_cons, List.take_append_of_le_length (by simpa using hj), List.sum_cons, ← List.map_take, sum_map_two]
    omega
  have hfirst : (unbSizes m (2 * var) var (halfOracles e0 mid ek) 0).take (mid.length + 1) = (e0 :: mid).map (m + ·) := by
    refine eq_of_take_sums ?_ fun j hj => ?_
    · rw [List.length_take, unbSizes_length, hlen]; simp
    · rw [List.length_take, unbSizes_length, hlen] at hj
      cases j with
      | zero => simp
      | succ j =>
        rw [List.take_take, Nat.min_eq_left (by omega), unbSizes_take, ← List.map_take, List.take_succ_cons, sum_map_add]
        obtain ⟨s1, s2⟩ := hsum (j + 1)
        have hO := htk j (by omega)
        rw [hshare, hO, List.length_take, hlen, Nat.min_eq_left (by omega)] at s1 s2
        have hpre : (mid.take j).sum ≤ mid.sum := (List.take_sublist j mid).sum_le_sum (by simp)
        have := herr (2 * (e0 + (mid.take j).sum) + 1) (j + 1) (by omega) (by omega)
        set S := (unbSizes m (2 * var) var ((halfOracles e0 mid ek).take (j + 1)) 0).sum
        set err := (((2 * (e0 + (mid.take j).sum) + 1 : Nat) : ℚ) / 2 * (52 / 10) + ((j + 1 : Nat) : ℚ) * (m * (21 / 10) + 12 / 10)) / 2 ^ 24
        push_cast at s1 s2
        have t1 : (S : ℚ) < ((m * (j + 1) + (e0 + (mid.take j).sum) + 1 : Nat) : ℚ) := by push_cast; linarith
        have t2 : ((m * (j + 1) + (e0 + (mid.take j).sum) : Nat) : ℚ) < ((S + 1 : Nat) : ℚ) := by push_cast; linarith
        have t1 : S < m * (j + 1) + (e0 + (mid.take j).sum) + 1 := by exact_mod_cast t1
        have t2 : m * (j + 1) + (e0 + (mid.take j).sum) < S + 1 := by exact_mod_cast t2
        rw [List.length_cons, List.length_take, Nat.min_eq_left (by omega : j ≤ mid.length), List.sum_cons]
        omega
  -- the last one
  obtain ⟨x, hx⟩ : ∃ x, unbSizes m (2 * var) var (halfOracles e0 mid ek) 0 = (e0 :: mid).map (m + ·) ++ [x] := by
    have hd := List.take_append_drop (mid.length + 1) (unbSizes m (2 * var) var (halfOracles e0 mid ek) 0)
    have hl : ((unbSizes m (2 * var) var (halfOracles e0 mid ek) 0).drop (mid.length + 1)).length = 1 := by
      rw [List.length_drop, unbSizes_length, hlen]; omega
    obtain ⟨x, hx⟩ := List.length_eq_one_iff.1 hl
    exact ⟨x, by rw [← hfirst, ← hx, hd]⟩
  obtain ⟨s1, s2⟩ := hsum (mid.length + 2)
  rw [List.take_of_length_le hlen.le, hshare, halfOracles_sum hk, ← hvar, hlen, hx] at s1 s2
  have := herr (2 * var) (mid.length + 2) le_rfl le_rfl
  set err := (((2 * var : Nat) : ℚ) / 2 * (52 / 10) + ((mid.length + 2 : Nat) : ℚ) * (m * (21 / 10) + 12 / 10)) / 2 ^ 24
  rw [List.sum_append, sum_map_add, List.length_cons, List.sum_cons, List.sum_singleton] at s1 s2
  push_cast at s1 s2
  have hvq' : (var : ℚ) = e0 + mid.sum + ek := by exact_mod_cast hvar
  have t1 : (x : ℚ) < ((m + ek + 1 : Nat) : ℚ) := by push_cast; linarith
  have t2 : ((m + ek : Nat) : ℚ) < ((x + 2 : Nat) : ℚ) := by push_cast; linarith
  have t1 : x < m + ek + 1 := by exact_mod_cast t1
  have t2 : m + ek < x + 2 := by exact_mod_cast t2
  refine ⟨m + ek - x, by omega, ?_⟩
  rw [hx, show m + ek - (m + ek - x) = x by omega]

theorem twoBytes_flatten (l : List Nat) : ((l.map twoBytes).flatten).length = 2 * l.length := by
  induction l with
  | nil => rfl
  | cons o l ih =>
    simp only [List.map_cons, List.flatten_cons, List.length_append, ih, twoBytes, List.length_cons, List.length_nil]; omega

/-- What the galley does with given oracles, whatever the data. -/
theorem vecUnbounded_given {m T var : Nat} {os : List Nat} (hk1 : 1 ≤ os.length) (hT1 : 1 ≤ T) (hT2 : T ≤ INT_MAX)
    (hos : ∀ o ∈ os, o ≤ T ∧ o ≤ 65535) (hsum : os.sum = T) {L : Nat} (hLs : L = m * os.length + var) (hL : L ≤ 4194304)
    (hcm : (2 * os.length + L) / (m + 2) ≤ 65535) (hfit : (unbSizes m T var os 0).sum ≤ L) :
    ∃ hd : Bytes, hd.length = 2 + 2 * os.length ∧ ∀ body : ABlob, body.length = L →
      (vecUnbounded (m : Int) : M ABlob _) (hd ++ body) =
        (.ok (cutSizes (unbSizes m T var os 0) body), body.drop (unbSizes m T var os 0).sum) := by
  obtain ⟨k, hk⟩ : ∃ k, k = os.length := ⟨_, rfl⟩
  rw [← hk] at hk1 hLs hcm
  have hmk : m ≤ m * k := Nat.le_mul_of_pos_right m hk1
  have hv : var ≤ 4194304 := by omega
  have hkm : k * (m + 2) = m * k + 2 * k := by ring
  have hk65 : k ≤ 65535 := le_trans ((Nat.le_div_iff_mul_le (by omega)).2 (by omega)) hcm
  obtain ⟨co, hco, hct⟩ := countTarget_surj (cm := (2 + 2 * k + L - 2) / (m + 2)) hk1
    (by rw [Nat.le_div_iff_mul_le (by omega)]; omega)
    (by rwa [show 2 + 2 * k + L - 2 = 2 * k + L by omega])
  refine ⟨twoBytes co ++ (os.map twoBytes).flatten, ?_, fun body hbody => ?_⟩
  · rw [List.length_append, twoBytes_flatten]; rfl
  unfold vecUnbounded
  rw [M.bind_ok (M.get_apply _)]
  have hsize : (twoBytes co ++ (os.map twoBytes).flatten ++ body).length = 2 + 2 * k + L := by
    rw [List.length_append, List.length_append, twoBytes_flatten, ← hk, hbody]; rfl
  have d1 : toSz ((toSz (m : Int) : Int) + 2) = m + 2 := by
    rw [toSz_natCast (by omega), toSz_of_nonneg (by omega) (by omega)]; omega
  have d2 : toSz ((BlobLike.size (twoBytes co ++ (os.map twoBytes).flatten ++ body) : Int) - 2) = 2 + 2 * k + L - 2 := by
    rw [size_abs, hsize, toSz_of_nonneg (by omega) (by omega)]; omega
  simp only
  rw [d1, d2, if_neg (by omega), List.append_assoc, M.bind_ok (oracle_two hco _), hct, hk]
  have hT3 : T ≤ 2147483647 := hT2
  have e3 := sizeOracles_two (os := os) (fun o h => (hos o h).2) (tot := 0) (by omega) body
  rw [Nat.zero_add, hsum, Nat.cast_zero] at e3
  rw [M.bind_ok (show _ = _ from e3), M.bind_ok (M.get_apply _)]
  simp only
  rw [if_neg (by omega), if_neg (by omega), ← hk]
  have e5 : (M.lift (ckInt ((m : Int) * (k : Int))) : M ABlob Int) body = (.ok ((m * k : Nat) : Int), body) := by
    have : (m : Int) * (k : Int) = ((m * k : Nat) : Int) := by push_cast; rfl
    rw [this, ckInt_ok (by omega) (by omega)]; rfl
  rw [M.bind_ok e5]
  have e6 : (M.lift (ckInt (wrap32 (BlobLike.size body : Int) - ((m * k : Nat) : Int))) : M ABlob Int) body
      = (.ok (var : Int), body) := by
    have hw : wrap32 (BlobLike.size body : Int) = (L : Int) := by
      rw [size_abs, hbody]; exact wrap32_of_fits (by omega) (by omega)
    rw [hw, show (L : Int) - ((m * k : Nat) : Int) = (var : Int) by omega,
      ckInt_ok (le_trans (by norm_num) (Int.natCast_nonneg var)) (lt_of_le_of_lt (Int.ofNat_le.2 hv) (by norm_num))]; rfl
  rw [M.bind_ok e6]
  exact unbChopLoop_abs hT1 hT2 (by omega) (by omega) os hos 0 le_rfl (by norm_num) body (by rwa [hbody])

/-- Every division into two or more parts of at most 32767 bytes above the minimum, of which the last is longer than the
minimum, is what some oracles ask for, except that the last byte may be left over. -/
theorem vecUnbounded_divide {m : Nat} {ls : List Nat} {l : Nat} (hne : ls ≠ []) (hge : ∀ x ∈ ls, m ≤ x) (hl : m < l)
    (hle : ∀ x ∈ ls, x ≤ m + 32767) (hl' : l ≤ m + 32767) (hL : ls.sum + l ≤ 1500000)
    (hcm : (2 * (ls.length + 1) + (ls.sum + l)) / (m + 2) ≤ 65535) :
    ∃ (hd : Bytes) (d : Nat), hd.length = 2 + 2 * (ls.length + 1) ∧ d ≤ 1 ∧ ∀ body : ABlob, body.length = ls.sum + l →
      (vecUnbounded (m : Int) : M ABlob _) (hd ++ body) =
        (.ok (cutSizes (ls ++ [l - d]) body), body.drop (ls.sum + (l - d))) := by
  obtain ⟨es, hes⟩ : ∃ es : List Nat, ls = es.map (m + ·) := by
    refine ⟨ls.map (· - m), ?_⟩
    rw [List.map_map]
    conv_lhs => rw [← List.map_id ls]
    refine List.map_congr_left fun x hx => ?_
    have := hge x hx
    simp only [id, Function.comp]; omega
  obtain ⟨e0, mid, rfl⟩ : ∃ e0 mid, es = e0 :: mid := by
    cases es with
    | nil => exact absurd hes hne
    | cons e0 mid => exact ⟨e0, mid, rfl⟩
  obtain ⟨ek, rfl⟩ : ∃ ek, l = m + ek := ⟨l - m, by omega⟩
  have hsum : ls.sum = m * (mid.length + 1) + (e0 + mid.sum) := by rw [hes, sum_map_add, List.length_cons, List.sum_cons]
  have hlen : ls.length = mid.length + 1 := by rw [hes]; simp
  have hkm : (mid.length + 2) * (m + 2) = m * (mid.length + 1) + m + 2 * (mid.length + 2) := by ring
  have hk65 : mid.length + 2 ≤ 65535 := by
    refine le_trans ((Nat.le_div_iff_mul_le (by omega)).2 ?_) hcm
    omega
  have hmul : m * (mid.length + 2) = m * (mid.length + 1) + m := by ring
  obtain ⟨d, hd1, hsz⟩ := halfOracles_sizes (m := m) (e0 := e0) (mid := mid) (ek := ek) (by omega) (by omega) (by omega)
  have hsz' : unbSizes m (2 * (e0 + mid.sum + ek)) (e0 + mid.sum + ek) (halfOracles e0 mid ek) 0 = ls ++ [m + ek - d] := by
    rw [hsz, hes]
  have holen : (halfOracles e0 mid ek).length = ls.length + 1 := by simp [halfOracles, hlen]
  have hos : ∀ o ∈ halfOracles e0 mid ek, o ≤ 2 * (e0 + mid.sum + ek) ∧ o ≤ 65535 := by
    intro o ho
    have hb : ∀ e ∈ e0 :: mid, e ≤ 32767 := by
      intro e he
      have := hle (m + e) (by rw [hes]; exact List.mem_map_of_mem he)
      omega
    unfold halfOracles at ho
    rcases List.mem_cons.1 ho with rfl | ho
    · have := hb e0 (by simp); omega
    · rcases List.mem_append.1 ho with ho | ho
      · obtain ⟨e, he, rfl⟩ := List.mem_map.1 ho
        have := hb e (by simp [he])
        have := List.le_sum_of_mem he
        show 2 * e ≤ _ ∧ 2 * e ≤ _
        omega
      · simp only [List.mem_singleton] at ho
        omega
  obtain ⟨hd, g1, g2⟩ := vecUnbounded_given (m := m) (T := 2 * (e0 + mid.sum + ek)) (var := e0 + mid.sum + ek)
    (os := halfOracles e0 mid ek) (L := ls.sum + (m + ek)) (by omega) (by omega) (by show _ ≤ 2147483647; omega) hos
    (halfOracles_sum (by omega)) (by rw [holen, hlen, hsum, hmul]; omega) (by omega) (by rw [holen]; exact hcm)
    (by rw [hsz', List.sum_append, List.sum_singleton]; omega)
  refine ⟨hd, d, by rw [g1, holen], hd1, fun body hb => ?_⟩
  rw [g2 body hb, hsz', List.sum_append, List.sum_singleton]

/-- One part takes all. -/
theorem vecUnbounded_single {m : Nat} {l : Nat} (hl : m ≤ l) (hL : l ≤ 1500000) (hcm : (2 + l) / (m + 2) ≤ 65535) :
    ∃ hd : Bytes, hd.length = 4 ∧ ∀ body : ABlob, body.length = l →
      (vecUnbounded (m : Int) : M ABlob _) (hd ++ body) = (.ok [body], []) := by
  have hsz : unbSizes m 1 (l - m) [1] 0 = [l] := by
    have e1 : rnd f32 ((1 : Nat) : ℚ) = 1 := by rw [rnd_of_rep (rep32_nat (by norm_num))]; norm_num
    have e2 : rnd f32 (1 : ℚ) = 1 := by simpa using e1
    have e3 : rnd f32 ((l - m : Nat) : ℚ) = ((l - m : Nat) : ℚ) := rnd_of_rep (rep32_nat (by omega))
    have e4 : rnd f32 (l : ℚ) = l := rnd_of_rep (rep32_nat (by omega))
    have e5 : (m : ℚ) + ((l - m : Nat) : ℚ) = l := by rw [Nat.cast_sub hl]; ring
    have : elfQ m 1 (l - m) 1 0 = l := by
      unfold elfQ shareQ
      rw [e1, Nat.cast_one, div_one, e2, one_mul, e3, e5, e4, add_zero, e4]
    simp only [unbSizes, this]
    rw [Int.floor_natCast, Int.toNat_natCast]
  obtain ⟨hd, g1, g2⟩ := vecUnbounded_given (m := m) (T := 1) (var := l - m) (os := [1]) (L := l) (by simp) le_rfl
    (by decide) (by simp) (by simp) (by simp; omega) (by omega) (by simpa using hcm) (by rw [hsz]; simp)
  refine ⟨hd, by simpa using g1, fun body hb => ?_⟩
  rw [g2 body hb, hsz]
  simp only [cutSizes, List.sum_singleton]
  rw [List.take_of_length_le hb.le, List.drop_of_length_le hb.le]

end BS
