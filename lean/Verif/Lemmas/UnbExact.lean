import Verif.Lemmas.GalleyUnb

/-!
# Any split of up to 4095 bytes can be asked of the vector galley over an unbounded stamp
-/

namespace BS
open BlobLike

/-- Multiples of 1/4096 below 4096 are exact in `float`. -/
theorem rep32_dyadic {N : Nat} (h : N < 2 ^ 24) : Rep f32 ((N : ℚ) / 4096) := by
  refine ⟨N, -12, ?_, ?_, by decide⟩
  · rw [pow2_eq, zpow_neg]; norm_num; ring
  · rw [abs_of_nonneg (by omega)]; show (N : Int) < 2 ^ 24; exact_mod_cast h

/-- With the oracles adding up to 4096, nothing is rounded. -/
theorem elfQ_exact {m var o R : Nat} (ho : o ≤ 4096) (h : m * 4096 + o * var + R < 2 ^ 24) :
    elfQ m 4096 var o ((R : ℚ) / 4096) = ((m * 4096 + o * var + R : Nat) : ℚ) / 4096 := by
  have e1 : rnd f32 ((4096 : Nat) : ℚ) = 4096 := by
    rw [rnd_of_rep (rep32_nat (by norm_num))]; norm_num
  have e2 : rnd f32 ((o : ℚ) / 4096) = (o : ℚ) / 4096 := rnd_of_rep (rep32_dyadic (by omega))
  have e3 : (o : ℚ) / 4096 * var = ((o * var : Nat) : ℚ) / 4096 := by push_cast; ring
  have e4 : (m : ℚ) + ((o * var : Nat) : ℚ) / 4096 = ((m * 4096 + o * var : Nat) : ℚ) / 4096 := by
    push_cast; ring
  have e5 : ((m * 4096 + o * var : Nat) : ℚ) / 4096 + (R : ℚ) / 4096 =
      ((m * 4096 + o * var + R : Nat) : ℚ) / 4096 := by push_cast; ring
  have d1 := rnd_of_rep (rep32_dyadic (N := o * var) (by omega))
  have d2 := rnd_of_rep (rep32_dyadic (N := m * 4096 + o * var) (lt_of_le_of_lt (Nat.le_add_right _ _) h))
  have d3 := rnd_of_rep (rep32_dyadic h)
  unfold elfQ shareQ
  rw [e1, e2, e3, d1, e4, d2, e5, d3]

/-- Oracles for given sizes above the minimum, of which `R / 4096` is carried along. -/
def splitOracles (var : Nat) : List Nat → Nat → List Nat
  | [], _ => []
  | e :: es, R =>
    let o := (4096 * e - R + (var - 1)) / var
    o :: splitOracles var es (R + o * var - 4096 * e)

theorem splitStep {var e R : Nat} (hR : R < var) (hv : var ≤ 4096) :
    4096 * e ≤ R + (4096 * e - R + (var - 1)) / var * var ∧
    R + (4096 * e - R + (var - 1)) / var * var < 4096 * e + var := by
  rcases Nat.eq_zero_or_pos e with rfl | he
  · have : (4096 * 0 - R + (var - 1)) / var = 0 := Nat.div_eq_of_lt (by omega)
    rw [this]; omega
  · have hd := Nat.div_add_mod' (4096 * e - R + (var - 1)) var
    have hm := Nat.mod_lt (4096 * e - R + (var - 1)) (by omega : 0 < var)
    generalize (4096 * e - R + (var - 1)) / var * var = x at *
    generalize (4096 * e - R + (var - 1)) % var = y at *
    omega

theorem splitOracles_length (var : Nat) (es : List Nat) (R : Nat) : (splitOracles var es R).length = es.length := by
  induction es generalizing R with
  | nil => rfl
  | cons e es ih => simp [splitOracles, ih]

/-- They add up. -/
theorem splitOracles_sum {var : Nat} (hv : var ≤ 4096) (es : List Nat) {R : Nat} (hR : R < var) :
    ∃ R' < var, (splitOracles var es R).sum * var + R = 4096 * es.sum + R' := by
  induction es generalizing R with
  | nil => exact ⟨R, hR, by simp [splitOracles]⟩
  | cons e es ih =>
    obtain ⟨h1, h2⟩ := splitStep (e := e) hR hv
    simp only [splitOracles, List.sum_cons]
    set o := (4096 * e - R + (var - 1)) / var
    obtain ⟨R', hR', h⟩ := ih (R := R + o * var - 4096 * e) (by omega)
    refine ⟨R', hR', ?_⟩
    rw [Nat.add_mul, Nat.mul_add]
    omega

/-- The sizes that come of it. -/
theorem splitOracles_sizes {m var : Nat} (hv : m + var + 1 ≤ 4096) (es : List Nat) {R : Nat} (hR : R < var)
    (hes : es.sum ≤ var) :
    unbSizes m 4096 var (splitOracles var es R) ((R : ℚ) / 4096) = es.map (m + ·) ∧
    ∀ o ∈ splitOracles var es R, o ≤ 4096 := by
  induction es generalizing R with
  | nil => simp [splitOracles, unbSizes]
  | cons e es ih =>
    obtain ⟨h1, h2⟩ := splitStep (e := e) hR (by omega)
    rw [List.sum_cons] at hes
    simp only [splitOracles]
    have ho : (4096 * e - R + (var - 1)) / var ≤ 4096 := by
      rw [Nat.div_le_iff_le_mul_add_pred (by omega)]
      have : 4096 * e ≤ var * 4096 := by omega
      omega
    set o := (4096 * e - R + (var - 1)) / var
    obtain ⟨i1, i2⟩ := ih (R := R + o * var - 4096 * e) (by omega) (by omega)
    have hN : m * 4096 + o * var + R < 2 ^ 24 := by omega
    have he := elfQ_exact (m := m) (var := var) (o := o) (R := R) ho hN
    obtain ⟨R', hR'⟩ : ∃ R', R' = R + o * var - 4096 * e := ⟨_, rfl⟩
    have hN' : m * 4096 + o * var + R = (m + e) * 4096 + R' := by omega
    have hfl : ⌊((m * 4096 + o * var + R : Nat) : ℚ) / 4096⌋ = ((m + e : Nat) : Int) := by
      rw [Int.floor_eq_iff, hN']
      have hq : (R' : ℚ) < 4096 := by exact_mod_cast (by omega : R' < 4096)
      have hq0 : (0 : ℚ) ≤ R' := by positivity
      push_cast
      constructor
      · rw [le_div_iff₀ (by norm_num)]; linarith
      · rw [div_lt_iff₀ (by norm_num)]; linarith
    have hfr : ((m * 4096 + o * var + R : Nat) : ℚ) / 4096 - (((m + e : Nat) : Int) : ℚ) = (R' : ℚ) / 4096 := by
      rw [hN']; push_cast; ring
    refine ⟨?_, ?_⟩
    · simp only [unbSizes, List.map_cons]
      rw [he, hfl, hfr, hR', i1, Int.toNat_natCast]
    · intro x hx
      rcases List.mem_cons.1 hx with rfl | hx
      · exact ho
      · exact i2 x hx

/-- Sizes when nothing is to be distributed. -/
theorem unbSizes_zero {m T : Nat} (hm : m ≤ 2 ^ 24) (os : List Nat) :
    unbSizes m T 0 os 0 = List.replicate os.length m := by
  induction os with
  | nil => rfl
  | cons o os ih =>
    have : elfQ m T 0 o 0 = m := by
      unfold elfQ shareQ
      rw [Nat.cast_zero, mul_zero, rnd_zero, add_zero, add_zero, rnd_of_rep (rep32_nat hm),
        rnd_of_rep (rep32_nat hm)]
    simp only [unbSizes, List.length_cons, List.replicate_succ]
    rw [this]
    have hf : ⌊(m : ℚ)⌋ = (m : Int) := Int.floor_natCast m
    rw [hf]
    simp only [Int.toNat_natCast, Int.cast_natCast, sub_self]
    rw [ih]

/-! ## Reading given oracles -/

/-- Two bytes, least significant first. -/
def twoBytes (o : Nat) : Bytes := [UInt8.ofNat (o % 256), UInt8.ofNat (o / 256)]

theorem oracle_two {o : Nat} (h : o ≤ 65535) (a : ABlob) : (oracle : M ABlob Nat) (twoBytes o ++ a) = (.ok o, a) := by
  rw [oracle_abs, if_neg (by simp [twoBytes])]
  have : leNat (List.take 2 (twoBytes o ++ a)) = o := by
    have e1 : (UInt8.ofNat (o % 256)).toNat = o % 256 := by rw [UInt8.toNat_ofNat']; omega
    have e2 : (UInt8.ofNat (o / 256)).toNat = o / 256 := by rw [UInt8.toNat_ofNat']; omega
    simp only [twoBytes, List.cons_append, List.nil_append, List.take_succ_cons, List.take_zero, leNat]
    rw [e1, e2]; omega
  rw [this]; rfl

theorem sizeOracles_two {os : List Nat} (h : ∀ o ∈ os, o ≤ 65535) {tot : Nat} (ht : tot + os.sum ≤ INT_MAX) (a : ABlob) :
    (sizeOracles os.length (tot : Int) : M ABlob _) ((os.map twoBytes).flatten ++ a) =
      (.ok (os, ((tot + os.sum : Nat) : Int)), a) := by
  induction os generalizing tot with
  | nil => simp [sizeOracles]
  | cons o os ih =>
    rw [List.sum_cons] at ht
    rw [List.length_cons]
    unfold sizeOracles
    rw [List.map_cons, List.flatten_cons, List.append_assoc, M.bind_ok (oracle_two (h o (by simp)) _)]
    have e1 : ∀ x : ABlob, (M.lift (ckInt ((tot : Int) + (o : Int))) : M ABlob Int) x = (.ok ((tot + o : Nat) : Int), x) := by
      intro x
      rw [ckInt_ok (by omega) (by omega)]; push_cast; rfl
    rw [M.bind_ok (e1 _), M.bind_ok (ih (fun o ho => h o (by simp [ho])) (tot := tot + o) (by omega))]
    simp only [M.pure_apply, List.sum_cons]
    rw [show tot + o + os.sum = tot + (o + os.sum) by omega]

/-- Every number of parts can be asked for. -/
theorem countTarget_surj {cm k : Nat} (h1 : 1 ≤ k) (h2 : k ≤ cm) (h3 : cm ≤ 65535) :
    ∃ co ≤ 65535, countTarget cm co = k := by
  refine ⟨((k - 1) * 65535 + (cm - 1)) / cm, ?_, ?_⟩
  · rw [Nat.div_le_iff_le_mul_add_pred (by omega)]
    have : (k - 1) * 65535 ≤ cm * 65535 := Nat.mul_le_mul_right _ (by omega)
    exact Nat.add_le_add_right this _
  · have hd := Nat.div_add_mod' ((k - 1) * 65535 + (cm - 1)) cm
    have hm := Nat.mod_lt ((k - 1) * 65535 + (cm - 1)) (by omega : 0 < cm)
    unfold countTarget
    simp only
    generalize hco : ((k - 1) * 65535 + (cm - 1)) / cm = co at *
    generalize ((k - 1) * 65535 + (cm - 1)) % cm = y at *
    have hlo : (k - 1) * 65535 ≤ cm * co := by rw [Nat.mul_comm cm]; omega
    have hhi : cm * co < (k - 1) * 65535 + 65535 := by rw [Nat.mul_comm cm]; omega
    have hbig : (k - 1) * 65535 ≤ 65534 * 65535 := Nat.mul_le_mul_right _ (by omega)
    have e1 : toSz ((cm : Int) * co) = cm * co := by
      rw [← Nat.cast_mul]; exact toSz_natCast (by omega)
    have e2 : cm * co / 65535 = k - 1 := by
      apply Nat.div_eq_of_lt_le
      · exact hlo
      · rw [Nat.add_mul]; omega
    rw [e1, e2, toSz_of_nonneg (by omega) (by omega), if_neg (by omega)]
    omega

theorem cutSizes_self (ps : List Bytes) (r : Bytes) : cutSizes (ps.map List.length) (ps.flatten ++ r) = ps := by
  induction ps with
  | nil => rfl
  | cons p ps ih => simp [cutSizes, ih]

/-- Any pieces of at least `m` bytes, 4095 bytes in all, are what the galley cuts some blob into. -/
theorem vecUnbounded_exact {m : Nat} (hm : 1 ≤ m) (ps : List ABlob) (hne : ps ≠ []) (hge : ∀ p ∈ ps, m ≤ p.length)
    (hlen : (ps.map List.length).sum ≤ 4095) :
    ∃ hd : Bytes, hd.length = 2 + 2 * ps.length ∧
      (vecUnbounded (m : Int) : M ABlob _) (hd ++ ps.flatten) = (.ok ps, []) := by
  set k := ps.length with hk
  have hk1 : 1 ≤ k := List.length_pos_iff.2 hne
  set L := (ps.map List.length).sum with hL
  have hfl : ps.flatten.length = L := by rw [List.length_flatten]
  -- sizes above the minimum
  obtain ⟨es, hes⟩ : ∃ es : List Nat, ps.map List.length = es.map (m + ·) := by
    refine ⟨ps.map fun p => p.length - m, ?_⟩
    rw [List.map_map]
    refine List.map_congr_left fun p hp => ?_
    have := hge p hp
    simp only [Function.comp]; omega
  have hel : es.length = k := by
    have := congrArg List.length hes; simpa using this.symm
  have hLs : L = m * k + es.sum := by
    rw [hL, hes, ← hel]
    clear hes hel
    induction es with
    | nil => simp
    | cons e es ih => simp only [List.map_cons, List.sum_cons, List.length_cons, ih, Nat.mul_add]; omega
  have hmk : m ≤ m * k := Nat.le_mul_of_pos_right m hk1
  have hkm : k * (m + 2) = m * k + 2 * k := by ring
  set var := es.sum with hvar
  -- the oracles
  obtain ⟨os, T, hT1, hT2, hol, hos, hsum, hsz⟩ : ∃ (os : List Nat) (T : Nat), 1 ≤ T ∧ T ≤ 65536 ∧ os.length = k ∧
      (∀ o ∈ os, o ≤ T ∧ o ≤ 65535) ∧ os.sum = T ∧ unbSizes m T var os 0 = es.map (m + ·) := by
    rcases Nat.eq_zero_or_pos var with h0 | hpos
    · have he0 : es = List.replicate k 0 := by
        rw [List.eq_replicate_iff]
        refine ⟨hel, fun e he => ?_⟩
        have := List.le_sum_of_mem he
        omega
      refine ⟨1 :: List.replicate (k - 1) 0, 1, le_rfl, by norm_num, by simp; omega, ?_, by simp, ?_⟩
      · intro o ho
        rcases List.mem_cons.1 ho with rfl | ho
        · omega
        · have := List.eq_of_mem_replicate ho; omega
      · rw [h0, unbSizes_zero (by omega), he0]
        simp only [List.length_cons, List.length_replicate, List.map_replicate]
        rw [Nat.sub_add_cancel hk1]
        rfl
    · obtain ⟨s1, s2⟩ := splitOracles_sizes (m := m) (var := var) (by omega) es hpos le_rfl
      obtain ⟨R', hR', hs⟩ := splitOracles_sum (var := var) (by omega) es hpos
      have hs' : (splitOracles var es 0).sum = 4096 := by
        rw [← hvar, Nat.add_zero] at hs
        have hdvd : var ∣ R' := (Nat.dvd_add_right (Dvd.intro_left 4096 rfl)).1 (hs ▸ Dvd.intro_left _ rfl)
        have : R' = 0 := Nat.eq_zero_of_dvd_of_lt hdvd hR'
        rw [this, Nat.add_zero] at hs
        exact Nat.eq_of_mul_eq_mul_right hpos hs
      refine ⟨splitOracles var es 0, 4096, by norm_num, by norm_num, by rw [splitOracles_length, hel], ?_, hs', ?_⟩
      · intro o ho; have := s2 o ho; omega
      · have := s1; simpa using this
  clear_value var L k
  -- the count
  obtain ⟨co, hco, hct⟩ := countTarget_surj (cm := (2 + 2 * k + L - 2) / (m + 2)) hk1
    (by rw [Nat.le_div_iff_mul_le (by omega)]; omega)
    (by
      refine le_trans (Nat.div_le_self _ _) ?_
      have : k ≤ m * k := Nat.le_mul_of_pos_left k (by omega)
      omega)
  have htl : ∀ l : List Nat, ((l.map twoBytes).flatten).length = 2 * l.length := by
    intro l
    induction l with
    | nil => rfl
    | cons o l ih => simp only [List.map_cons, List.flatten_cons, List.length_append, ih, twoBytes, List.length_cons, List.length_nil]; omega
  refine ⟨twoBytes co ++ (os.map twoBytes).flatten, ?_, ?_⟩
  · rw [List.length_append, htl, hol]; rfl
  set body : ABlob := ps.flatten with hbody
  clear_value body
  unfold vecUnbounded
  rw [M.bind_ok (M.get_apply _)]
  have hsize : (twoBytes co ++ (os.map twoBytes).flatten ++ body).length = 2 + 2 * k + L := by
    rw [List.length_append, List.length_append, htl, hol, hfl]; rfl
  have d1 : toSz ((toSz (m : Int) : Int) + 2) = m + 2 := by
    rw [toSz_natCast (by omega), toSz_of_nonneg (by omega) (by omega)]; omega
  have d2 : toSz ((BlobLike.size (twoBytes co ++ (os.map twoBytes).flatten ++ body) : Int) - 2) = 2 + 2 * k + L - 2 := by
    rw [size_abs, hsize, toSz_of_nonneg (by omega) (by have : k ≤ m * k := Nat.le_mul_of_pos_left k (by omega); omega)]; omega
  simp only
  rw [d1, d2, if_neg (by omega), List.append_assoc, M.bind_ok (oracle_two hco _), hct, ← hol]
  have e3 := sizeOracles_two (os := os) (fun o h => (hos o h).2) (tot := 0) (by omega) body
  rw [Nat.zero_add, hsum, Nat.cast_zero] at e3
  rw [M.bind_ok (show _ = _ from e3), M.bind_ok (M.get_apply _)]
  simp only
  rw [if_neg (by omega), if_neg (by omega), hol]
  have e5 : (M.lift (ckInt ((m : Int) * (k : Int))) : M ABlob Int) body = (.ok ((m * k : Nat) : Int), body) := by
    have : (m : Int) * (k : Int) = ((m * k : Nat) : Int) := by push_cast; rfl
    rw [this, ckInt_ok (by omega) (by omega)]; rfl
  rw [M.bind_ok e5]
  have hv1 : var ≤ 4095 := le_trans (hLs ▸ Nat.le_add_left _ _) hlen
  have hv2 : (var : Int) < W31 := lt_of_le_of_lt (Int.ofNat_le.2 hv1) (by decide)
  have e6 : (M.lift (ckInt (wrap32 (BlobLike.size body : Int) - ((m * k : Nat) : Int))) : M ABlob Int) body
      = (.ok (var : Int), body) := by
    have hw : wrap32 (BlobLike.size body : Int) = (L : Int) := by
      rw [size_abs, hfl]; exact wrap32_of_fits (by omega) (by omega)
    rw [hw, show (L : Int) - ((m * k : Nat) : Int) = (var : Int) by omega,
      ckInt_ok (le_trans (by norm_num) (Int.natCast_nonneg var))
        hv2]; rfl
  rw [M.bind_ok e6]
  have hsz' : unbSizes m T var os 0 = ps.map List.length := hsz.trans hes.symm
  rw [unbChopLoop_abs hT1 (by omega) (by omega) (by omega) os hos 0 le_rfl (by norm_num) body (by rw [hsz', hfl, hL]), hsz',
    List.drop_eq_nil_of_le (by rw [hfl, hL])]
  have := cutSizes_self ps []
  rw [List.append_nil, ← hbody] at this
  rw [this]

end BS
