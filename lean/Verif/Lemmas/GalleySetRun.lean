import Verif.Lemmas.GalleySet

/-!
# Lemmas about the set galley: running it
-/

namespace BS
open BlobLike

local notation "R" => rnd f64

/-! ## Reading the oracles -/

/-- Does the stamp take an oracle? (`several`: is there more than one unbounded stamp?) -/
def SizePair.takesOracle (several : Bool) (s : SizePair) : Bool := s.var || (s.unb && several)

/-- Every stamp with its oracle; a fixed stamp counts as 0, a lone unbounded one as 65535. -/
def rowsOf (several : Bool) : List SizePair → Bytes → List Row
  | [], _ => []
  | s :: ss, a =>
    if s.takesOracle several then (s, leNat (a.take 2)) :: rowsOf several ss (a.drop 2)
    else (s, if s.unb then 65535 else 0) :: rowsOf several ss a

theorem rowsOf_take {several : Bool} {s : SizePair} (h : s.takesOracle several = true) (ss : List SizePair)
    (a : Bytes) :
    rowsOf several (s :: ss) a = (s, leNat (a.take 2)) :: rowsOf several ss (a.drop 2) := by
  show (if s.takesOracle several then _ else _) = _
  rw [if_pos h]

theorem rowsOf_skip {several : Bool} {s : SizePair} (h : s.takesOracle several = false) (ss : List SizePair)
    (a : Bytes) :
    rowsOf several (s :: ss) a = (s, if s.unb then 65535 else 0) :: rowsOf several ss a := by
  show (if s.takesOracle several then _ else _) = _
  rw [h, if_neg (by simp)]

theorem rowsOf_fst (several : Bool) (ss : List SizePair) (a : Bytes) :
    (rowsOf several ss a).map Prod.fst = ss := by
  induction ss generalizing a with
  | nil => rfl
  | cons s ss ih => unfold rowsOf; split <;> simp [ih]

theorem leNat_two (a : Bytes) : leNat (a.take 2) ≤ 65535 := by
  have := leNat_take_lt a 2
  omega

theorem rowsOf_le (several : Bool) (ss : List SizePair) (a : Bytes) :
    ∀ x ∈ rowsOf several ss a, x.2 ≤ 65535 := by
  induction ss generalizing a with
  | nil => simp [rowsOf]
  | cons s ss ih =>
    unfold rowsOf
    intro x hx
    split at hx
    · rcases List.mem_cons.1 hx with rfl | hx
      · exact leNat_two a
      · exact ih _ x hx
    · rcases List.mem_cons.1 hx with rfl | hx
      · dsimp only; split <;> omega
      · exact ih _ x hx

theorem ofInt64_int {i : Int} (h1 : -W31 ≤ i) (h2 : i ≤ W31) : FV.ofInt f64 i = .fin (i : ℚ) := by
  unfold FV.ofInt
  refine ofQ64_rep ?_ (rep64_int (by rw [abs_le]; omega))
  have a1 : (-W31 : ℚ) ≤ i := by exact_mod_cast h1
  have a2 : (i : ℚ) ≤ W31 := by exact_mod_cast h2
  rw [abs_le]; norm_num at *; constructor <;> linarith

/-- The loop over the stamps that reads the oracles. -/
theorem setModLoop_abs {nUnb : Nat} (ss : List SizePair) (hss : ∀ s ∈ ss, s.Ok) (a : ABlob)
    (hl : 2 * ss.countP (SizePair.takesOracle (decide (1 < nUnb))) ≤ a.length)
    {p u : ℚ} {A : Int} {B : Nat} (hp0 : 0 ≤ p) (hA0 : 0 ≤ A) (hp : p ≤ A) (hA : A + dSum ss ≤ INT_MAX)
    (hu0 : 0 ≤ u) (hu : u ≤ B) (hB : B + ss.countP SizePair.unb ≤ INT_MAX) :
    setModLoop nUnb ss (.fin p) (.fin u) a =
      (.ok ⟨(rowsOf (decide (1 < nUnb)) ss a).map fun x => .fin (modQ x.2),
        .fin (sumW (varW (rowsOf (decide (1 < nUnb)) ss a)) p),
        .fin (sumW (unbW (rowsOf (decide (1 < nUnb)) ss a)) u)⟩,
      a.drop (2 * ss.countP (SizePair.takesOracle (decide (1 < nUnb))))) := by
  induction ss generalizing a p u A B with
  | nil => simp [setModLoop, rowsOf, varW, unbW, sumW]
  | cons s ss ih =>
    have hs := hss s (by simp)
    have hss' : ∀ x ∈ ss, x.Ok := fun x hx => hss x (by simp [hx])
    have d0 := dSum_nonneg hss'
    have hpB : p ≤ 2147483647 := by
      have := hp; have h2 : (A : ℚ) ≤ ((INT_MAX : Int) : ℚ) := by
        have hd := dSum_nonneg hss
        exact_mod_cast (by omega : A ≤ INT_MAX)
      push_cast at h2; linarith
    have huB : u ≤ 2147483647 := by
      have h2 : (B : ℚ) ≤ ((INT_MAX : Nat) : ℚ) := by exact_mod_cast (by omega : B ≤ INT_MAX)
      push_cast at h2; linarith
    unfold setModLoop
    rcases hs.cases with ⟨e1, e2, e3, e4⟩ | ⟨e1, e2, e3, e4⟩ | ⟨e1, e2, e3, e4, e5⟩
    · have ht : s.takesOracle (decide (1 < nUnb)) = false := by simp [SizePair.takesOracle, e2, e3]
      rw [List.countP_cons_of_neg (by simp [ht])] at hl ⊢
      simp only [dSum, e3] at hA
      rw [List.countP_cons_of_neg (by simp [e2])] at hB
      rw [e1, if_pos rfl, M.bind_ok (ih hss' a hl hp0 hA0 hp (by simpa using hA) hu0 hu hB)]
      rw [rowsOf_skip ht, e2, if_neg (by simp)]
      simp [varW, unbW, e2, e3, modQ_zero]
    · rw [e1, if_neg (by simp), e2, if_pos rfl]
      simp only [dSum, e3] at hA
      rw [List.countP_cons_of_pos e2] at hB
      by_cases hn : nUnb ≤ 1
      · rw [if_pos hn]
        have ht : s.takesOracle (decide (1 < nUnb)) = false := by
          simp [SizePair.takesOracle, e2, e3]; omega
        rw [List.countP_cons_of_neg (by simp [ht])] at hl ⊢
        have hadd : FV.add f64 (.fin u) (.fin 1) = .fin (R (u + 1)) := by
          rw [FV.add_fin, ofQ64]
          rw [abs_of_nonneg (by linarith)]; norm_num; linarith
        have hR : R (u + 1) ≤ ((B + 1 : Nat) : ℚ) :=
          rnd_le_of_rep f64 f64_p (rep64_nat (by omega)) (by push_cast; linarith)
        rw [hadd, M.bind_ok (ih hss' a hl hp0 hA0 hp (by simpa using hA) (rnd_nonneg _ (by linarith)) hR
          (by omega))]
        rw [rowsOf_skip ht, e2, if_pos rfl]
        simp [varW, unbW, e2, e3, modQ_max, sumW]
      · rw [if_neg hn]
        have ht : s.takesOracle (decide (1 < nUnb)) = true := by
          simp [SizePair.takesOracle, e2]; omega
        rw [List.countP_cons_of_pos (by simp [ht])] at hl ⊢
        have ho := oracle_abs a
        rw [if_neg (by omega)] at ho
        have hle := leNat_two a
        rw [M.bind_ok ho, modifierOf_eq hle]
        have m0 := modQ_nonneg (leNat (a.take 2))
        have m1 := modQ_le hle
        have hadd : FV.add f64 (.fin u) (.fin (modQ (leNat (a.take 2)))) = .fin (R (u + modQ (leNat (a.take 2)))) := by
          rw [FV.add_fin, ofQ64]
          rw [abs_of_nonneg (by linarith)]; norm_num; linarith
        have hR : R (u + modQ (leNat (a.take 2))) ≤ ((B + 1 : Nat) : ℚ) :=
          rnd_le_of_rep f64 f64_p (rep64_nat (by omega)) (by push_cast; linarith)
        rw [hadd, M.bind_ok (ih hss' (a.drop 2) (by rw [List.length_drop]; omega) hp0 hA0 hp (by simpa using hA)
          (rnd_nonneg _ (by linarith)) hR (by omega))]
        rw [rowsOf_take ht]
        simp only [varW, unbW, e2, e3, sumW, List.map_cons, if_true, M.pure_apply, List.drop_drop,
          Bool.false_eq_true, if_false]
        rw [show 2 * (ss.countP (SizePair.takesOracle (decide (1 < nUnb))) + 1)
          = 2 + 2 * ss.countP (SizePair.takesOracle (decide (1 < nUnb))) by ring]
    · rw [e1, if_neg (by simp), e2, if_neg (by simp)]
      simp only [dSum, e3, if_true] at hA
      rw [List.countP_cons_of_neg (by simp [e2])] at hB
      have ht : s.takesOracle (decide (1 < nUnb)) = true := by simp [SizePair.takesOracle, e3]
      rw [List.countP_cons_of_pos (by simp [ht])] at hl ⊢
      have ho := oracle_abs a
      rw [if_neg (by omega)] at ho
      have hle := leNat_two a
      rw [M.bind_ok ho, modifierOf_eq hle]
      have hck : (M.lift (ckInt (s.2 - s.1)) : M ABlob Int) (a.drop 2) = (.ok (s.2 - s.1), a.drop 2) := by
        obtain ⟨h0, _, _⟩ := hs
        rw [ckInt_ok (by omega) (by omega)]; rfl
      rw [M.bind_ok hck]
      obtain ⟨w0, w1, _, _, _⟩ := varWeight_bounds (x := (s, leNat (a.take 2))) hs e3 hle
      have hdI : (((s.2 - s.1 : Int)) : ℚ) ≤ 2147483647 := by
        obtain ⟨h0, _, _⟩ := hs
        exact_mod_cast (by omega : s.2 - s.1 ≤ 2147483647)
      have hd0 : (0 : ℚ) ≤ ((s.2 - s.1 : Int) : ℚ) := by exact_mod_cast (by omega : 0 ≤ s.2 - s.1)
      have m0 := modQ_nonneg (leNat (a.take 2))
      have m1 := modQ_le hle
      have hmul : FV.mul f64 (FV.ofInt f64 (s.2 - s.1)) (.fin (modQ (leNat (a.take 2))))
          = .fin (varWeight (s, leNat (a.take 2))) := by
        obtain ⟨h0, _, _⟩ := hs
        rw [ofInt64_int (by omega) (by omega), FV.mul_fin, ofQ64]
        · rfl
        · rw [abs_of_nonneg (mul_nonneg hd0 m0)]
          refine le_trans (b := (2147483647 : ℚ)) (by nlinarith) (by norm_num)
      have hadd : FV.add f64 (.fin p) (.fin (varWeight (s, leNat (a.take 2))))
          = .fin (R (p + varWeight (s, leNat (a.take 2)))) := by
        rw [FV.add_fin, ofQ64]
        dsimp only at w1
        rw [abs_of_nonneg (by linarith)]; norm_num; linarith
      have hR : R (p + varWeight (s, leNat (a.take 2))) ≤ ((A + (s.2 - s.1) : Int) : ℚ) := by
        obtain ⟨h0, _, _⟩ := hs
        refine rnd_le_of_rep f64 f64_p (rep64_int (by rw [abs_of_nonneg (by omega)]; omega)) ?_
        dsimp only at w1
        push_cast at w1 ⊢; linarith
      rw [hmul, hadd, M.bind_ok (ih hss' (a.drop 2) (by rw [List.length_drop]; omega)
        (rnd_nonneg _ (by linarith)) (by omega) hR (by omega) hu0 hu (by omega))]
      rw [rowsOf_take ht]
      simp only [varW, unbW, e2, e3, sumW, List.map_cons, if_true, M.pure_apply, List.drop_drop,
        Bool.false_eq_true, if_false]
      rw [show 2 * (ss.countP (SizePair.takesOracle (decide (1 < nUnb))) + 1)
        = 2 + 2 * ss.countP (SizePair.takesOracle (decide (1 < nUnb))) by ring]

/-- Unbounded stamps get the full modifier. -/
def fixRow (x : Row) : Row := (x.1, if x.1.unb then 65535 else x.2)

theorem varW_fix (l : List Row) (h : ∀ x ∈ l, x.1.Ok) : varW (l.map fixRow) = varW l := by
  induction l with
  | nil => rfl
  | cons x l ih =>
    have hx := h x (by simp)
    simp only [List.map_cons, varW]
    rw [ih (fun y hy => h y (by simp [hy]))]
    rcases hx.cases with ⟨_, e2, e3, _⟩ | ⟨_, e2, e3, _⟩ | ⟨_, e2, e3, _⟩
    · simp [fixRow, e3]
    · simp [fixRow, e3]
    · have : fixRow x = x := by simp [fixRow, e2]
      rw [this]

theorem setModFix_abs (l : List Row) {u : ℚ} {B : Nat} (hu0 : 0 ≤ u) (hu : u ≤ B)
    (hB : B + (l.map Prod.fst).countP SizePair.unb ≤ INT_MAX) :
    setModFix (l.map Prod.fst) (l.map fun x => .fin (modQ x.2)) (.fin u) =
      ((l.map fixRow).map fun x => .fin (modQ x.2), .fin (sumW (unbW (l.map fixRow)) u)) := by
  induction l generalizing u B with
  | nil => rfl
  | cons x l ih =>
    simp only [List.map_cons, setModFix]
    by_cases hx : x.1.unb = true
    · rw [List.map_cons, List.countP_cons_of_pos hx] at hB
      have huB : u ≤ 2147483647 := by
        have h2 : (B : ℚ) ≤ ((INT_MAX : Nat) : ℚ) := by exact_mod_cast (by omega : B ≤ INT_MAX)
        push_cast at h2; linarith
      have hadd : FV.add f64 (.fin u) (.fin 1) = .fin (R (u + 1)) := by
        rw [FV.add_fin, ofQ64]
        rw [abs_of_nonneg (by linarith)]; norm_num; linarith
      have hR : R (u + 1) ≤ ((B + 1 : Nat) : ℚ) :=
        rnd_le_of_rep f64 f64_p (rep64_nat (by omega)) (by push_cast; linarith)
      rw [if_pos hx, hadd, ih (rnd_nonneg _ (by linarith)) hR (by omega)]
      simp [fixRow, unbW, hx, modQ_max, sumW]
    · rw [List.map_cons, List.countP_cons_of_neg hx] at hB
      rw [if_neg hx, ih hu0 hu hB]
      simp [fixRow, unbW, hx]

/-! ## Chopping -/

/-- The size of every piece. -/
def setEls (kv ku : ℚ) : List Row → ℚ → ℚ → List Int
  | [], _, _ => []
  | x :: l, vr, ur =>
    if x.1.unb then
      let y := lenQ ku (modQ x.2) ur
      (roundHA y + x.1.1) :: setEls kv ku l vr (y - roundHA y)
    else if x.1.fixed then x.1.1 :: setEls kv ku l vr ur
    else
      let y := lenQ kv (varWeight x) vr
      (roundHA y + x.1.1) :: setEls kv ku l (y - roundHA y) ur

theorem setEls_sum (kv ku : ℚ) (l : List Row) (h : ∀ x ∈ l, x.1.Ok) (vr ur : ℚ) :
    (setEls kv ku l vr ur).sum =
      minSum (l.map Prod.fst) + (streamEls kv (varW l) vr).sum + (streamEls ku (unbW l) ur).sum := by
  induction l generalizing vr ur with
  | nil => simp [setEls, minSum, streamEls, varW, unbW]
  | cons x l ih =>
    have ih := ih (fun y hy => h y (by simp [hy]))
    have hm : minSum ((x :: l).map Prod.fst) = x.1.1 + minSum (l.map Prod.fst) := by simp [minSum]
    rw [hm]
    unfold setEls varW unbW
    rcases (h x (by simp)).cases with ⟨e1, e2, e3, e4⟩ | ⟨e1, e2, e3, e4⟩ | ⟨e1, e2, e3, e4, e5⟩
    · rw [e1, e2, e3]; simp [ih]; ring
    · rw [e1, e2, e3]; simp [ih, streamEls]; ring
    · rw [e1, e2, e3]; simp [ih, streamEls]; ring

theorem setEls_length (kv ku : ℚ) (l : List Row) (vr ur : ℚ) : (setEls kv ku l vr ur).length = l.length := by
  induction l generalizing vr ur with
  | nil => rfl
  | cons x l ih => unfold setEls; split <;> [skip; split] <;> simp [ih]

/-- Rounding a share and converting it to `int`. -/
theorem round_toCInt {y : ℚ} (h1 : -W31 ≤ roundHA y) (h2 : roundHA y < W31) :
    (FV.round (.fin y)).toCInt = .ok (roundHA y) := by
  show (if (-W31 : Int) ≤ truncQ (roundHA y : ℚ) ∧ truncQ (roundHA y : ℚ) ≤ W31 - 1
    then Out.ok (truncQ (roundHA y : ℚ)) else .ub .floatToInt) = _
  have ht : truncQ ((roundHA y : Int) : ℚ) = roundHA y := by
    unfold truncQ; split
    · exact Int.floor_intCast _
    · exact Int.ceil_intCast _
  rw [ht, if_pos ⟨h1, by omega⟩]

theorem lenQ_fv {k w r : ℚ} (hk0 : 0 ≤ k) (hk : k ≤ 2 ^ 50) (hw0 : 0 ≤ w) (hw : w ≤ 2 ^ 31) (hr : |r| ≤ 1 / 2) :
    FV.add f64 (FV.mul f64 (.fin w) (.fin k)) (.fin r) = .fin (lenQ k w r) := by
  have h1 : w * k ≤ 2 ^ 81 := by
    calc w * k ≤ 2 ^ 31 * 2 ^ 50 := mul_le_mul hw hk hk0 (by norm_num)
      _ = _ := by norm_num
  have h0 : 0 ≤ w * k := mul_nonneg hw0 hk0
  have h2 : |R (w * k)| ≤ 2 ^ 81 := abs_rnd_le f64_p
    ⟨1, 81, by rw [show (81 : Int) = ((81 : Nat) : Int) by rfl, pow2_natCast]; norm_num, by decide, by decide⟩
    (by rw [abs_of_nonneg h0]; exact h1)
  obtain ⟨b1, b2⟩ := abs_le.1 h2
  obtain ⟨r1, r2⟩ := abs_le.1 hr
  rw [FV.mul_fin, ofQ64 (by rw [abs_of_nonneg h0]; exact h1.trans (by norm_num)), FV.add_fin, ofQ64]
  · rfl
  · rw [abs_le]; norm_num at *; constructor <;> linarith

theorem sub_round_fv {y : ℚ} (hy : Rep f64 y) (h1 : -W31 ≤ roundHA y) (h2 : roundHA y < W31) :
    FV.sub f64 (.fin y) (FV.ofInt f64 (roundHA y)) = .fin (y - roundHA y) := by
  rw [ofInt64_int h1 (by omega), FV.sub_fin]
  refine ofQ64_rep ((roundHA_err y).trans (by norm_num)) hy.round_frac

/-- One turn of the loop. -/
theorem setChopLoop_cons {kv ku : ℚ} (hv0 : 0 ≤ kv) (hv1 : kv ≤ 2 ^ 50) (hu0 : 0 ≤ ku) (hu1 : ku ≤ 2 ^ 50)
    (x : Row) (l : List Row) (h : x.1.Ok ∧ x.2 ≤ 65535) (vr ur : ℚ) (hvr : |vr| ≤ 1 / 2) (hur : |ur| ≤ 1 / 2)
    (a : ABlob) (hel : ∀ e ∈ setEls kv ku (x :: l) vr ur, -1 ≤ e ∧ e ≤ INT_MAX) :
    ∃ (e : Int) (vr' ur' : ℚ), |vr'| ≤ 1 / 2 ∧ |ur'| ≤ 1 / 2 ∧
      setEls kv ku (x :: l) vr ur = e :: setEls kv ku l vr' ur' ∧
      setChopLoop (.fin kv) (.fin ku) ((x :: l).map Prod.fst) ((x :: l).map fun x => .fin (modQ x.2)) (.fin vr)
        (.fin ur) a =
      (do let c ← chop (toSz e)
          let r ← setChopLoop (.fin kv) (.fin ku) (l.map Prod.fst) (l.map fun x => .fin (modQ x.2))
            (.fin vr') (.fin ur')
          pure (c :: r) : M ABlob (List ABlob)) a := by
  obtain ⟨hok, ho⟩ := h
  have m0 := modQ_nonneg x.2
  have m1 := modQ_le ho
  have hok' := hok
  obtain ⟨s0, s1, _⟩ := hok'
  simp only [List.map_cons]
  rcases hok.cases with ⟨e1, e2, e3, e4⟩ | ⟨e1, e2, e3, e4⟩ | ⟨e1, e2, e3, e4, e5⟩
  · refine ⟨x.1.1, vr, ur, hvr, hur, by simp [setEls, e1, e2], ?_⟩
    conv_lhs => unfold setChopLoop
    rw [e1, e2, if_neg (by simp), if_pos rfl]
  · have hw31 : modQ x.2 ≤ 2 ^ 31 := m1.trans (by norm_num)
    have hfv := lenQ_fv hu0 hu1 m0 hw31 hur
    obtain ⟨_, _, hrep, _⟩ := lenQ_step hu0 m0 hur
    have hde : setEls kv ku (x :: l) vr ur = (roundHA (lenQ ku (modQ x.2) ur) + x.1.1) ::
        setEls kv ku l vr (lenQ ku (modQ x.2) ur - roundHA (lenQ ku (modQ x.2) ur)) := by simp [setEls, e2]
    generalize lenQ ku (modQ x.2) ur = y at hfv hrep hde
    obtain ⟨b1, b2⟩ := hel (roundHA y + x.1.1) (by rw [hde]; simp)
    have r1 : -W31 ≤ roundHA y := by omega
    have r2 : roundHA y < W31 := by omega
    have u1 : (M.lift (FV.round (.fin y)).toCInt : M ABlob Int) a = (.ok (roundHA y), a) := by
      rw [round_toCInt r1 r2]; rfl
    have u2 : (M.lift (ckInt (roundHA y + x.1.1)) : M ABlob Int) a = (.ok (roundHA y + x.1.1), a) := by
      rw [ckInt_ok (by omega) (by omega)]; rfl
    refine ⟨_, vr, _, hvr, roundHA_err y, hde, ?_⟩
    conv_lhs => unfold setChopLoop
    rw [e2, if_pos rfl, hfv]
    dsimp only
    rw [M.bind_ok u1]
    rw [sub_round_fv hrep r1 r2, M.bind_ok u2]
  · obtain ⟨w0, w1, _, _, _⟩ := varWeight_bounds hok e3 ho
    have hdI : (((x.1.2 - x.1.1 : Int)) : ℚ) ≤ 2147483647 := by
      exact_mod_cast (by omega : x.1.2 - x.1.1 ≤ 2147483647)
    have hd0 : (0 : ℚ) ≤ ((x.1.2 - x.1.1 : Int) : ℚ) := by exact_mod_cast (by omega : 0 ≤ x.1.2 - x.1.1)
    have hmul : FV.mul f64 (FV.ofInt f64 (x.1.2 - x.1.1)) (.fin (modQ x.2)) = .fin (varWeight x) := by
      rw [ofInt64_int (by omega) (by omega), FV.mul_fin, ofQ64]
      · rfl
      · rw [abs_of_nonneg (mul_nonneg hd0 m0)]
        refine le_trans (b := (2147483647 : ℚ)) (by nlinarith) (by norm_num)
    have hw31 : varWeight x ≤ 2 ^ 31 := w1.trans (hdI.trans (by norm_num))
    have hck : (M.lift (ckInt (x.1.2 - x.1.1)) : M ABlob Int) a = (.ok (x.1.2 - x.1.1), a) := by
      rw [ckInt_ok (by omega) (by omega)]; rfl
    have hfv := lenQ_fv hv0 hv1 w0 hw31 hvr
    obtain ⟨_, _, hrep, _⟩ := lenQ_step hv0 w0 hvr
    have hde : setEls kv ku (x :: l) vr ur = (roundHA (lenQ kv (varWeight x) vr) + x.1.1) ::
        setEls kv ku l (lenQ kv (varWeight x) vr - roundHA (lenQ kv (varWeight x) vr)) ur := by
      simp [setEls, e1, e2]
    generalize lenQ kv (varWeight x) vr = y at hfv hrep hde
    obtain ⟨b1, b2⟩ := hel (roundHA y + x.1.1) (by rw [hde]; simp)
    have r1 : -W31 ≤ roundHA y := by omega
    have r2 : roundHA y < W31 := by omega
    have u1 : (M.lift (FV.round (.fin y)).toCInt : M ABlob Int) a = (.ok (roundHA y), a) := by
      rw [round_toCInt r1 r2]; rfl
    have u2 : (M.lift (ckInt (roundHA y + x.1.1)) : M ABlob Int) a = (.ok (roundHA y + x.1.1), a) := by
      rw [ckInt_ok (by omega) (by omega)]; rfl
    refine ⟨_, _, ur, roundHA_err y, hur, hde, ?_⟩
    conv_lhs => unfold setChopLoop
    rw [e1, e2, if_neg (by simp), if_neg (by simp), M.bind_ok hck, hmul, hfv]
    dsimp only
    rw [M.bind_ok u1]
    rw [sub_round_fv hrep r1 r2, M.bind_ok u2]

theorem setChopLoop_abs {kv ku : ℚ} (hv0 : 0 ≤ kv) (hv1 : kv ≤ 2 ^ 50) (hu0 : 0 ≤ ku) (hu1 : ku ≤ 2 ^ 50)
    (l : List Row) (h : ∀ x ∈ l, x.1.Ok ∧ x.2 ≤ 65535) (vr ur : ℚ) (hvr : |vr| ≤ 1 / 2) (hur : |ur| ≤ 1 / 2)
    (a : ABlob) (hel : ∀ e ∈ setEls kv ku l vr ur, 0 ≤ e ∧ e ≤ INT_MAX)
    (hs : (setEls kv ku l vr ur).sum ≤ a.length) :
    setChopLoop (.fin kv) (.fin ku) (l.map Prod.fst) (l.map fun x => .fin (modQ x.2)) (.fin vr) (.fin ur) a =
      (.ok (cutSizes ((setEls kv ku l vr ur).map Int.toNat) a),
        a.drop ((setEls kv ku l vr ur).map Int.toNat).sum) := by
  induction l generalizing vr ur a with
  | nil => simp [setChopLoop, setEls, cutSizes]
  | cons x l ih =>
    have hl : ∀ x ∈ l, x.1.Ok ∧ x.2 ≤ 65535 := fun y hy => h y (by simp [hy])
    obtain ⟨e, vr', ur', h1, h2, he, hrun⟩ := setChopLoop_cons hv0 hv1 hu0 hu1 x l (h x (by simp)) vr ur hvr hur a
      (fun e he => ⟨by have := (hel e he).1; omega, (hel e he).2⟩)
    rw [hrun]
    rw [he] at hel hs ⊢
    obtain ⟨e0, e1⟩ := hel e (by simp)
    have hel' : ∀ e ∈ setEls kv ku l vr' ur', 0 ≤ e ∧ e ≤ INT_MAX := fun e' h => hel e' (by simp [h])
    have hn : 0 ≤ (setEls kv ku l vr' ur').sum := List.sum_nonneg fun e' h => (hel' e' h).1
    rw [List.sum_cons] at hs
    have hz : toSz e = e.toNat := toSz_of_nonneg e0 (by omega)
    have u3 : (chop (toSz e) : M ABlob ABlob) a = (.ok (a.take e.toNat), a.drop e.toNat) := by
      rw [chop_abs, hz, if_neg (by omega)]
    rw [M.bind_ok u3, M.bind_ok (ih hl vr' ur' h1 h2 (a.drop e.toNat) hel'
      (by rw [List.length_drop]; omega)), List.drop_drop]
    rfl

/-- A piece of size -1 is asked for: `OutOfData`. -/
theorem setChopLoop_neg {kv ku : ℚ} (hv0 : 0 ≤ kv) (hv1 : kv ≤ 2 ^ 50) (hu0 : 0 ≤ ku) (hu1 : ku ≤ 2 ^ 50)
    (l : List Row) (h : ∀ x ∈ l, x.1.Ok ∧ x.2 ≤ 65535) (vr ur : ℚ) (hvr : |vr| ≤ 1 / 2) (hur : |ur| ≤ 1 / 2)
    (a : ABlob) (ha : a.length < W31) (hel : ∀ e ∈ setEls kv ku l vr ur, -1 ≤ e ∧ e ≤ INT_MAX)
    (hneg : ∃ e ∈ setEls kv ku l vr ur, e < 0) :
    ∃ a', setChopLoop (.fin kv) (.fin ku) (l.map Prod.fst) (l.map fun x => .fin (modQ x.2)) (.fin vr) (.fin ur) a =
      (.outOfData, a') := by
  induction l generalizing vr ur a with
  | nil => simp [setEls] at hneg
  | cons x l ih =>
    have hl : ∀ x ∈ l, x.1.Ok ∧ x.2 ≤ 65535 := fun y hy => h y (by simp [hy])
    obtain ⟨e, vr', ur', h1, h2, he, hrun⟩ := setChopLoop_cons hv0 hv1 hu0 hu1 x l (h x (by simp)) vr ur hvr hur a hel
    rw [hrun]
    rw [he] at hel hneg
    obtain ⟨e0, e1⟩ := hel e (by simp)
    by_cases hc : a.length < toSz e
    · have u3 : (chop (toSz e) : M ABlob ABlob) a = (.outOfData, a) := by rw [chop_abs, if_pos hc]
      exact ⟨a, M.bind_ood u3⟩
    · have hpos : 0 ≤ e := by
        by_contra hn
        have : e = -1 := by omega
        subst this
        have : toSz (-1) = 18446744073709551615 := by decide
        omega
      have u3 : (chop (toSz e) : M ABlob ABlob) a = (.ok (a.take (toSz e)), a.drop (toSz e)) := by
        rw [chop_abs, if_neg hc]
      obtain ⟨e', he', hlt⟩ := hneg
      have hmem : e' ∈ setEls kv ku l vr' ur' := by
        rcases List.mem_cons.1 he' with rfl | hm
        · omega
        · exact hm
      obtain ⟨a', hi⟩ := ih hl vr' ur' h1 h2 (a.drop (toSz e)) (by rw [List.length_drop]; omega)
        (fun e' h => hel e' (by simp [h])) ⟨e', hmem, hlt⟩
      exact ⟨a', by rw [M.bind_ok u3, M.bind_ood hi]⟩

end BS
