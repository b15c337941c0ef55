import Verif.Lemmas.GalleySetRun

/-!
# Lemmas about the set galley: sizes of the pieces
-/

namespace BS
open BlobLike

local notation "R" => rnd f64

/-! ## One piece -/

theorem share_bounds {k w r : ℚ} {B : Nat} (hk : 0 ≤ k) (hw : 0 ≤ w) (hr : |r| ≤ 1 / 2)
    (hwk : w * k ≤ B + 51 / 100) (hB : B ≤ INT_MAX) :
    -1 ≤ roundHA (lenQ k w r) ∧ roundHA (lenQ k w r) ≤ B + 1 := by
  obtain ⟨h1, h2, _, _⟩ := lenQ_step hk hw hr
  obtain ⟨a1, a2⟩ := abs_le.1 h2
  obtain ⟨r1, r2⟩ := abs_le.1 hr
  have h3 := roundHA_err (lenQ k w r)
  obtain ⟨b1, b2⟩ := abs_le.1 h3
  have hBq : (B : ℚ) ≤ 2147483647 := by exact_mod_cast hB
  set y := lenQ k w r
  set x := w * k
  constructor
  · have h4 : ((-1 - 1 : Int) : ℚ) < (roundHA y : ℚ) := by push_cast; linarith
    have h5 : (-1 - 1 : Int) < roundHA y := by exact_mod_cast h4
    omega
  · norm_num at a2
    have h4 : (roundHA y : ℚ) < ((B + 2 : Int) : ℚ) := by push_cast; linarith
    have h5 : roundHA y < (B : Int) + 2 := by exact_mod_cast h4
    omega

/-- What is known of the piece of a row. -/
def PieceOk (F : Nat) (x : Row) (e : Int) : Prop :=
  x.1.1 - 1 ≤ e ∧ e ≤ x.1.1 + F + 1 ∧ (1 ≤ x.2 → x.1.1 ≤ e) ∧ (x.1.var = true → e ≤ x.1.2 + 1) ∧
    (x.1.fixed = true → e = x.1.1)

/-- What is known of a coefficient. -/
def CoefOk (k W : ℚ) (F : Nat) : Prop := 0 ≤ k ∧ (k = 0 ∨ 1 / 2 ^ 31 ≤ k) ∧ k * W ≤ F + 1 / 4

theorem CoefOk.le {k W w : ℚ} {F : Nat} (h : CoefOk k W F) (hw : w ≤ W) : w * k ≤ F + 51 / 100 := by
  obtain ⟨h0, _, h1⟩ := h
  have : w * k ≤ W * k := mul_le_mul_of_nonneg_right hw h0
  linarith [mul_comm k W]

theorem CoefOk.pos {k W w r : ℚ} {F : Nat} (h : CoefOk k W F) (hw : 1 / 2 ^ 16 ≤ w) (hr : |r| ≤ 1 / 2)
    (hr0 : k = 0 → r = 0) : 0 ≤ roundHA (lenQ k w r) := by
  obtain ⟨h0, h1, _⟩ := h
  rcases h1 with h1 | h1
  · rw [hr0 h1, h1, lenQ_zero (Rep.zero f64), roundHA_zero]
  · apply roundHA_nonneg
    refine lenQ_pos ?_ hr
    calc (1 / 2 ^ 50 : ℚ) ≤ (1 / 2 ^ 16) * (1 / 2 ^ 31) := by norm_num
      _ ≤ w * k := mul_le_mul hw h1 (by norm_num) (by linarith [hw, (by norm_num : (0 : ℚ) ≤ 1 / 2 ^ 16)])

theorem CoefOk.rem {k w r : ℚ} (hr0 : k = 0 → r = 0) : k = 0 → lenQ k w r - roundHA (lenQ k w r) = 0 := by
  intro h
  rw [hr0 h, h, lenQ_zero (Rep.zero f64), roundHA_zero]; norm_num

theorem setEls_ok {kv ku Wv Wu : ℚ} {Fv Fu F : Nat} (hv : CoefOk kv Wv Fv) (hu : CoefOk ku Wu Fu)
    (hFv : Fv ≤ F) (hFu : Fu ≤ F) (hF : F ≤ INT_MAX) (hkW : (kv - 1) * Wv ≤ 51 / 100)
    (l : List Row) (hl : ∀ x ∈ l, x.1.Ok ∧ x.2 ≤ 65535)
    (hwv : ∀ w ∈ varW l, w ≤ Wv) (hwu : ∀ w ∈ unbW l, w ≤ Wu) (vr ur : ℚ) (hvr : |vr| ≤ 1 / 2)
    (hur : |ur| ≤ 1 / 2) (hv0 : kv = 0 → vr = 0) (hu0 : ku = 0 → ur = 0) :
    List.Forall₂ (PieceOk F) l (setEls kv ku l vr ur) := by
  induction l generalizing vr ur with
  | nil => exact .nil
  | cons x l ih =>
    obtain ⟨hok, ho⟩ := hl x (by simp)
    have hl' : ∀ x ∈ l, x.1.Ok ∧ x.2 ≤ 65535 := fun y hy => hl y (by simp [hy])
    have hwv' : ∀ w ∈ varW l, w ≤ Wv := fun w hw => hwv w (by unfold varW; split <;> simp [hw])
    have hwu' : ∀ w ∈ unbW l, w ≤ Wu := fun w hw => hwu w (by unfold unbW; split <;> simp [hw])
    have ih := ih hl' hwv' hwu'
    rcases hok.cases with ⟨e1, e2, e3, e4⟩ | ⟨e1, e2, e3, e4⟩ | ⟨e1, e2, e3, e4, e5⟩
    · rw [show setEls kv ku (x :: l) vr ur = x.1.1 :: setEls kv ku l vr ur by simp [setEls, e1, e2]]
      refine .cons ⟨by omega, by omega, by simp, by simp [e3], by simp⟩ (ih vr ur hvr hur hv0 hu0)
    · rw [show setEls kv ku (x :: l) vr ur = (roundHA (lenQ ku (modQ x.2) ur) + x.1.1) ::
        setEls kv ku l vr (lenQ ku (modQ x.2) ur - roundHA (lenQ ku (modQ x.2) ur)) by simp [setEls, e2]]
      have hw : modQ x.2 ≤ Wu := hwu _ (by unfold unbW; rw [if_pos e2]; simp)
      obtain ⟨c1, c2⟩ := share_bounds hu.1 (modQ_nonneg x.2) hur (hu.le hw) (by omega)
      refine .cons ⟨by omega, by omega, fun h => ?_, by simp [e3], by simp [e1]⟩
        (ih vr _ hvr (roundHA_err _) hv0 (CoefOk.rem hu0))
      have := hu.pos (modQ_pos h) hur hu0
      omega
    · rw [show setEls kv ku (x :: l) vr ur = (roundHA (lenQ kv (varWeight x) vr) + x.1.1) ::
        setEls kv ku l (lenQ kv (varWeight x) vr - roundHA (lenQ kv (varWeight x) vr)) ur by
          simp [setEls, e1, e2]]
      have hw : varWeight x ≤ Wv := hwv _ (by unfold varW; rw [if_pos e3]; simp)
      obtain ⟨w0, w1, _, w3, _⟩ := varWeight_bounds hok e3 ho
      obtain ⟨c1, c2⟩ := share_bounds hv.1 w0 hvr (hv.le hw) (by omega)
      obtain ⟨s0, _, _⟩ := hok
      have hwd : varWeight x * kv ≤ (((x.1.2 - x.1.1).toNat : Nat) : ℚ) + 51 / 100 := by
        have hd : (((x.1.2 - x.1.1).toNat : Nat) : ℚ) = ((x.1.2 - x.1.1 : Int) : ℚ) := by
          have : (((x.1.2 - x.1.1).toNat : Nat) : Int) = x.1.2 - x.1.1 := Int.toNat_of_nonneg (by omega)
          exact_mod_cast this
        rw [hd]
        have hs : varWeight x * kv = varWeight x + varWeight x * (kv - 1) := by ring
        have : varWeight x * (kv - 1) ≤ 51 / 100 := by
          by_cases h1 : 0 ≤ kv - 1
          · have := mul_le_mul_of_nonneg_right hw h1
            linarith [mul_comm Wv (kv - 1)]
          · have := mul_nonpos_of_nonneg_of_nonpos w0 (le_of_lt (not_le.1 h1))
            linarith
        linarith
      obtain ⟨_, c3⟩ := share_bounds hv.1 w0 hvr hwd (by omega)
      refine .cons ⟨by omega, by omega, fun h => ?_, fun _ => by omega, by simp [e1]⟩
        (ih _ ur (roundHA_err _) hur (CoefOk.rem hv0) hu0)
      have := hv.pos (w3 h) hvr hv0
      omega

/-- The coefficient of a share. -/
theorem CoefOk.intro {F : Nat} {W : ℚ} (hW : 1 / 2 ^ 16 ≤ W) (hW2 : W ≤ 2147483647) (hF : F ≤ INT_MAX) :
    CoefOk (R ((F : ℚ) / W)) W F ∧ R ((F : ℚ) / W) ≤ 2 ^ 50 ∧ |R ((F : ℚ) / W) * W - F| ≤ 1 / 10000 := by
  have hFq : (F : ℚ) ≤ 2147483647 := by exact_mod_cast hF
  have hF0 : (0 : ℚ) ≤ F := by positivity
  have hWp : 0 < W := lt_of_lt_of_le (by norm_num) hW
  obtain ⟨k0, _, k2⟩ := share_sum (F := F) (n := 1) (W := W) (S := W) (k := R ((F : ℚ) / W))
    (le_trans (by norm_num) hW) (le_trans hW2 (by norm_num)) (le_refl _) hF (by omega) rfl
    (by rw [sub_self, abs_zero]; positivity)
  have k3 : |R ((F : ℚ) / W) * W - F| ≤ 1 / 10000 := by
    refine k2.trans ?_
    norm_num; linarith
  obtain ⟨a1, a2⟩ := abs_le.1 k3
  refine ⟨⟨k0, ?_, by linarith⟩, ?_, k3⟩
  · rcases Nat.eq_zero_or_pos F with h | h
    · left; rw [h]; simp [rnd_zero]
    · right
      refine le_rnd_of_rep f64 f64_p ⟨1, -31, by rw [pow2_eq]; norm_num, by decide, by decide⟩ ?_
      have h1 : (1 : ℚ) ≤ F := by exact_mod_cast h
      rw [le_div_iff₀ hWp]
      norm_num; linarith
  · have h1 : R ((F : ℚ) / W) * (1 / 2 ^ 16) ≤ R ((F : ℚ) / W) * W := mul_le_mul_of_nonneg_left hW k0
    norm_num at h1 ⊢
    linarith

/-- Sizes as doubles. -/
theorem coef_fv {F : Nat} {W : ℚ} (hW : 1 / 2 ^ 16 ≤ W) (hF : F ≤ INT_MAX) :
    FV.div f64 (FV.ofInt f64 (F : Int)) (.fin W) = .fin (R ((F : ℚ) / W)) := by
  have hWp : 0 < W := lt_of_lt_of_le (by norm_num) hW
  have hFq : (F : ℚ) ≤ 2147483647 := by exact_mod_cast hF
  rw [ofInt64_int (by omega) (by omega), FV.div_fin _ _ (ne_of_gt hWp), ofQ64]
  · norm_num
  · have hF0 : (0 : ℚ) ≤ F := by positivity
    push_cast
    rw [abs_of_nonneg (by positivity), div_le_iff₀ hWp]
    have : (2 : ℚ) ^ 50 * (1 / 2 ^ 16) ≤ 2 ^ 50 * W := mul_le_mul_of_nonneg_left hW (by norm_num)
    norm_num at this ⊢
    nlinarith

/-! ## The rows used -/

/-- The rows as used: unbounded stamps whose oracles are all zero count as 65535. -/
def finRows (l : List Row) : List Row := if sumW (unbW l) 0 = 0 then l.map fixRow else l

theorem finRows_fst (l : List Row) : (finRows l).map Prod.fst = l.map Prod.fst := by
  unfold finRows; split
  · rw [List.map_map]; rfl
  · rfl

theorem finRows_le {l : List Row} (h : ∀ x ∈ l, x.2 ≤ 65535) : ∀ x ∈ finRows l, x.2 ≤ 65535 := by
  unfold finRows; split
  · intro x hx
    obtain ⟨y, hy, rfl⟩ := List.mem_map.1 hx
    unfold fixRow
    have := h y hy
    dsimp only
    split <;> omega
  · exact h

theorem finRows_varW {l : List Row} (h : ∀ x ∈ l, x.1.Ok) : varW (finRows l) = varW l := by
  unfold finRows; split
  · exact varW_fix l h
  · rfl

theorem unbW_ok (l : List Row) : ∀ w ∈ unbW l, 0 ≤ w ∧ Rep f64 w := by
  intro w hw
  obtain ⟨x, _, _, rfl⟩ := mem_unbW hw
  exact ⟨modQ_nonneg _, modQ_rep _⟩

theorem varW_ok {l : List Row} (h : ∀ x ∈ l, x.1.Ok ∧ x.2 ≤ 65535) : ∀ w ∈ varW l, 0 ≤ w ∧ Rep f64 w := by
  intro w hw
  obtain ⟨x, hx, hv, rfl⟩ := mem_varW hw
  obtain ⟨a, _, b, _⟩ := varWeight_bounds (h x hx).1 hv (h x hx).2
  exact ⟨a, b⟩

/-- All oracles of the unbounded stamps are zero exactly when the total is. -/
theorem sumW_unbW_zero {l : List Row} (h : sumW (unbW l) 0 = 0) : ∀ x ∈ l, x.1.unb = true → x.2 = 0 := by
  intro x hx hu
  by_contra hne
  have h1 := le_sumW (unbW l) (unbW_ok l) 0 (le_refl _) _ (unbWeight_mem hx hu)
  have h2 := modQ_pos (o := x.2) (by omega)
  rw [h] at h1
  have : (0 : ℚ) < 1 / 2 ^ 16 := by norm_num
  linarith

theorem sumW_unbW_of_zero {l : List Row} (h : ∀ x ∈ l, x.1.unb = true → x.2 = 0) : sumW (unbW l) 0 = 0 := by
  have h0 : ∀ w ∈ unbW l, w = 0 := by
    intro w hw
    obtain ⟨x, hx, hu, rfl⟩ := mem_unbW hw
    rw [h x hx hu, modQ_zero]
  generalize unbW l = ws at h0
  induction ws with
  | nil => rfl
  | cons w ws ih =>
    rw [sumW, h0 w (by simp), add_zero, rnd_zero]
    exact ih fun v hv => h0 v (by simp [hv])

/-- Some unbounded stamp has a modifier. -/
theorem finRows_unb {l : List Row} {x : Row} (hx : x ∈ l) (hu : x.1.unb = true) :
    1 / 2 ^ 16 ≤ sumW (unbW (finRows l)) 0 := by
  have key : ∀ l' : List Row, (∃ y ∈ l', y.1.unb = true ∧ 1 ≤ y.2) → 1 / 2 ^ 16 ≤ sumW (unbW l') 0 := by
    rintro l' ⟨y, hy, hyu, h1⟩
    exact (modQ_pos h1).trans (le_sumW _ (unbW_ok l') 0 (le_refl _) _ (unbWeight_mem hy hyu))
  apply key
  unfold finRows
  split
  · refine ⟨fixRow x, List.mem_map.2 ⟨x, hx, rfl⟩, hu, ?_⟩
    simp [fixRow, hu]
  · next h =>
    by_contra hc
    apply h
    apply sumW_unbW_of_zero
    intro y hy hyu
    by_contra hne
    exact hc ⟨y, hy, hyu, by omega⟩

/-! ## The limit -/

/-- The bytes the galley needs. -/
def setNeed (ss : List SizePair) : Int :=
  minSum ss + 2 * ss.countP SizePair.var + (if 1 < ss.countP SizePair.unb then 2 * (ss.countP SizePair.unb : Int) else 0)
    + (if 0 < ss.countP SizePair.var ∧ 0 < ss.countP SizePair.unb then 2 else 0)

/-- Is there an oracle that divides the data? -/
def divides (ss : List SizePair) : Nat :=
  if 0 < ss.countP SizePair.var ∧ 0 < ss.countP SizePair.unb then 1 else 0

/-- The rows of the galley. -/
def setRows (ss : List SizePair) (a : Bytes) : List Row :=
  rowsOf (decide (1 < ss.countP SizePair.unb)) ss (a.drop (2 * divides ss))

/-- Number of oracles. -/
def oracleCount (ss : List SizePair) : Nat :=
  divides ss + ss.countP (SizePair.takesOracle (decide (1 < ss.countP SizePair.unb)))

theorem countP_takes {ss : List SizePair} (h : ∀ s ∈ ss, s.Ok) (several : Bool) :
    ss.countP (SizePair.takesOracle several) =
      ss.countP SizePair.var + (if several then ss.countP SizePair.unb else 0) := by
  induction ss with
  | nil => simp
  | cons s ss ih =>
    have ih := ih (fun x hx => h x (by simp [hx]))
    simp only [List.countP_cons, ih, SizePair.takesOracle]
    rcases (h s (by simp)).cases with ⟨_, e2, e3, _⟩ | ⟨_, e2, e3, _⟩ | ⟨_, e2, e3, _⟩ <;>
      cases several <;> simp [e2, e3] <;> omega

theorem setNeed_eq {ss : List SizePair} (h : ∀ s ∈ ss, s.Ok) : setNeed ss = minSum ss + 2 * oracleCount ss := by
  unfold setNeed oracleCount divides
  rw [countP_takes h]
  generalize ss.countP SizePair.var = v
  generalize ss.countP SizePair.unb = u
  by_cases h1 : 1 < u <;> by_cases h2 : 0 < v ∧ 0 < u <;> simp only [h1, h2, and_self, if_true, if_false,
    decide_true, decide_false, Bool.false_eq_true] <;> push_cast <;> ring

theorem setFixed_eq {m d : Int} {u v : Nat} (h0 : 0 ≤ m)
    (h : m + 2 * v + (if 1 < u then 2 * (u : Int) else 0) + (if 0 < v ∧ 0 < u then 2 else 0) ≤ INT_MAX) :
    setFixed ⟨m, d, u, v⟩ =
      m + 2 * v + (if 1 < u then 2 * (u : Int) else 0) + (if 0 < v ∧ 0 < u then 2 else 0) := by
  unfold setFixed
  dsimp only
  by_cases h1 : 1 < u <;> by_cases h2 : 0 < v ∧ 0 < u
  · rw [if_pos h1, if_pos h2] at h
    rw [if_pos h1, if_pos h2, if_pos h1, if_pos h2, wrap32_of_fits (i := m + 2 * v) (by omega) (by omega),
      wrap32_of_fits (i := m + 2 * v + 2 * u) (by omega) (by omega), wrap32_of_fits (by omega) (by omega)]
  · rw [if_pos h1, if_neg h2] at h
    rw [if_pos h1, if_neg h2, if_pos h1, if_neg h2, wrap32_of_fits (i := m + 2 * v) (by omega) (by omega),
      wrap32_of_fits (by omega) (by omega), add_zero]
  · rw [if_neg h1, if_pos h2] at h
    rw [if_neg h1, if_pos h2, if_neg h1, if_pos h2, wrap32_of_fits (i := m + 2 * v) (by omega) (by omega),
      wrap32_of_fits (by omega) (by omega), add_zero]
  · rw [if_neg h1, if_neg h2] at h
    rw [if_neg h1, if_neg h2, if_neg h1, if_neg h2, wrap32_of_fits (by omega) (by omega), add_zero, add_zero]

theorem setLimit_abs {t : SetTotals} {avail : Int} (h0 : 0 ≤ avail) (h1 : avail ≤ INT_MAX) (hm : 0 ≤ t.maxVar)
    (a : ABlob) (hl : 0 < t.nVar ∧ 0 < t.nUnb → 2 ≤ a.length) :
    ∃ lim : Int, setLimit t avail a =
      (.ok lim, a.drop (2 * (if 0 < t.nVar ∧ 0 < t.nUnb then 1 else 0))) ∧ 0 ≤ lim ∧ lim ≤ avail ∧ lim ≤ t.maxVar ∧
      lim = if 0 < t.nVar ∧ 0 < t.nUnb then
        min (roundHA (R (modQ (leNat (a.take 2)) * avail))) (min avail t.maxVar) else min avail t.maxVar := by
  have hlim : ∀ lim0 : Int, lim0 = (if avail < t.maxVar then avail else t.maxVar) →
      0 ≤ lim0 ∧ lim0 ≤ avail ∧ lim0 ≤ t.maxVar := by
    rintro lim0 rfl; split <;> omega
  obtain ⟨lim0, hlim0⟩ : ∃ l, l = (if avail < t.maxVar then avail else t.maxVar) := ⟨_, rfl⟩
  obtain ⟨l1, l2, l3⟩ := hlim lim0 hlim0
  unfold setLimit
  rw [← hlim0]
  by_cases hb : 0 < t.nVar ∧ 0 < t.nUnb
  · rw [if_pos hb, if_pos hb]
    have hl := hl hb
    have ho := oracle_abs a
    rw [if_neg (by omega)] at ho
    have hle := leNat_two a
    have m0 := modQ_nonneg (leNat (a.take 2))
    have m1 := modQ_le hle
    have hav : (0 : ℚ) ≤ (avail : ℚ) := by exact_mod_cast h0
    have hav2 : (avail : ℚ) ≤ 2147483647 := by exact_mod_cast h1
    rw [M.bind_ok ho, modifierOf_eq hle, ofInt64_int (by omega) (by omega), FV.mul_fin, ofQ64 (by
      rw [abs_of_nonneg (mul_nonneg m0 hav)]
      exact le_trans (b := (2147483647 : ℚ)) (by nlinarith) (by norm_num))]
    have p0 : 0 ≤ R (modQ (leNat (a.take 2)) * avail) := rnd_nonneg _ (mul_nonneg m0 hav)
    have p1 : R (modQ (leNat (a.take 2)) * avail) ≤ (avail : ℚ) :=
      rnd_le_of_rep f64 f64_p (rep64_int (by rw [abs_of_nonneg h0]; omega)) (by nlinarith)
    have q0 := roundHA_nonneg (q := R (modQ (leNat (a.take 2)) * avail)) (by linarith)
    have q1 : roundHA (R (modQ (leNat (a.take 2)) * avail)) ≤ avail := by
      have := (abs_le.1 (roundHA_err (R (modQ (leNat (a.take 2)) * avail)))).1
      have h2 : (roundHA (R (modQ (leNat (a.take 2)) * avail)) : ℚ) < ((avail + 1 : Int) : ℚ) := by
        push_cast; linarith
      have : roundHA (R (modQ (leNat (a.take 2)) * avail)) < avail + 1 := by exact_mod_cast h2
      omega
    have u1 : (M.lift (FV.round (.fin (R (modQ (leNat (a.take 2)) * avail)))).toCInt : M ABlob Int) (a.drop 2)
        = (.ok (roundHA (R (modQ (leNat (a.take 2)) * avail))), a.drop 2) := by
      rw [round_toCInt (by omega) (by omega)]; rfl
    rw [M.bind_ok u1]
    generalize roundHA (R (modQ (leNat (a.take 2)) * avail)) = p at q0 q1
    have hmin : lim0 = min avail t.maxVar := by rw [hlim0]; split <;> omega
    refine ⟨if p < lim0 then p else lim0, rfl, ?_, ?_, ?_, ?_⟩
    iterate 3 split <;> omega
    rw [if_pos hb, ← hmin]
    split <;> omega
  · rw [if_neg hb, if_neg hb]
    exact ⟨lim0, by rfl, l1, l2, l3, by rw [hlim0]; split <;> omega⟩

/-! ## The whole -/

/-- The size given to the variated stamps. -/
theorem finalVar_abs {P : ℚ} {lim : Int} (h0 : 0 ≤ P) (hl0 : 0 ≤ lim) (hl : lim ≤ INT_MAX) :
    ∃ fv : Nat, (if FV.lt (.fin P) (FV.ofInt f64 lim) then (FV.round (.fin P)).toCInt else .ok lim)
        = .ok (fv : Int) ∧ (fv : Int) ≤ lim ∧ (fv : ℚ) ≤ P + 1 / 2 ∧
      (fv : Int) = if P < (lim : ℚ) then roundHA P else lim := by
  rw [ofInt64_int (by omega) (by omega)]
  have hlt : FV.lt (.fin P) (.fin (lim : ℚ)) = decide (P < (lim : ℚ)) := rfl
  rw [hlt]
  by_cases h : P < (lim : ℚ)
  · have e := abs_le.1 (roundHA_err P)
    have r0 := roundHA_nonneg (q := P) (by linarith)
    have r1 : roundHA P ≤ lim := by
      have h2 : (roundHA P : ℚ) < ((lim + 1 : Int) : ℚ) := by push_cast; linarith
      have : roundHA P < lim + 1 := by exact_mod_cast h2
      omega
    have hc : (((roundHA P).toNat : Nat) : Int) = roundHA P := Int.toNat_of_nonneg r0
    have hcq : (((roundHA P).toNat : Nat) : ℚ) = (roundHA P : ℚ) := by exact_mod_cast hc
    refine ⟨(roundHA P).toNat, ?_, by omega, by rw [hcq]; linarith, by rw [if_pos h, hc]⟩
    rw [if_pos (by simpa using h), round_toCInt (by omega) (by omega), hc]
  · have hc : ((lim.toNat : Nat) : Int) = lim := Int.toNat_of_nonneg hl0
    have hcq : ((lim.toNat : Nat) : ℚ) = (lim : ℚ) := by exact_mod_cast hc
    refine ⟨lim.toNat, ?_, by omega, by rw [hcq]; linarith, by rw [if_neg h, hc]⟩
    rw [if_neg (by simpa using h), hc]

theorem varW_nil {l : List Row} (h : (l.map Prod.fst).countP SizePair.var = 0) : varW l = [] := by
  rw [← List.length_eq_zero_iff, varW_length, h]

theorem unbW_nil {l : List Row} (h : (l.map Prod.fst).countP SizePair.unb = 0) : unbW l = [] := by
  rw [← List.length_eq_zero_iff, unbW_length, h]

theorem dSum_zero {ss : List SizePair} (h : ss.countP SizePair.var = 0) : dSum ss = 0 := by
  induction ss with
  | nil => rfl
  | cons s ss ih =>
    rw [List.countP_cons] at h
    unfold dSum
    by_cases hv : s.var = true
    · rw [if_pos hv] at h; omega
    · rw [if_neg hv] at h ⊢
      rw [ih h]; rfl

/-- The pieces for given rows and given sizes to share. -/
theorem setEls_whole {l : List Row} (hl : ∀ x ∈ l, x.1.Ok ∧ x.2 ≤ 65535) {ss : List SizePair}
    (hfst : l.map Prod.fst = ss) (hd : dSum ss ≤ INT_MAX) (hnu : ss.countP SizePair.unb ≤ INT_MAX)
    {fv fu S : Nat} (hfv : fv ≤ S) (hfu : fu ≤ S) (hS : S ≤ INT_MAX) (hn : ss.length * (S + 1) ≤ 2 ^ 49)
    (hP : 0 < ss.countP SizePair.var → 1 / 2 ^ 16 ≤ sumW (varW l) 0)
    (hU : 0 < ss.countP SizePair.unb → 1 / 2 ^ 16 ≤ sumW (unbW l) 0)
    (hfvP : (fv : ℚ) ≤ sumW (varW l) 0 + 1 / 2) (hfd : (fv : Int) ≤ dSum ss) {kv ku : ℚ}
    (hkv : kv = if 0 < ss.countP SizePair.var then R ((fv : ℚ) / sumW (varW l) 0) else 1)
    (hku : ku = if 0 < ss.countP SizePair.unb then R ((fu : ℚ) / sumW (unbW l) 0) else 1) :
    (0 ≤ kv ∧ kv ≤ 2 ^ 50) ∧ (0 ≤ ku ∧ ku ≤ 2 ^ 50) ∧
    List.Forall₂ (PieceOk S) l (setEls kv ku l 0 0) ∧
    (setEls kv ku l 0 0).sum = minSum ss + fv + (if 0 < ss.countP SizePair.unb then (fu : Int) else 0) := by
  have hss : ∀ s ∈ ss, s.Ok := by
    intro s hs
    rw [← hfst] at hs
    obtain ⟨x, hx, rfl⟩ := List.mem_map.1 hs
    exact (hl x hx).1
  have d0 := dSum_nonneg hss
  have hP2 : sumW (varW l) 0 ≤ 2147483647 := by
    have h1 := sumW_varW_le hl (p := 0) (A := 0) (le_refl _) (by norm_num) (by rw [hfst]; omega)
    rw [hfst, zero_add] at h1
    have h2 : ((dSum ss : Int) : ℚ) ≤ 2147483647 := by exact_mod_cast hd
    linarith
  have hU2 : sumW (unbW l) 0 ≤ 2147483647 := by
    have h1 := sumW_unbW_le (fun x hx => (hl x hx).2) (p := 0) (A := 0) (by norm_num) (by rw [hfst]; omega)
    rw [hfst, zero_add] at h1
    have h2 : ((ss.countP SizePair.unb : Nat) : ℚ) ≤ 2147483647 := by exact_mod_cast hnu
    linarith
  have hlen : ∀ {n F : Nat}, n ≤ ss.length → F ≤ S → n * (F + 1) ≤ 2 ^ 49 := fun h1 h2 =>
    le_trans (Nat.mul_le_mul h1 (Nat.succ_le_succ h2)) hn
  -- the variated stamps
  have A : CoefOk kv (sumW (varW l) 0) fv ∧ kv ≤ 2 ^ 50 ∧ (kv - 1) * sumW (varW l) 0 ≤ 51 / 100 ∧
      (streamEls kv (varW l) 0).sum = fv := by
    by_cases h : 0 < ss.countP SizePair.var
    · rw [if_pos h] at hkv
      obtain ⟨c1, c2, c3⟩ := CoefOk.intro (hP h) hP2 (show fv ≤ INT_MAX by omega)
      have hex := streamEls_exact (F := fv) (ws := varW l)
        (by intro e; have := varW_length l; rw [e, hfst] at this; simp at this; omega)
        (fun w hw => (varW_ok hl w hw).1) (le_trans (by norm_num) (hP h)) (hP2.trans (by norm_num)) (by omega)
        (by rw [varW_length, hfst]; exact hlen List.countP_le_length hfv)
      rw [← hkv] at c1 c2 c3 hex
      refine ⟨c1, c2, ?_, hex⟩
      have := (abs_le.1 c3).2
      rw [sub_mul, one_mul]; linarith
    · rw [if_neg h] at hkv
      have hnil : varW l = [] := varW_nil (by rw [hfst]; omega)
      have hz := dSum_zero (ss := ss) (by omega)
      subst hkv
      rw [hnil]
      simp only [sumW, streamEls, mul_zero, List.sum_nil]
      refine ⟨⟨by norm_num, Or.inr (by norm_num), by rw [mul_zero]; positivity⟩, by norm_num, by norm_num, by omega⟩
  have B : CoefOk ku (sumW (unbW l) 0) fu ∧ ku ≤ 2 ^ 50 ∧
      (streamEls ku (unbW l) 0).sum = if 0 < ss.countP SizePair.unb then (fu : Int) else 0 := by
    by_cases h : 0 < ss.countP SizePair.unb
    · rw [if_pos h] at hku ⊢
      obtain ⟨c1, c2, c3⟩ := CoefOk.intro (hU h) hU2 (show fu ≤ INT_MAX by omega)
      have hex := streamEls_exact (F := fu) (ws := unbW l)
        (by intro e; have := unbW_length l; rw [e, hfst] at this; simp at this; omega)
        (fun w hw => (unbW_ok l w hw).1) (le_trans (by norm_num) (hU h)) (hU2.trans (by norm_num)) (by omega)
        (by rw [unbW_length, hfst]; exact hlen List.countP_le_length hfu)
      rw [← hku] at c1 c2 c3 hex
      exact ⟨c1, c2, hex⟩
    · rw [if_neg h] at hku ⊢
      have hnil : unbW l = [] := unbW_nil (by rw [hfst]; omega)
      subst hku
      rw [hnil]
      simp only [sumW, streamEls, List.sum_nil]
      refine ⟨⟨by norm_num, Or.inr (by norm_num), by rw [mul_zero]; positivity⟩, by norm_num, trivial⟩
  obtain ⟨a1, a2, a3, a4⟩ := A
  obtain ⟨b1, b2, b3⟩ := B
  refine ⟨⟨a1.1, a2⟩, ⟨b1.1, b2⟩, ?_, ?_⟩
  · exact setEls_ok a1 b1 hfv hfu hS a3 l hl (le_sumW _ (varW_ok hl) 0 (le_refl _))
      (le_sumW _ (unbW_ok l) 0 (le_refl _)) 0 0 (by norm_num) (by norm_num) (fun _ => rfl) (fun _ => rfl)
  · rw [setEls_sum kv ku l (fun x hx => (hl x hx).1), hfst, a4, b3]

/-- **The set galley**, from totals to pieces, with the formula for the sizes. -/
theorem setSplit_deep {ss : List SizePair} (hss : ∀ s ∈ ss, s.Ok) (hd : dSum ss ≤ INT_MAX) (a : ABlob)
    (hmin : setNeed ss ≤ a.length) (hS : a.length ≤ 2147483646) (hn : ss.length * (a.length + 1) ≤ 2 ^ 49)
    (hv : 0 < ss.countP SizePair.var → ∃ x ∈ finRows (setRows ss a), x.1.var = true ∧ 1 ≤ x.2) :
    ∃ (els : List Int) (fv : Nat),
      ((∀ e ∈ els, 0 ≤ e) → setSplit ss a = (.ok (cutSizes (els.map Int.toNat) (a.drop (2 * oracleCount ss))),
        a.drop (2 * oracleCount ss + (els.map Int.toNat).sum))) ∧
      ((∃ e ∈ els, e < 0) → ∃ left, setSplit ss a = (.outOfData, left)) ∧
      List.Forall₂ (PieceOk (a.length - setNeed ss).toNat) (finRows (setRows ss a)) els ∧
      (fv : Int) ≤ dSum ss ∧ setNeed ss + fv ≤ a.length ∧
      els.sum = minSum ss + fv + (if 0 < ss.countP SizePair.unb then a.length - setNeed ss - fv else 0) ∧
      ∃ lim : Int, lim = (if 0 < ss.countP SizePair.var ∧ 0 < ss.countP SizePair.unb then
          min (roundHA (R (modQ (leNat (a.take 2)) * (a.length - setNeed ss : Int))))
            (min (a.length - setNeed ss) (dSum ss))
        else min (a.length - setNeed ss) (dSum ss)) ∧
      (fv : Int) = (if sumW (varW (finRows (setRows ss a))) 0 < (lim : ℚ)
        then roundHA (sumW (varW (finRows (setRows ss a))) 0) else lim) ∧
      els = setEls
        (if 0 < ss.countP SizePair.var then R ((fv : ℚ) / sumW (varW (finRows (setRows ss a))) 0) else 1)
        (if 0 < ss.countP SizePair.unb
          then R (((a.length - setNeed ss - fv).toNat : ℚ) / sumW (unbW (finRows (setRows ss a))) 0) else 1)
        (finRows (setRows ss a)) 0 0 := by
  have m0 := minSum_nonneg hss
  have d0 := dSum_nonneg hss
  have hneed := setNeed_eq hss
  have hoc : oracleCount ss = divides ss +
      ss.countP (SizePair.takesOracle (decide (1 < ss.countP SizePair.unb))) := rfl
  have hlenA : 2 * oracleCount ss ≤ a.length := by omega
  have hl0 : ∀ x ∈ setRows ss a, x.1.Ok ∧ x.2 ≤ 65535 := by
    intro x hx
    refine ⟨hss _ ?_, rowsOf_le _ _ _ x hx⟩
    have := List.mem_map_of_mem (f := Prod.fst) hx
    unfold setRows at this
    rwa [rowsOf_fst] at this
  have hfst0 : (setRows ss a).map Prod.fst = ss := rowsOf_fst _ _ _
  have hfst : (finRows (setRows ss a)).map Prod.fst = ss := by rw [finRows_fst, hfst0]
  have hl : ∀ x ∈ finRows (setRows ss a), x.1.Ok ∧ x.2 ≤ 65535 := by
    intro x hx
    refine ⟨hss _ ?_, finRows_le (fun y hy => (hl0 y hy).2) x hx⟩
    have := List.mem_map_of_mem (f := Prod.fst) hx
    rwa [hfst] at this
  have hvW := finRows_varW (fun x hx => (hl0 x hx).1 : ∀ x ∈ setRows ss a, x.1.Ok)
  have hnu : ss.countP SizePair.unb ≤ INT_MAX := by
    have h1 := hneed
    have h2 := countP_takes hss (decide (1 < ss.countP SizePair.unb))
    by_cases h : 1 < ss.countP SizePair.unb
    · rw [decide_eq_true h, if_pos rfl] at h2
      rw [decide_eq_true h] at hoc
      omega
    · omega
  have hP : 0 < ss.countP SizePair.var → 1 / 2 ^ 16 ≤ sumW (varW (finRows (setRows ss a))) 0 := by
    intro h
    obtain ⟨x, hx, hxv, h1⟩ := hv h
    exact ((varWeight_bounds (hl x hx).1 hxv (hl x hx).2).2.2.2.1 h1).trans
      (le_sumW _ (varW_ok hl) 0 (le_refl _) _ (varWeight_mem hx hxv))
  have hU : 0 < ss.countP SizePair.unb → 1 / 2 ^ 16 ≤ sumW (unbW (finRows (setRows ss a))) 0 := by
    intro h
    obtain ⟨s, hs, hu⟩ := List.countP_pos_iff.1 h
    rw [← hfst0] at hs
    obtain ⟨x, hx, rfl⟩ := List.mem_map.1 hs
    exact finRows_unb hx hu
  have hP0 : 0 ≤ sumW (varW (finRows (setRows ss a))) 0 :=
    sumW_ge _ (fun w hw => (varW_ok hl w hw).1) 0 (Rep.zero f64)
  -- totals
  have htot := setTotals_ok hss ⟨0, 0, 0, 0⟩ (le_refl _) (by dsimp only; omega) (le_refl _)
    (by dsimp only; omega)
  simp only [zero_add] at htot
  have hfix := setFixed_eq (m := minSum ss) (d := dSum ss) (u := ss.countP SizePair.unb)
    (v := ss.countP SizePair.var) m0 (by
      have : setNeed ss ≤ INT_MAX := by omega
      exact this)
  have hfix : setFixed ⟨minSum ss, dSum ss, ss.countP SizePair.unb, ss.countP SizePair.var⟩ = setNeed ss := hfix
  have hneed0 : 0 ≤ setNeed ss := by omega
  obtain ⟨lim, el, l0, l1, l2, l3⟩ := setLimit_abs
    (t := ⟨minSum ss, dSum ss, ss.countP SizePair.unb, ss.countP SizePair.var⟩)
    (avail := (a.length : Int) - setNeed ss) (by omega) (by omega) (by exact d0) a (by
      intro h
      have : divides ss = 1 := if_pos h
      omega)
  dsimp only at el l2
  rw [show (if 0 < ss.countP SizePair.var ∧ 0 < ss.countP SizePair.unb then 1 else 0) = divides ss from rfl] at el
  have hml := setModLoop_abs (nUnb := ss.countP SizePair.unb) ss hss (a.drop (2 * divides ss))
    (by rw [List.length_drop]; omega) (p := 0) (u := 0) (A := 0) (B := 0) (le_refl _) (le_refl _) (by norm_num)
    (by omega) (le_refl _) (by norm_num) (by omega)
  rw [List.drop_drop, ← Nat.mul_add, ← hoc] at hml
  rw [show rowsOf (decide (1 < ss.countP SizePair.unb)) ss (a.drop (2 * divides ss)) = setRows ss a from rfl] at hml
  have hmods : (if FV.beq (.fin (sumW (unbW (setRows ss a)) 0)) (.fin 0)
      then setModFix ss ((setRows ss a).map fun x => .fin (modQ x.2)) (.fin 0)
      else ((setRows ss a).map fun x => .fin (modQ x.2), .fin (sumW (unbW (setRows ss a)) 0)))
      = ((finRows (setRows ss a)).map fun x => .fin (modQ x.2), FV.fin (sumW (unbW (finRows (setRows ss a))) 0)) := by
    have hb : FV.beq (.fin (sumW (unbW (setRows ss a)) 0)) (.fin 0)
        = decide (sumW (unbW (setRows ss a)) 0 = 0) := rfl
    rw [hb]
    unfold finRows
    by_cases h : sumW (unbW (setRows ss a)) 0 = 0
    · have := setModFix_abs (setRows ss a) (u := 0) (B := 0) (le_refl _) (by norm_num) (by rw [hfst0]; omega)
      rw [hfst0] at this
      rw [if_pos (by simpa using h), if_pos h, this]
    · rw [if_neg (by simpa using h), if_neg h]
  obtain ⟨fv, efv, f1, f2, f3⟩ := finalVar_abs hP0 l0 (by omega)
  obtain ⟨fu, hfu⟩ : ∃ fu : Nat, (fu : Int) = a.length - setNeed ss - fv :=
    ⟨(a.length - setNeed ss - fv).toNat, Int.toNat_of_nonneg (by omega)⟩
  obtain ⟨kv, hkv⟩ : ∃ k : ℚ, k = if 0 < ss.countP SizePair.var
    then R ((fv : ℚ) / sumW (varW (finRows (setRows ss a))) 0) else 1 := ⟨_, rfl⟩
  obtain ⟨ku, hku⟩ : ∃ k : ℚ, k = if 0 < ss.countP SizePair.unb
    then R ((fu : ℚ) / sumW (unbW (finRows (setRows ss a))) 0) else 1 := ⟨_, rfl⟩
  obtain ⟨⟨kv0, kv1⟩, ⟨ku0, ku1⟩, hok, hsum⟩ := setEls_whole hl hfst hd hnu (fv := fv) (fu := fu)
    (S := (a.length - setNeed ss).toNat) (by omega) (by omega) (by omega)
    (le_trans (Nat.mul_le_mul_left _ (by omega)) hn) hP hU f2 (by omega) hkv hku
  have hkvF : (if 0 < ss.countP SizePair.var then
      FV.div f64 (FV.ofInt f64 (fv : Int)) (.fin (sumW (varW (finRows (setRows ss a))) 0)) else .fin 1) = .fin kv := by
    rw [hkv]
    by_cases h : 0 < ss.countP SizePair.var
    · rw [if_pos h, if_pos h, coef_fv (hP h) (by omega)]
    · rw [if_neg h, if_neg h]
  have hkuF : (if 0 < ss.countP SizePair.unb then
      FV.div f64 (FV.ofInt f64 (fu : Int)) (.fin (sumW (unbW (finRows (setRows ss a))) 0)) else .fin 1) = .fin ku := by
    rw [hku]
    by_cases h : 0 < ss.countP SizePair.unb
    · rw [if_pos h, if_pos h, coef_fv (hU h) (by omega)]
    · rw [if_neg h, if_neg h]
  have hge : ∀ e ∈ setEls kv ku (finRows (setRows ss a)) 0 0, -1 ≤ e ∧ e ≤ INT_MAX := by
    intro e he
    obtain ⟨i, hi, rfl⟩ := List.mem_iff_getElem.1 he
    have hi' : i < (finRows (setRows ss a)).length := by rw [hok.length_eq]; exact hi
    obtain ⟨p1, p2, p3, p4, p5⟩ := hok.get hi' hi
    simp only [List.get_eq_getElem] at p1 p2 p3 p4 p5
    have hx := List.getElem_mem hi'
    generalize (finRows (setRows ss a))[i] = x at p1 p2 p3 p4 p5 hx
    have hx1 := (hl x hx).1.1
    have hle : x.1.1 ≤ minSum ss := by
      unfold minSum
      refine List.single_le_sum (l := ss.map Prod.fst) ?_ _ ?_
      · intro y hy
        obtain ⟨s, hs, rfl⟩ := List.mem_map.1 hy
        exact (hss s hs).1
      · rw [← hfst, List.map_map]
        exact List.mem_map.2 ⟨x, hx, rfl⟩
    exact ⟨by omega, by omega⟩
  -- everything but the last loop
  have hrun : setSplit ss a = setChopLoop (.fin kv) (.fin ku) ss
      ((finRows (setRows ss a)).map fun x => .fin (modQ x.2)) (.fin 0) (.fin 0) (a.drop (2 * oracleCount ss)) := by
    unfold setSplit
    have u1 : (M.lift (setTotals ss ⟨0, 0, 0, 0⟩) : M ABlob SetTotals) a
        = (.ok ⟨minSum ss, dSum ss, ss.countP SizePair.unb, ss.countP SizePair.var⟩, a) := by rw [htot]; rfl
    rw [M.bind_ok u1]
    dsimp only
    rw [hfix, M.bind_ok (M.get_apply a), size_abs, toSz_of_nonneg hneed0 (by omega), if_neg (by omega),
      wrap32_of_fits (by omega) (by omega), M.bind_ok el, M.bind_ok hml]
    dsimp only
    rw [hmods]
    dsimp only
    rw [← hvW]
    have u2 : (M.lift (if FV.lt (.fin (sumW (varW (finRows (setRows ss a))) 0)) (FV.ofInt f64 lim) then
        (FV.round (.fin (sumW (varW (finRows (setRows ss a))) 0))).toCInt else .ok lim) : M ABlob Int)
        (a.drop (2 * oracleCount ss)) = (.ok (fv : Int), a.drop (2 * oracleCount ss)) := by rw [efv]; rfl
    have u3 : (M.lift (ckInt ((a.length : Int) - setNeed ss - fv)) : M ABlob Int)
        (a.drop (2 * oracleCount ss)) = (.ok (fu : Int), a.drop (2 * oracleCount ss)) := by
      rw [ckInt_ok (by omega) (by omega), hfu]; rfl
    rw [M.bind_ok u2, M.bind_ok u3, hkvF, hkuF]
  refine ⟨setEls kv ku (finRows (setRows ss a)) 0 0, fv, fun hpos => ?_, fun hneg => ?_, hok, by omega, by omega,
    by rw [hsum, hfu], lim, l3, f3, ?_⟩
  · have hchop := setChopLoop_abs kv0 kv1 ku0 ku1 (finRows (setRows ss a)) hl 0 0 (by norm_num) (by norm_num)
      (a.drop (2 * oracleCount ss)) (fun e he => ⟨hpos e he, (hge e he).2⟩) (by
        rw [hsum, List.length_drop]
        split <;> omega)
    rw [hfst, List.drop_drop] at hchop
    rw [hrun]
    exact hchop
  · have hchop := setChopLoop_neg kv0 kv1 ku0 ku1 (finRows (setRows ss a)) hl 0 0 (by norm_num) (by norm_num)
      (a.drop (2 * oracleCount ss)) (by rw [List.length_drop]; omega) hge hneg
    rw [hfst] at hchop
    rw [hrun]
    exact hchop
  · rw [hkv, hku, show fu = ((a.length : Int) - setNeed ss - fv).toNat by omega]

/-- **The set galley**, from totals to pieces; without variated stamps with the formula for the sizes. -/
theorem setSplit_full {ss : List SizePair} (hss : ∀ s ∈ ss, s.Ok) (hd : dSum ss ≤ INT_MAX) (a : ABlob)
    (hmin : setNeed ss ≤ a.length) (hS : a.length ≤ 2147483646) (hn : ss.length * (a.length + 1) ≤ 2 ^ 49)
    (hv : 0 < ss.countP SizePair.var → ∃ x ∈ finRows (setRows ss a), x.1.var = true ∧ 1 ≤ x.2) :
    ∃ (els : List Int) (fv : Nat),
      ((∀ e ∈ els, 0 ≤ e) → setSplit ss a = (.ok (cutSizes (els.map Int.toNat) (a.drop (2 * oracleCount ss))),
        a.drop (2 * oracleCount ss + (els.map Int.toNat).sum))) ∧
      ((∃ e ∈ els, e < 0) → ∃ left, setSplit ss a = (.outOfData, left)) ∧
      List.Forall₂ (PieceOk (a.length - setNeed ss).toNat) (finRows (setRows ss a)) els ∧
      (fv : Int) ≤ dSum ss ∧ setNeed ss + fv ≤ a.length ∧
      els.sum = minSum ss + fv + (if 0 < ss.countP SizePair.unb then a.length - setNeed ss - fv else 0) ∧
      (ss.countP SizePair.var = 0 → 0 < ss.countP SizePair.unb → els = setEls 1
        (R (((a.length - setNeed ss).toNat : ℚ) / sumW (unbW (finRows (setRows ss a))) 0))
        (finRows (setRows ss a)) 0 0) := by
  obtain ⟨els, fv, h1, h2, h3, h4, h5, h6, lim, -, -, h7⟩ := setSplit_deep hss hd a hmin hS hn hv
  refine ⟨els, fv, h1, h2, h3, h4, h5, h6, fun hv0 hu0 => ?_⟩
  have hd0 := dSum_zero hv0
  rw [h7, if_neg (by omega), if_pos hu0, show (fv : Int) = 0 by omega, sub_zero]

/-- **The set galley**, from totals to pieces. -/
theorem setSplit_abs {ss : List SizePair} (hss : ∀ s ∈ ss, s.Ok) (hd : dSum ss ≤ INT_MAX) (a : ABlob)
    (hmin : setNeed ss ≤ a.length) (hS : a.length ≤ 2147483646) (hn : ss.length * (a.length + 1) ≤ 2 ^ 49)
    (hv : 0 < ss.countP SizePair.var → ∃ x ∈ finRows (setRows ss a), x.1.var = true ∧ 1 ≤ x.2) :
    ∃ (els : List Int) (fv : Nat),
      ((∀ e ∈ els, 0 ≤ e) → setSplit ss a = (.ok (cutSizes (els.map Int.toNat) (a.drop (2 * oracleCount ss))),
        a.drop (2 * oracleCount ss + (els.map Int.toNat).sum))) ∧
      ((∃ e ∈ els, e < 0) → ∃ left, setSplit ss a = (.outOfData, left)) ∧
      List.Forall₂ (PieceOk (a.length - setNeed ss).toNat) (finRows (setRows ss a)) els ∧
      (fv : Int) ≤ dSum ss ∧ setNeed ss + fv ≤ a.length ∧
      els.sum = minSum ss + fv + (if 0 < ss.countP SizePair.unb then a.length - setNeed ss - fv else 0) := by
  obtain ⟨els, fv, h1, h2, h3, h4, h5, h6, _⟩ := setSplit_full hss hd a hmin hS hn hv
  exact ⟨els, fv, h1, h2, h3, h4, h5, h6⟩

end BS
