import Verif.Lemmas.GalleySetSpec
import Verif.Lemmas.UnbExact

/-!
# Lemmas about the set galley: oracles that ask for given sizes are obeyed to the byte
-/

namespace BS
open BlobLike

local notation "R" => rnd f64

/-! ## Lists with the same running totals -/

theorem eq_of_prefix_sums : ∀ (l l' : List Int), l.length = l'.length →
    (∀ j, (l.take j).sum = (l'.take j).sum) → l = l'
  | [], [], _, _ => rfl
  | x :: l, y :: l', hl, h => by
    have h1 : x = y := by simpa using h 1
    subst h1
    congr 1
    exact eq_of_prefix_sums l l' (by simpa using hl) (fun j => by simpa using h (j + 1))

theorem streamEls_take (k : ℚ) (ws : List ℚ) (r : ℚ) (j : Nat) :
    (streamEls k ws r).take j = streamEls k (ws.take j) r := by
  induction ws generalizing r j with
  | nil => simp [streamEls]
  | cons w ws ih =>
    rcases j with _ | j
    · simp [streamEls]
    · simp [streamEls, ih]

theorem streamEls_length (k : ℚ) (ws : List ℚ) (r : ℚ) : (streamEls k ws r).length = ws.length := by
  induction ws generalizing r with
  | nil => rfl
  | cons w ws ih => simp [streamEls, ih]

/-! ## Weights that are the sizes asked for -/

theorem modQ_err (v : Nat) : |modQ v - v / 65535| ≤ (v : ℚ) / 65535 / 2 ^ 52 := by
  rcases Nat.eq_zero_or_pos v with rfl | hv
  · rw [modQ_zero]; norm_num
  · have e := rnd64_err ((v : ℚ) / 65535)
    rw [abs_of_nonneg (show (0 : ℚ) ≤ (v : ℚ) / 65535 by positivity)] at e
    refine e.trans ?_
    have : (1 : ℚ) ≤ v := by exact_mod_cast hv
    norm_num
    linarith

theorem sum_modQ_err (vs : List Nat) :
    |(vs.map modQ).sum - (vs.sum : ℚ) / 65535| ≤ (vs.sum : ℚ) / 65535 / 2 ^ 52 := by
  induction vs with
  | nil => simp
  | cons v vs ih =>
    have h1 := modQ_err v
    have h2 := ih
    simp only [List.map_cons, List.sum_cons]
    push_cast
    obtain ⟨a1, a2⟩ := abs_le.1 h1
    obtain ⟨b1, b2⟩ := abs_le.1 h2
    have e : ((v : ℚ) + (vs.sum : ℚ)) / 65535 / 2 ^ 52 = (v : ℚ) / 65535 / 2 ^ 52 + (vs.sum : ℚ) / 65535 / 2 ^ 52 := by
      ring
    have e' : ((v : ℚ) + (vs.sum : ℚ)) / 65535 = (v : ℚ) / 65535 + (vs.sum : ℚ) / 65535 := by ring
    rw [e, e', abs_le]
    constructor <;> linarith

/-- **Shares asked for are given**: weights that are oracles adding up to the size that is shared yield exactly
these oracles as shares. -/
theorem streamEls_values {vs : List Nat} (hF0 : 0 < vs.sum) (hF : vs.sum ≤ INT_MAX)
    (hnF : vs.length * (vs.sum + 1) ≤ 2 ^ 49) :
    streamEls (R ((vs.sum : ℚ) / sumW (vs.map modQ) 0)) (vs.map modQ) 0 = vs.map Int.ofNat := by
  have hw : ∀ w ∈ vs.map modQ, 0 ≤ w := by
    intro w hw
    obtain ⟨v, _, rfl⟩ := List.mem_map.1 hw
    exact modQ_nonneg v
  have hn : 1 ≤ vs.length := by
    rcases vs with _ | ⟨_, _⟩
    · simp at hF0
    · simp
  have hFq : (vs.sum : ℚ) ≤ 2147483647 := by exact_mod_cast hF
  have hF1 : (1 : ℚ) ≤ vs.sum := by exact_mod_cast hF0
  have hnq : (1 : ℚ) ≤ vs.length := by exact_mod_cast hn
  have hnFq : (vs.length : ℚ) * (vs.sum + 1) ≤ 2 ^ 49 := by exact_mod_cast hnF
  have hn48 : (vs.length : ℚ) ≤ 2 ^ 48 := by nlinarith
  have hW : 1 / 2 ^ 17 ≤ sumW (vs.map modQ) 0 := by
    obtain ⟨v, hv, hv0⟩ : ∃ v ∈ vs, 1 ≤ v := by
      by_contra hc
      push Not at hc
      have : vs.sum = 0 := List.sum_eq_zero (fun v hv => by have := hc v hv; omega)
      omega
    have := (modQ_pos hv0).trans (le_sumW (vs.map modQ) (fun w hw => by
      obtain ⟨v, _, rfl⟩ := List.mem_map.1 hw
      exact ⟨modQ_nonneg v, modQ_rep v⟩) 0 (le_refl _) _ (List.mem_map_of_mem hv))
    exact le_trans (by norm_num) this
  have e := sumW_err (vs.map modQ) hw 0 (le_refl _)
  rw [zero_add, List.length_map] at e
  have hall := sum_modQ_err vs
  have hW2 : sumW (vs.map modQ) 0 ≤ 2 ^ 31 := by
    generalize sumW (vs.map modQ) 0 = W at *
    generalize (vs.map modQ).sum = S at *
    obtain ⟨a1, a2⟩ := abs_le.1 e
    obtain ⟨b1, b2⟩ := abs_le.1 hall
    have h1 : (vs.length : ℚ) * (W * (101 / 100) / 2 ^ 53 + 1 / 2 ^ 199)
        ≤ 2 ^ 48 * (W * (101 / 100) / 2 ^ 53 + 1 / 2 ^ 199) := by
      apply mul_le_mul_of_nonneg_right hn48
      have : 0 ≤ W := le_trans (by norm_num) hW
      positivity
    norm_num at h1 a2 b2 ⊢
    linarith
  obtain ⟨hk0, h1, _⟩ := share_sum hW hW2 hn hF hnF rfl e
  refine eq_of_prefix_sums _ _ (by simp [streamEls_length]) (fun j => ?_)
  generalize R ((vs.sum : ℚ) / sumW (vs.map modQ) 0) = k at *
  rw [streamEls_take, ← List.map_take, ← List.map_take]
  have h2 := streamEls_sum hk0 ((vs.take j).map modQ) (fun w hw' => by
    obtain ⟨v, _, rfl⟩ := List.mem_map.1 hw'
    exact modQ_nonneg v) 0 (by norm_num)
  rw [add_zero, List.length_map] at h2
  have hpre := sum_modQ_err (vs.take j)
  have hZ : ((vs.take j).map Int.ofNat).sum = ((vs.take j).sum : Int) := by
    generalize vs.take j = us
    induction us with
    | nil => rfl
    | cons u us ih => simp only [List.map_cons, List.sum_cons, ih]; push_cast; rfl
  rw [hZ]
  have hpF : (vs.take j).sum ≤ vs.sum := by
    conv_rhs => rw [← List.take_append_drop j vs, List.sum_append]
    omega
  have hpl : (vs.take j).length ≤ vs.length := by rw [List.length_take]; omega
  have hpq : ((vs.take j).sum : ℚ) ≤ vs.sum := by exact_mod_cast hpF
  have hplq : ((vs.take j).length : ℚ) ≤ vs.length := by exact_mod_cast hpl
  have hp0 : (0 : ℚ) ≤ (vs.take j).sum := by positivity
  generalize (streamEls k ((vs.take j).map modQ) 0).sum = Z at *
  generalize ((vs.take j).map modQ).sum = s at *
  generalize (vs.map modQ).sum = S at *
  have key : ((Z : ℚ) < ((vs.take j).sum : ℚ) + 1) ∧ ((vs.take j).sum : ℚ) - 1 < Z := by
    generalize ((vs.take j).sum : ℚ) = p at *
    generalize ((vs.take j).length : ℚ) = m at *
    generalize (vs.sum : ℚ) = F at *
    generalize (vs.length : ℚ) = n at *
    clear hW hW2 e hw hZ hpF hpl hnF hF hF0 hn
    have hnn : n ≤ n * (F + 1) := by nlinarith
    have hFn : F + 1 ≤ n * (F + 1) := by nlinarith
    have hmul : 102 / 100 * n * (F + 1) = 102 / 100 * (n * (F + 1)) := by ring
    rw [hmul] at h1
    generalize n * (F + 1) = P at *
    have hkS : |k * S - F| ≤ 66 / 1000 := by
      refine h1.trans ?_
      norm_num at hnFq ⊢
      linarith
    obtain ⟨c1, c2⟩ := abs_le.1 hkS
    obtain ⟨d1, d2⟩ := abs_le.1 hall
    have hF0q : 0 < F := by linarith
    have hSF : F / 65535 * (1 - 1 / 2 ^ 52) ≤ S := by
      have : F / 65535 * (1 - 1 / 2 ^ 52) = F / 65535 - F / 65535 / 2 ^ 52 := by ring
      linarith
    have hSF2 : S ≤ F / 65535 * (1 + 1 / 2 ^ 52) := by
      have : F / 65535 * (1 + 1 / 2 ^ 52) = F / 65535 + F / 65535 / 2 ^ 52 := by ring
      linarith
    obtain ⟨κ, hκ⟩ : ∃ κ, κ = k / 65535 := ⟨_, rfl⟩
    have hκ0 : 0 ≤ κ := by rw [hκ]; positivity
    have hkF1 : κ * F * (1 - 1 / 2 ^ 52) ≤ F + 66 / 1000 := by
      have := mul_le_mul_of_nonneg_left hSF hk0
      have e : k * (F / 65535 * (1 - 1 / 2 ^ 52)) = κ * F * (1 - 1 / 2 ^ 52) := by rw [hκ]; ring
      linarith
    have hkF2 : F - 66 / 1000 ≤ κ * F * (1 + 1 / 2 ^ 52) := by
      have := mul_le_mul_of_nonneg_left hSF2 hk0
      have e : k * (F / 65535 * (1 + 1 / 2 ^ 52)) = κ * F * (1 + 1 / 2 ^ 52) := by rw [hκ]; ring
      linarith
    have hκF : κ * F ≤ 2147483648 := by norm_num at hkF1; linarith
    have hkF : |κ * F - F| ≤ 67 / 1000 := by
      norm_num at hkF1 hkF2
      rw [abs_le]; constructor <;> linarith
    have hκp : κ * p ≤ 2147483648 := le_trans (mul_le_mul_of_nonneg_left hpq hκ0) hκF
    have hκp0 : 0 ≤ κ * p := mul_nonneg hκ0 hp0
    have hkp : |κ * p - p| ≤ 67 / 1000 := by
      have e1 : κ * p - p = (κ - 1) * p := by ring
      have e2 : κ * F - F = (κ - 1) * F := by ring
      rw [e2, abs_mul, abs_of_pos hF0q] at hkF
      rw [e1, abs_mul, abs_of_nonneg hp0]
      exact (mul_le_mul_of_nonneg_left hpq (abs_nonneg _)).trans hkF
    have hks : |k * s - κ * p| ≤ κ * p / 2 ^ 52 := by
      have e1 : k * s - κ * p = k * (s - p / 65535) := by rw [hκ]; ring
      rw [e1, abs_mul, abs_of_nonneg hk0]
      refine (mul_le_mul_of_nonneg_left hpre hk0).trans (le_of_eq ?_)
      rw [hκ]; ring
    obtain ⟨g1, g2⟩ := abs_le.1 hkp
    obtain ⟨i1, i2⟩ := abs_le.1 hks
    obtain ⟨b1, b2⟩ := abs_le.1 h2
    have hmn : m ≤ 2 ^ 48 := hplq.trans hn48
    generalize k * s = q at *
    generalize κ * p = q' at *
    norm_num at i1 i2 b1 b2 hmn
    constructor <;> linarith
  have c1 : Z < ((vs.take j).sum : Int) + 1 := by
    have := key.1
    exact_mod_cast this
  have c2 : ((vs.take j).sum : Int) - 1 < Z := by
    have h : (((vs.take j).sum : Int) - 1 : ℚ) < (Z : ℚ) := by simpa using key.2
    exact_mod_cast h
  omega

/-! ## Sets -/

/-- The sizes asked for the unbounded stamps. -/
def askV : List Row → List Nat
  | [] => []
  | x :: l => if x.1.unb then x.2 :: askV l else askV l

/-- The oracles that ask for them. -/
def asks (l : List Row) : Bytes := ((askV l).map twoBytes).flatten

theorem askV_cons (x : Row) (l : List Row) : askV (x :: l) = if x.1.unb then x.2 :: askV l else askV l := rfl

theorem unbW_askV (l : List Row) : unbW l = (askV l).map modQ := by
  induction l with
  | nil => rfl
  | cons x l ih => unfold unbW askV; split <;> simp [ih]

theorem askV_length (l : List Row) : (askV l).length = (l.map Prod.fst).countP SizePair.unb := by
  induction l with
  | nil => rfl
  | cons x l ih =>
    unfold askV
    rw [List.map_cons, List.countP_cons]
    split <;> simp [ih]

theorem asks_length (l : List Row) : (asks l).length = 2 * (l.map Prod.fst).countP SizePair.unb := by
  rw [← askV_length]
  unfold asks
  generalize askV l = vs
  induction vs with
  | nil => rfl
  | cons v vs ih =>
    simp only [List.map_cons, List.flatten_cons, List.length_append, ih, twoBytes, List.length_cons, List.length_nil]
    omega

/-- Rows without variated stamps. -/
structure RowsOk (l : List Row) : Prop where
  ok : ∀ x ∈ l, x.1.Ok
  le : ∀ x ∈ l, x.2 ≤ 65535
  novar : ∀ x ∈ l, x.1.var = false
  fixed : ∀ x ∈ l, x.1.unb = false → x.2 = 0

theorem RowsOk.tail {x : Row} {l : List Row} (h : RowsOk (x :: l)) : RowsOk l :=
  ⟨fun y hy => h.ok y (by simp [hy]), fun y hy => h.le y (by simp [hy]), fun y hy => h.novar y (by simp [hy]),
    fun y hy => h.fixed y (by simp [hy])⟩

theorem leNat_twoBytes {o : Nat} (h : o ≤ 65535) : leNat (twoBytes o) = o := by
  have e : twoBytes o = leBytes 2 o := by
    simp only [twoBytes, leBytes]
    rw [Nat.mod_eq_of_lt (by omega : o / 256 < 256)]
  rw [e]
  exact leNat_leBytes 2 o (by omega)

theorem rowsOf_asks {l : List Row} (h : RowsOk l) (d : Bytes) :
    rowsOf true (l.map Prod.fst) (asks l ++ d) = l := by
  induction l with
  | nil => rfl
  | cons x l ih =>
    have ih := ih h.tail
    have hv := h.novar x (by simp)
    rw [List.map_cons]
    unfold asks askV
    by_cases hu : x.1.unb = true
    · rw [if_pos hu, rowsOf_take (by simp [SizePair.takesOracle, hu])]
      have e : ((x.2 :: askV l).map twoBytes).flatten ++ d = twoBytes x.2 ++ (asks l ++ d) := by
        simp [asks]
      have h1 : (twoBytes x.2 ++ (asks l ++ d)).take 2 = twoBytes x.2 := rfl
      have h2 : (twoBytes x.2 ++ (asks l ++ d)).drop 2 = asks l ++ d := rfl
      have hle := h.le x (by simp)
      rw [e, h1, h2, ih, leNat_twoBytes (by omega)]
    · have hu : x.1.unb = false := by simpa using hu
      rw [rowsOf_skip (by simp [SizePair.takesOracle, hu, hv]), hu, if_neg (by simp), if_neg (by simp)]
      have h0 := h.fixed x (by simp) hu
      refine congrArg₂ _ (Prod.ext rfl h0.symm) ih

theorem setEls_values {k : ℚ} {l : List Row} (h : RowsOk l) {vr ur : ℚ}
    (hs : streamEls k (unbW l) ur = (askV l).map Int.ofNat) :
    setEls 1 k l vr ur = l.map fun x => x.1.1 + (x.2 : Int) := by
  induction l generalizing ur with
  | nil => rfl
  | cons x l ih =>
    unfold unbW askV at hs
    rcases (h.ok x (by simp)).cases with ⟨e1, e2, e3, e4⟩ | ⟨e1, e2, e3, e4⟩ | ⟨e1, e2, e3, e4, e5⟩
    · rw [e2, if_neg (by simp), if_neg (by simp)] at hs
      simp [setEls, e1, e2, ih h.tail hs, h.fixed x (by simp) e2]
    · rw [e2, if_pos rfl, if_pos rfl] at hs
      simp only [streamEls, List.map_cons, List.cons.injEq] at hs
      simp only [setEls, e2, if_true, List.map_cons]
      rw [ih h.tail hs.2, hs.1, add_comm]; rfl
    · rw [h.novar x (by simp)] at e3; cases e3

theorem setEls_none {k : ℚ} (hk : k = 0) {l : List Row} (h : ∀ x ∈ l, x.1.Ok ∧ x.1.var = false) {vr : ℚ} :
    setEls 1 k l vr 0 = l.map fun x => x.1.1 := by
  subst hk
  induction l with
  | nil => rfl
  | cons x l ih =>
    have ih := ih (fun y hy => h y (by simp [hy]))
    rcases (h x (by simp)).1.cases with ⟨e1, e2, e3, e4⟩ | ⟨e1, e2, e3, e4⟩ | ⟨e1, e2, e3, e4, e5⟩
    · simp [setEls, e1, e2, ih]
    · simp [setEls, e2, lenQ_zero (Rep.zero f64), roundHA_zero, ih]
    · rw [(h x (by simp)).2] at e3; cases e3

theorem minSum_rows (l : List Row) (h : RowsOk l) :
    (l.map fun x => x.1.1 + (x.2 : Int)).sum = minSum (l.map Prod.fst) + (askV l).sum := by
  induction l with
  | nil => rfl
  | cons x l ih =>
    have hm : minSum ((x :: l).map Prod.fst) = x.1.1 + minSum (l.map Prod.fst) := by simp [minSum]
    rw [List.map_cons, List.sum_cons, ih h.tail, hm, askV_cons]
    by_cases hu : x.1.unb = true
    · rw [if_pos hu, List.sum_cons]; push_cast; ring
    · rw [if_neg hu, h.fixed x (by simp) (by simpa using hu)]; push_cast; ring

/-- **Any division can be asked for**, on the bytes. -/
theorem setSplit_exact {l : List Row} (h : RowsOk l) (hu : 2 ≤ (l.map Prod.fst).countP SizePair.unb)
    {parts : List Bytes} (hp : List.Forall₂ (fun (x : Row) (p : Bytes) => (p.length : Int) = x.1.1 + x.2) l parts)
    (hS : (asks l ++ parts.flatten).length ≤ 2147483646)
    (hn : l.length * ((asks l ++ parts.flatten).length + 1) ≤ 2 ^ 49) :
    setSplit (l.map Prod.fst) (asks l ++ parts.flatten : ABlob) = (.ok parts, []) := by
  set ss := l.map Prod.fst with hss
  set a : ABlob := asks l ++ parts.flatten with ha
  have hok : ∀ s ∈ ss, s.Ok := by
    intro s hs
    obtain ⟨x, hx, rfl⟩ := List.mem_map.1 hs
    exact h.ok x hx
  have hv0 : ss.countP SizePair.var = 0 := by
    rw [List.countP_eq_zero]
    intro s hs
    obtain ⟨x, hx, rfl⟩ := List.mem_map.1 hs
    simp [h.novar x hx]
  have hdiv : divides ss = 0 := by unfold divides; rw [if_neg (by omega)]
  have hoc : oracleCount ss = ss.countP SizePair.unb := by
    unfold oracleCount
    rw [hdiv, countP_takes hok, hv0, decide_eq_true (by omega)]; simp
  have hrows : setRows ss a = l := by
    unfold setRows
    rw [hdiv, decide_eq_true (by omega)]
    exact rowsOf_asks h _
  have hlens : parts.map List.length = (l.map fun x => x.1.1 + (x.2 : Int)).map Int.toNat := by
    clear_value a
    clear hS hn ha hrows hoc hdiv hv0 hok hu
    clear_value ss
    clear hss
    induction hp with
    | nil => rfl
    | cons hx _ ih =>
      simp only [List.map_cons]
      rw [ih h.tail]
      congr 1; omega
  have hsumI : (parts.flatten.length : Int) = minSum ss + (askV l).sum := by
    have h1 := minSum_rows l h
    rw [← hss] at h1
    rw [← h1, List.length_flatten, hlens]
    have h0 : ∀ x ∈ l, 0 ≤ x.1.1 := fun x hx => (h.ok x hx).1
    clear * - h0
    induction l with
    | nil => rfl
    | cons x l ih =>
      have := h0 x (by simp)
      simp only [List.map_cons, List.sum_cons]
      push_cast
      rw [ih (fun y hy => h0 y (by simp [hy]))]
      omega
  have hal : (a.length : Int) = 2 * ss.countP SizePair.unb + minSum ss + (askV l).sum := by
    rw [ha, List.length_append, asks_length, ← hss]
    push_cast
    rw [hsumI]; ring
  have hneed := setNeed_eq hok
  rw [hoc] at hneed
  have hF : (a.length - setNeed ss : Int).toNat = (askV l).sum := by omega
  have m0 := minSum_nonneg hok
  obtain ⟨els, fv, hrun, _, _, _, _, _, hels⟩ := setSplit_full hok (by rw [dSum_zero hv0]; norm_num) a (by omega) hS
    (by rw [hss, List.length_map]; exact hn) (fun hc => by omega)
  have hels := hels hv0 (by omega)
  rw [hrows, hF] at hels
  have hE : els = l.map fun x => x.1.1 + (x.2 : Int) := by
    rcases Nat.eq_zero_or_pos (askV l).sum with hz | hpos
    · have hk : R (((askV l).sum : ℚ) / sumW (unbW (finRows l)) 0) = 0 := by
        rw [hz, Nat.cast_zero, zero_div, rnd_zero]
      have hz' : ∀ x ∈ l, x.2 = 0 := by
        intro x hx
        by_cases hxu : x.1.unb = true
        · have : x.2 ∈ askV l := by
            clear * - hx hxu
            induction l with
            | nil => cases hx
            | cons y l ih =>
              unfold askV
              rcases List.mem_cons.1 hx with rfl | hx
              · rw [if_pos hxu]; simp
              · split <;> simp [ih hx]
          have := List.le_sum_of_mem this
          omega
        · exact h.fixed x hx (by simpa using hxu)
      have hfin : ∀ x ∈ finRows l, x.1.Ok ∧ x.1.var = false := by
        intro x hx
        have : x.1 ∈ l.map Prod.fst := by rw [← finRows_fst]; exact List.mem_map_of_mem hx
        obtain ⟨y, hy, hyx⟩ := List.mem_map.1 this
        rw [← hyx]
        exact ⟨h.ok y hy, h.novar y hy⟩
      rw [hels, setEls_none hk hfin]
      have e1 : (finRows l).map (fun x => x.1.1) = l.map fun x => x.1.1 := by
        have := congrArg (List.map Prod.fst) (finRows_fst l)
        rw [List.map_map, List.map_map] at this
        exact this
      rw [e1]
      exact List.map_congr_left fun x hx => by rw [hz' x hx]; simp
    · have hlenA : (askV l).length ≤ l.length := by
        rw [askV_length]
        exact List.countP_le_length.trans (by simp)
      have hsumA : (askV l).sum ≤ a.length := by omega
      have hval := streamEls_values hpos (by omega)
        (le_trans (Nat.mul_le_mul hlenA (Nat.succ_le_succ hsumA)) hn)
      have hfr : finRows l = l := by
        unfold finRows
        rw [if_neg]
        intro hc
        obtain ⟨v, hv, hv0⟩ : ∃ v ∈ askV l, 1 ≤ v := by
          by_contra hc
          push Not at hc
          have : (askV l).sum = 0 := List.sum_eq_zero (fun v hv => by have := hc v hv; omega)
          omega
        have h1 := (modQ_pos hv0).trans (le_sumW (unbW l) (unbW_ok l) 0 (le_refl _) _
          (by rw [unbW_askV]; exact List.mem_map_of_mem hv))
        rw [hc] at h1
        norm_num at h1
      rw [hels, hfr]
      apply setEls_values h
      rw [unbW_askV]
      exact hval
  have hpos : ∀ e ∈ els, 0 ≤ e := by
    rw [hE]
    intro e he
    obtain ⟨x, hx, rfl⟩ := List.mem_map.1 he
    have := (h.ok x hx).1
    omega
  have hdrop : a.drop (2 * oracleCount ss) = parts.flatten := by
    rw [hoc, ← asks_length, ha, List.drop_left]
  rw [hrun hpos, ← List.drop_drop, hdrop, hE, ← hlens]
  have h1 := cutSizes_self parts []
  rw [List.append_nil] at h1
  rw [h1, ← List.length_flatten, List.drop_length]

/-! ## Two unbounded stamps -/

theorem setEls_ge {k : ℚ} {l : List Row} (h : ∀ x ∈ l, x.1.Ok ∧ x.1.var = false) {vr ur : ℚ}
    (hs : ∀ e ∈ streamEls k (unbW l) ur, 0 ≤ e) :
    List.Forall₂ (fun (x : Row) (e : Int) => x.1.1 ≤ e) l (setEls 1 k l vr ur) := by
  induction l generalizing ur with
  | nil => exact .nil
  | cons x l ih =>
    have h' : ∀ y ∈ l, y.1.Ok ∧ y.1.var = false := fun y hy => h y (by simp [hy])
    unfold unbW at hs
    rcases (h x (by simp)).1.cases with ⟨e1, e2, e3, e4⟩ | ⟨e1, e2, e3, e4⟩ | ⟨e1, e2, e3, e4, e5⟩
    · rw [e2, if_neg (by simp)] at hs
      simp only [setEls, e1, e2, if_true, Bool.false_eq_true, if_false]
      exact .cons (le_refl _) (ih h' hs)
    · rw [e2, if_pos rfl] at hs
      simp only [streamEls, List.mem_cons, forall_eq_or_imp] at hs
      simp only [setEls, e2, if_true]
      exact .cons (by omega) (ih h' hs.2)
    · rw [(h x (by simp)).2] at e3; cases e3

/-- Two shares are not negative. -/
theorem streamEls_two {F : Nat} {w v : ℚ} (hw : 0 ≤ w ∧ Rep f64 w) (hv : 0 ≤ v ∧ Rep f64 v)
    (hW : 1 / 2 ^ 16 ≤ sumW [w, v] 0) (hW2 : sumW [w, v] 0 ≤ 2147483647) (hF : F ≤ INT_MAX) :
    ∀ e ∈ streamEls (R ((F : ℚ) / sumW [w, v] 0)) [w, v] 0, 0 ≤ e := by
  have hall : ∀ x ∈ [w, v], 0 ≤ x ∧ Rep f64 x := by
    intro x hx
    simp only [List.mem_cons, List.not_mem_nil, or_false] at hx
    rcases hx with rfl | rfl
    · exact hw
    · exact hv
  have hsum := streamEls_exact (F := F) (ws := [w, v]) (by simp) (fun x hx => (hall x hx).1)
    (le_trans (by norm_num) hW) (hW2.trans (by norm_num)) hF (by simp only [List.length_cons, List.length_nil]; omega)
  obtain ⟨⟨k0, _, k2⟩, _, _⟩ := CoefOk.intro hW hW2 hF
  have hle := le_sumW [w, v] hall 0 (le_refl _) w (by simp)
  generalize sumW [w, v] 0 = W at *
  generalize R ((F : ℚ) / W) = k at *
  simp only [streamEls, List.sum_cons, List.sum_nil, add_zero] at hsum
  simp only [streamEls, List.mem_cons, List.not_mem_nil, or_false, forall_eq_or_imp, forall_eq]
  have hwk : w * k ≤ F + 1 / 4 := by
    have := mul_le_mul_of_nonneg_right hle k0
    linarith [mul_comm k W]
  have hwk0 : 0 ≤ w * k := mul_nonneg hw.1 k0
  obtain ⟨_, h2, _, _⟩ := lenQ_step (r := 0) k0 hw.1 (by norm_num)
  rw [add_zero] at h2
  obtain ⟨a1, a2⟩ := abs_le.1 h2
  have hFq : (F : ℚ) ≤ 2147483647 := by exact_mod_cast hF
  have hr := abs_le.1 (roundHA_err (lenQ k w 0))
  have hx0 : 0 ≤ roundHA (lenQ k w 0) := by
    apply roundHA_nonneg
    norm_num at a1
    linarith
  refine ⟨hx0, ?_⟩
  have hxF : (roundHA (lenQ k w 0) : ℚ) < ((F + 1 : Int) : ℚ) := by
    have := hr.1
    norm_num at a2
    push_cast
    linarith
  have hxF : roundHA (lenQ k w 0) < F + 1 := by exact_mod_cast hxF
  omega

/-- **A set with exactly two unbounded stamps and no variated ones** gives every stamp its minimum and uses all
data. -/
theorem setSplit_two {ss : List SizePair} (hok : ∀ s ∈ ss, s.Ok ∧ s.var = false) (hu : ss.countP SizePair.unb = 2)
    (a : ABlob) (hmin : setNeed ss ≤ a.length) (hS : a.length ≤ 2147483646)
    (hn : ss.length * (a.length + 1) ≤ 2 ^ 49) :
    ∃ parts : List Bytes, setSplit ss a = (.ok parts, []) ∧
      List.Forall₂ (fun (s : SizePair) (p : Bytes) => s.1 ≤ p.length) ss parts ∧
      a.take 4 ++ parts.flatten = a := by
  have hok' : ∀ s ∈ ss, s.Ok := fun s hs => (hok s hs).1
  have hv0 : ss.countP SizePair.var = 0 := by
    rw [List.countP_eq_zero]
    intro s hs
    simp [(hok s hs).2]
  obtain ⟨els, fv, hrun, _, hpo, hfd, _, hsum, hels⟩ := setSplit_full hok' (by rw [dSum_zero hv0]; norm_num) a hmin hS hn
    (fun hc => by omega)
  have hels := hels hv0 (by omega)
  have hdiv : divides ss = 0 := by unfold divides; rw [if_neg (by omega)]
  have hoc : oracleCount ss = 2 := by
    unfold oracleCount
    rw [hdiv, countP_takes hok', hv0, decide_eq_true (by omega)]; simp [hu]
  have hneed := setNeed_eq hok'
  have m0 := minSum_nonneg hok'
  have hfst0 : (setRows ss a).map Prod.fst = ss := rowsOf_fst _ _ _
  have hfst : (finRows (setRows ss a)).map Prod.fst = ss := by rw [finRows_fst, hfst0]
  have hrok : ∀ x ∈ finRows (setRows ss a), x.1.Ok ∧ x.1.var = false := by
    intro x hx
    apply hok
    have := List.mem_map_of_mem (f := Prod.fst) hx
    rwa [hfst] at this
  have hlen2 : (unbW (finRows (setRows ss a))).length = 2 := by rw [unbW_length, hfst, hu]
  obtain ⟨w, v, hwv⟩ : ∃ w v, unbW (finRows (setRows ss a)) = [w, v] := List.length_eq_two.1 hlen2
  have hW1 : 1 / 2 ^ 16 ≤ sumW (unbW (finRows (setRows ss a))) 0 := by
    obtain ⟨s, hs, hsu⟩ := List.countP_pos_iff.1 (show 0 < ss.countP SizePair.unb by omega)
    rw [← hfst0] at hs
    obtain ⟨x, hx, rfl⟩ := List.mem_map.1 hs
    exact finRows_unb hx hsu
  have hW2 : sumW (unbW (finRows (setRows ss a))) 0 ≤ 2147483647 := by
    have h1 := sumW_unbW_le (l := finRows (setRows ss a)) (finRows_le (rowsOf_le _ _ _)) (p := 0) (A := 0)
      (by norm_num) (by rw [hfst, hu]; omega)
    rw [hfst, hu] at h1
    refine h1.trans (by norm_num)
  have hwo := unbW_ok (finRows (setRows ss a))
  have hge : List.Forall₂ (fun (x : Row) (e : Int) => x.1.1 ≤ e) (finRows (setRows ss a)) els := by
    rw [hels]
    apply setEls_ge hrok
    rw [hwv] at hW1 hW2 hwo ⊢
    exact streamEls_two (hwo w (by simp)) (hwo v (by simp)) hW1 hW2 (by omega)
  have hge' : List.Forall₂ (fun (s : SizePair) (e : Int) => s.1 ≤ e) ss els := by
    rw [← hfst]
    exact List.forall₂_map_left_iff.2 hge
  have hnn : ∀ e ∈ els, 0 ≤ e := by
    intro e he
    obtain ⟨i, hi, rfl⟩ := List.mem_iff_getElem.1 he
    have hi' : i < ss.length := by rw [hge'.length_eq]; exact hi
    have h1 := hge'.get hi' hi
    simp only [List.get_eq_getElem] at h1
    have := (hok' _ (List.getElem_mem hi')).1
    omega
  have hsn : ((els.map Int.toNat).sum : Int) = els.sum := by
    clear * - hnn
    induction els with
    | nil => rfl
    | cons e els ih =>
      have h1 := hnn e (by simp)
      have h2 := ih (fun x hx => hnn x (by simp [hx]))
      simp only [List.map_cons, List.sum_cons]
      push_cast
      rw [h2]; omega
  have hd0 := dSum_zero hv0
  rw [if_pos (by omega)] at hsum
  have htot : (els.map Int.toNat).sum = a.length - 4 := by omega
  have hlenD : (a.drop 4).length = (els.map Int.toNat).sum := by rw [List.length_drop, htot]
  refine ⟨cutSizes (els.map Int.toNat) (a.drop 4), ?_, ?_, ?_⟩
  · rw [hrun hnn, hoc]
    congr 1
    rw [List.drop_eq_nil_iff]
    omega
  · have hcl := cutSizes_length (els.map Int.toNat) (a.drop 4) (by omega)
    generalize cutSizes (els.map Int.toNat) (a.drop 4) = parts at hcl
    clear * - hcl hge' hnn
    induction hge' generalizing parts with
    | nil =>
      rcases parts with _ | ⟨p, ps⟩
      · exact .nil
      · simp at hcl
    | @cons s e ss els h _ ih =>
      rcases parts with _ | ⟨p, ps⟩
      · simp at hcl
      · simp only [List.map_cons, List.cons.injEq] at hcl
        have := hnn e (by simp)
        exact .cons (by omega) (ih (fun x hx => hnn x (by simp [hx])) _ hcl.2)
  · have h1 := cutSizes_flatten (els.map Int.toNat) (a.drop 4)
    rw [← hlenD, List.drop_length, List.append_nil] at h1
    rw [h1, List.take_append_drop]

end BS
