import Verif.Props.GalleySet
import Verif.Lemmas.SetExact
import Verif.Lemmas.GalleyUnb

/-!
# Lemmas about the shares of a set galley and the weights they belong to
-/

namespace BS
open BlobLike

local notation "R" => rnd f64

/-! ## Streams of shares -/

theorem sum_close {ws : List ℚ} {vs : List Nat}
    (h : List.Forall₂ (fun (w : ℚ) (v : Nat) => |w - v / 65535| ≤ (v : ℚ) / 65535 / 2 ^ 51) ws vs) :
    |ws.sum - (vs.sum : ℚ) / 65535| ≤ (vs.sum : ℚ) / 65535 / 2 ^ 51 := by
  induction h with
  | nil => simp
  | @cons w v ws vs h1 _ h2 =>
    simp only [List.sum_cons]
    rw [Nat.cast_add]
    obtain ⟨a1, a2⟩ := abs_le.1 h1
    obtain ⟨b1, b2⟩ := abs_le.1 h2
    have e : ((v : ℚ) + (vs.sum : ℚ)) / 65535 / 2 ^ 51 = (v : ℚ) / 65535 / 2 ^ 51 + (vs.sum : ℚ) / 65535 / 2 ^ 51 := by
      ring
    have e' : ((v : ℚ) + (vs.sum : ℚ)) / 65535 = (v : ℚ) / 65535 + (vs.sum : ℚ) / 65535 := by ring
    rw [e, e', abs_le]
    constructor <;> linarith

/-- Every beginning of the shares is what its weights ask for, up to less than a byte. -/
theorem streamEls_due {F : Nat} {ws1 ws2 : List ℚ} {vs1 vs2 : List Nat}
    (h1 : List.Forall₂ (fun (w : ℚ) (v : Nat) => |w - v / 65535| ≤ (v : ℚ) / 65535 / 2 ^ 51) ws1 vs1)
    (h2 : List.Forall₂ (fun (w : ℚ) (v : Nat) => |w - v / 65535| ≤ (v : ℚ) / 65535 / 2 ^ 51) ws2 vs2)
    (hne : ws1 ++ ws2 ≠ []) (hw : ∀ w ∈ ws1 ++ ws2, 0 ≤ w)
    (hW : 1 / 2 ^ 17 ≤ sumW (ws1 ++ ws2) 0) (hW2 : sumW (ws1 ++ ws2) 0 ≤ 2 ^ 31) (hF : F ≤ INT_MAX)
    (hnF : (ws1 ++ ws2).length * (F + 1) ≤ 2 ^ 49) :
    |((streamEls (R ((F : ℚ) / sumW (ws1 ++ ws2) 0)) ws1 0).sum : ℚ) - dueOf (vs1 ++ vs2) vs1 F| < 1 := by
  have hn : 1 ≤ (ws1 ++ ws2).length := List.length_pos_iff.2 hne
  have e := sumW_err (ws1 ++ ws2) hw 0 (le_refl _)
  rw [zero_add] at e
  obtain ⟨hk0, g1, _⟩ := share_sum hW hW2 hn hF hnF rfl e
  have g2 := streamEls_sum hk0 ws1 (fun w h => hw w (by simp [h])) 0 (by norm_num)
  have hs1 := sum_close h1
  have hs := sum_close (List.rel_append h1 h2)
  rw [add_zero] at g2
  have hn1 : (ws1.length : ℚ) ≤ (ws1 ++ ws2).length := by
    exact_mod_cast (by rw [List.length_append]; omega : ws1.length ≤ (ws1 ++ ws2).length)
  have hS1 : ws1.sum ≤ (ws1 ++ ws2).sum := by
    rw [List.sum_append]
    have : 0 ≤ ws2.sum := List.sum_nonneg fun w h => hw w (by simp [h])
    linarith
  have hv1 : (vs1.sum : ℚ) ≤ ((vs1 ++ vs2).sum : ℚ) := by
    exact_mod_cast (by rw [List.sum_append]; omega : vs1.sum ≤ (vs1 ++ vs2).sum)
  have hv0 : (0 : ℚ) ≤ vs1.sum := by positivity
  have hvp : (0 : ℚ) < (vs1 ++ vs2).sum := by
    rcases Nat.eq_zero_or_pos (vs1 ++ vs2).sum with h0 | h0
    · rw [h0, Nat.cast_zero, zero_div, zero_div, sub_zero] at hs
      rw [abs_eq_zero.1 (le_antisymm hs (abs_nonneg _)), sub_zero, abs_of_nonneg (le_trans (by norm_num) hW)] at e
      have hnn : ((ws1 ++ ws2).length : ℚ) ≤ 2 ^ 49 := by
        have h3 : (ws1 ++ ws2).length ≤ 2 ^ 49 :=
          le_trans (Nat.le_mul_of_pos_right _ (by omega)) hnF
        exact_mod_cast h3
      generalize sumW (ws1 ++ ws2) 0 = W at *
      have h4 : ((ws1 ++ ws2).length : ℚ) * (W * (101 / 100) / 2 ^ 53 + 1 / 2 ^ 199)
          ≤ 2 ^ 49 * (W * (101 / 100) / 2 ^ 53 + 1 / 2 ^ 199) := by
        apply mul_le_mul_of_nonneg_right hnn
        have : 0 ≤ W := le_trans (by norm_num) hW
        positivity
      norm_num at h4 e hW
      linarith
    · exact_mod_cast h0
  set k := R ((F : ℚ) / sumW (ws1 ++ ws2) 0)
  have hnq : (1 : ℚ) ≤ (ws1 ++ ws2).length := by exact_mod_cast hn
  have hnFq : ((ws1 ++ ws2).length : ℚ) * (F + 1) ≤ 2 ^ 49 := by exact_mod_cast hnF
  unfold dueOf
  generalize ((ws1 ++ ws2).length : ℚ) = n at *
  generalize (ws1.length : ℚ) = n1 at *
  generalize (ws1 ++ ws2).sum = S at *
  generalize ws1.sum = S1 at *
  generalize ((vs1 ++ vs2).sum : ℚ) = v at *
  generalize (vs1.sum : ℚ) = v1 at *
  generalize ((streamEls k ws1 0).sum : ℚ) = Z at *
  have hF0 : (0 : ℚ) ≤ F := by positivity
  have hFq : (F : ℚ) ≤ 2147483647 := by exact_mod_cast hF
  -- the ratio of the weights
  obtain ⟨t, ht⟩ : ∃ t : ℚ, t = v1 / v := ⟨_, rfl⟩
  have ht0 : 0 ≤ t := by rw [ht]; positivity
  have ht1 : t ≤ 1 := by rw [ht, div_le_one hvp]; exact hv1
  have hvt : v1 = t * v := by rw [ht]; field_simp
  have hdue : (F : ℚ) * v1 / v = t * F := by rw [ht]; ring
  rw [hdue]
  subst hvt
  set σ := v / 65535 with hσ
  have hσ0 : 0 ≤ σ := by positivity
  have e1 : t * v / 65535 = t * σ := by rw [hσ]; ring
  rw [e1] at hs1
  -- multiplied by the coefficient
  have k1 : |k * S1 - t * (k * σ)| ≤ t * (k * σ) / 2 ^ 51 := by
    have : k * S1 - t * (k * σ) = k * (S1 - t * σ) := by ring
    rw [this, abs_mul, abs_of_nonneg hk0]
    calc k * |S1 - t * σ| ≤ k * (t * σ / 2 ^ 51) := mul_le_mul_of_nonneg_left hs1 hk0
      _ = _ := by ring
  have k2 : |k * S - k * σ| ≤ k * σ / 2 ^ 51 := by
    rw [← mul_sub, abs_mul, abs_of_nonneg hk0]
    calc k * |S - σ| ≤ k * (σ / 2 ^ 51) := mul_le_mul_of_nonneg_left hs hk0
      _ = _ := by ring
  have kσ0 : 0 ≤ k * σ := mul_nonneg hk0 hσ0
  have kS : k * S1 ≤ k * S := mul_le_mul_of_nonneg_left hS1 hk0
  generalize k * σ = y at *
  generalize k * S = x at *
  generalize k * S1 = x1 at *
  obtain ⟨a1, a2⟩ := abs_le.1 g1
  obtain ⟨b1, b2⟩ := abs_le.1 g2
  obtain ⟨c1, c2⟩ := abs_le.1 k1
  obtain ⟨d1, d2⟩ := abs_le.1 k2
  have hnn : n ≤ n * (F + 1) := by nlinarith
  have hFn : (F : ℚ) + 1 ≤ n * (F + 1) := by nlinarith
  have hmul : 102 / 100 * n * (F + 1) = 102 / 100 * (n * (F + 1)) := by ring
  rw [hmul] at a1 a2
  generalize n * (F + 1) = P at *
  have hy : y ≤ 2147483648 := by
    norm_num at a2 d1 d2 ⊢; linarith
  have hyF : |y - F| ≤ 1 / 7 := by
    rw [abs_le]; norm_num at a1 a2 d1 d2 ⊢; constructor <;> linarith
  have hty : t * y ≤ y := mul_le_of_le_one_left kσ0 ht1
  have htF : |t * y - t * F| ≤ 1 / 7 := by
    rw [← mul_sub, abs_mul, abs_of_nonneg ht0]
    exact (mul_le_of_le_one_left (abs_nonneg _) ht1).trans hyF
  obtain ⟨f1, f2⟩ := abs_le.1 htF
  have hty0 : 0 ≤ t * y := mul_nonneg ht0 kσ0
  rw [abs_lt]
  norm_num at a1 a2 b1 b2 c1 c2 d1 d2 hnFq ⊢
  constructor <;> linarith

/-! ## The pieces of one kind -/

theorem setEls_take (kv ku : ℚ) (l : List Row) (vr ur : ℚ) (j : Nat) :
    (setEls kv ku l vr ur).take j = setEls kv ku (l.take j) vr ur := by
  induction l generalizing vr ur j with
  | nil => simp [setEls]
  | cons x l ih =>
    cases j with
    | zero => simp [setEls]
    | succ j =>
      rw [List.take_succ_cons]
      unfold setEls
      split
      · simp [ih]
      · split <;> simp [ih]

theorem setEls_unb {kv ku : ℚ} {l : List Row} (h : ∀ x ∈ l, x.1.Ok) (vr ur : ℚ) :
    (List.zipWith (fun (x : Row) (e : Int) => if x.1.2 = -1 then e - x.1.1 else 0) l (setEls kv ku l vr ur)).sum
      = (streamEls ku (unbW l) ur).sum := by
  induction l generalizing vr ur with
  | nil => rfl
  | cons x l ih =>
    have ih := ih (fun y hy => h y (by simp [hy]))
    unfold setEls unbW
    rcases (h x (by simp)).cases with ⟨e1, e2, e3, e4⟩ | ⟨e1, e2, e3, e4⟩ | ⟨e1, e2, e3, e4, e5⟩
    · have hu := (x.1.unb_iff).not.1 (by simp [e2])
      rw [e1, e2]; simp [ih, hu]
    · rw [e2]; simp [ih, e4, streamEls]
    · have hu := (x.1.unb_iff).not.1 (by simp [e2])
      rw [e1, e2]; simp [ih, hu]

theorem setEls_var {kv ku : ℚ} {l : List Row} (h : ∀ x ∈ l, x.1.Ok) (vr ur : ℚ) :
    (List.zipWith (fun (x : Row) (e : Int) => if IsVariated x.1 then e - x.1.1 else 0) l (setEls kv ku l vr ur)).sum
      = (streamEls kv (varW l) vr).sum := by
  induction l generalizing vr ur with
  | nil => rfl
  | cons x l ih =>
    have ih := ih (fun y hy => h y (by simp [hy]))
    unfold setEls varW
    rcases (h x (by simp)).cases with ⟨e1, e2, e3, e4⟩ | ⟨e1, e2, e3, e4⟩ | ⟨e1, e2, e3, e4, e5⟩
    · have hu : ¬ IsVariated x.1 := by rw [isVariated_iff, e3]; simp
      rw [e1, e2, e3]; simp [ih, hu]
    · have hu : ¬ IsVariated x.1 := by rw [isVariated_iff, e3]; simp
      rw [e2, e3]; simp [ih, hu]
    · have hu : IsVariated x.1 := by rw [isVariated_iff, e3]
      rw [e1, e2, e3]; simp [ih, hu, streamEls]

theorem unbW_append (l l' : List Row) : unbW (l ++ l') = unbW l ++ unbW l' := by
  induction l with
  | nil => rfl
  | cons x l ih => simp only [List.cons_append, unbW]; split <;> simp [ih]

theorem varW_append (l l' : List Row) : varW (l ++ l') = varW l ++ varW l' := by
  induction l with
  | nil => rfl
  | cons x l ih => simp only [List.cons_append, varW]; split <;> simp [ih]

/-- The oracles of the unbounded rows. -/
def unbO : List Row → List Nat
  | [] => []
  | x :: l => if x.1.unb then x.2 :: unbO l else unbO l

/-- The exact weights of the variated rows. -/
def varO : List Row → List Nat
  | [] => []
  | x :: l => if x.1.var then ((x.1.2 - x.1.1).toNat * x.2) :: varO l else varO l

theorem unbO_close (l : List Row) :
    List.Forall₂ (fun (w : ℚ) (v : Nat) => |w - v / 65535| ≤ (v : ℚ) / 65535 / 2 ^ 51) (unbW l) (unbO l) := by
  induction l with
  | nil => exact .nil
  | cons x l ih =>
    unfold unbW unbO
    by_cases h : x.1.unb = true
    · rw [if_pos h, if_pos h]
      refine .cons ((modQ_err x.2).trans ?_) ih
      have : (0 : ℚ) ≤ (x.2 : ℚ) / 65535 := by positivity
      norm_num
      linarith
    · rw [if_neg h, if_neg h]
      exact ih

theorem varWeight_close {x : Row} (h : x.1.Ok) (hv : x.1.var = true) :
    |varWeight x - ((((x.1.2 - x.1.1).toNat * x.2 : Nat)) : ℚ) / 65535|
      ≤ ((((x.1.2 - x.1.1).toNat * x.2 : Nat)) : ℚ) / 65535 / 2 ^ 51 := by
  rcases h.cases with ⟨_, _, e, _⟩ | ⟨_, _, e, _⟩ | ⟨_, _, _, h3, h4⟩
  · rw [e] at hv; cases hv
  · rw [e] at hv; cases hv
  obtain ⟨h0, _, _⟩ := h
  have hd : (((x.1.2 - x.1.1).toNat : Nat) : ℚ) = ((x.1.2 - x.1.1 : Int) : ℚ) := by
    have : (((x.1.2 - x.1.1).toNat : Nat) : Int) = x.1.2 - x.1.1 := Int.toNat_of_nonneg (by omega)
    exact_mod_cast this
  rw [Nat.cast_mul, hd]
  have hd1 : (1 : ℚ) ≤ ((x.1.2 - x.1.1 : Int) : ℚ) := by exact_mod_cast (by omega : (1 : Int) ≤ x.1.2 - x.1.1)
  rcases Nat.eq_zero_or_pos x.2 with ho | ho
  · unfold varWeight
    rw [ho, modQ_zero]; simp [rnd_zero]
  unfold varWeight
  generalize ((x.1.2 - x.1.1 : Int) : ℚ) = d at *
  have hm := modQ_err x.2
  have ho1 : (1 : ℚ) ≤ x.2 := by exact_mod_cast ho
  have m0 := modQ_nonneg x.2
  have e := rnd64_err (d * modQ x.2)
  rw [abs_of_nonneg (mul_nonneg (by linarith) m0)] at e
  have hdm : |d * modQ x.2 - d * x.2 / 65535| ≤ d * x.2 / 65535 / 2 ^ 52 := by
    have : d * modQ x.2 - d * x.2 / 65535 = d * (modQ x.2 - x.2 / 65535) := by ring
    rw [this, abs_mul, abs_of_nonneg (by linarith)]
    calc d * |modQ x.2 - x.2 / 65535| ≤ d * ((x.2 : ℚ) / 65535 / 2 ^ 52) :=
          mul_le_mul_of_nonneg_left hm (by linarith)
      _ = _ := by ring
  have hbig : (1 : ℚ) ≤ d * x.2 := by nlinarith
  generalize d * modQ x.2 = y at *
  generalize d * (x.2 : ℚ) = z at *
  obtain ⟨a1, a2⟩ := abs_le.1 e
  obtain ⟨b1, b2⟩ := abs_le.1 hdm
  rw [abs_le]
  norm_num at a1 a2 b1 b2 ⊢
  constructor <;> linarith

theorem varO_close {l : List Row} (hl : ∀ x ∈ l, x.1.Ok) :
    List.Forall₂ (fun (w : ℚ) (v : Nat) => |w - v / 65535| ≤ (v : ℚ) / 65535 / 2 ^ 51) (varW l) (varO l) := by
  induction l with
  | nil => exact .nil
  | cons x l ih =>
    have ih := ih (fun y hy => hl y (by simp [hy]))
    unfold varW varO
    by_cases h : x.1.var = true
    · rw [if_pos h, if_pos h]
      exact .cons (varWeight_close (hl x (by simp)) h) ih
    · rw [if_neg h, if_neg h]
      exact ih

theorem unbO_append (l l' : List Row) : unbO (l ++ l') = unbO l ++ unbO l' := by
  induction l with
  | nil => rfl
  | cons x l ih => simp only [List.cons_append, unbO]; split <;> simp [ih]

theorem varO_append (l l' : List Row) : varO (l ++ l') = varO l ++ varO l' := by
  induction l with
  | nil => rfl
  | cons x l ih => simp only [List.cons_append, varO]; split <;> simp [ih]

theorem unbO_sum (l : List Row) : (unbO l).sum = (l.map fun x => if x.1.2 = -1 then x.2 else 0).sum := by
  induction l with
  | nil => rfl
  | cons x l ih =>
    unfold unbO
    by_cases h : x.1.unb = true
    · rw [if_pos h]; simp [ih, x.1.unb_iff.1 h]
    · rw [if_neg h]; simp [ih, (x.1.unb_iff).not.1 h]

theorem varO_sum (l : List Row) :
    (varO l).sum = (l.map fun x => if IsVariated x.1 then (x.1.2 - x.1.1).toNat * x.2 else 0).sum := by
  induction l with
  | nil => rfl
  | cons x l ih =>
    unfold varO
    by_cases h : x.1.var = true
    · rw [if_pos h]; simp [ih, (isVariated_iff x.1).2 h]
    · rw [if_neg h]; simp [ih, (isVariated_iff x.1).not.2 h]

/-! ## The weights of the specification -/

theorem varWeights_eq {ss : List SizePair} (h : ∀ s ∈ ss, s.Ok) {bs : Bytes} (hl : 2 * oracleCount ss ≤ bs.length) :
    varWeights ss bs = (finRows (setRows ss bs)).map
      fun x => if IsVariated x.1 then (x.1.2 - x.1.1).toNat * x.2 else 0 := by
  have h1 : varWeights ss bs = (setRows ss bs).map
      fun x => if IsVariated x.1 then (x.1.2 - x.1.1).toNat * x.2 else 0 := by
    rw [setRows_eq h bs hl, List.map_zipWith]
    unfold varWeights
    congr 1
    funext s o
    by_cases hv : IsVariated s
    · have hu : s.unb = false := by rw [unb_eq]; simp [hv.2]
      have e : (mkRow s o).1 = s := rfl
      have e2 : (mkRow s o).2 = o.getD 0 := by simp [mkRow, hu]
      rw [if_pos hv, e, e2, if_pos hv]
      simp [slack, hv.2]
    · have e : (mkRow s o).1 = s := rfl
      rw [if_neg hv, e, if_neg hv]
  rw [h1]
  unfold finRows
  split
  · rw [List.map_map]
    apply List.map_congr_left
    intro x _
    have e : (fixRow x).1 = x.1 := rfl
    show _ = if IsVariated (fixRow x).1 then ((fixRow x).1.2 - (fixRow x).1.1).toNat * (fixRow x).2 else 0
    rw [e]
    by_cases hv : IsVariated x.1
    · have hu : x.1.unb = false := by rw [unb_eq]; simp [hv.2]
      rw [if_pos hv, if_pos hv]
      simp [fixRow, hu]
    · rw [if_neg hv, if_neg hv]
  · rfl

theorem unbWeights_eq {ss : List SizePair} (h : ∀ s ∈ ss, s.Ok) {bs : Bytes} (hl : 2 * oracleCount ss ≤ bs.length) :
    unbWeights ss bs = (finRows (setRows ss bs)).map fun x => if x.1.2 = -1 then x.2 else 0 := by
  have h1 : unbAsks ss bs = (setRows ss bs).map fun x => if x.1.2 = -1 then x.2 else 0 := by
    rw [setRows_eq h bs hl, List.map_zipWith]
    unfold unbAsks
    congr 1
    funext s o
    have e : (mkRow s o).1 = s := rfl
    rw [e]
    by_cases hv : s.2 = -1
    · have hu : s.unb = true := by rw [unb_eq]; simp [hv]
      have e2 : (mkRow s o).2 = o.getD 65535 := by simp [mkRow, hu]
      rw [if_pos hv, e2, if_pos hv]
    · rw [if_neg hv, if_neg hv]
  have h2 : (unbAsks ss bs).sum = 0 ↔ sumW (unbW (setRows ss bs)) 0 = 0 := by
    rw [h1, List.sum_eq_zero_iff]
    constructor
    · intro hz
      apply sumW_unbW_of_zero
      intro x hx hu
      have := hz _ (List.mem_map_of_mem hx)
      rwa [if_pos (x.1.unb_iff.1 hu)] at this
    · intro hz y hy
      obtain ⟨x, hx, rfl⟩ := List.mem_map.1 hy
      split
      · next hu => exact sumW_unbW_zero hz x hx (x.1.unb_iff.2 hu)
      · rfl
  unfold unbWeights finRows
  by_cases hz : (unbAsks ss bs).sum = 0
  · rw [if_pos hz, if_pos (h2.1 hz), List.map_map]
    have hf : (setRows ss bs).map Prod.fst = ss := rowsOf_fst _ _ _
    conv_lhs => rw [← hf, List.map_map]
    apply List.map_congr_left
    intro x _
    have e : (fixRow x).1 = x.1 := rfl
    show (if x.1.2 = -1 then 65535 else 0) = if (fixRow x).1.2 = -1 then (fixRow x).2 else 0
    rw [e]
    by_cases hv : x.1.2 = -1
    · rw [if_pos hv, if_pos hv]
      simp [fixRow, x.1.unb_iff.2 hv]
    · rw [if_neg hv, if_neg hv]
  · rw [if_neg hz, if_neg (fun h => hz (h2.2 h)), h1]

theorem extraOf_eq {kind : SizePair → Prop} [DecidablePred kind] {l : List Row} {parts : List Bytes} {els : List Int}
    (h : List.Forall₂ (fun (p : Bytes) (e : Int) => (p.length : Int) = e) parts els) :
    extraOf kind (l.map Prod.fst) parts
      = (List.zipWith (fun (x : Row) (e : Int) => if kind x.1 then e - x.1.1 else 0) l els).sum := by
  unfold extraOf
  rw [List.zipWith_map_left]
  induction h generalizing l with
  | nil => simp
  | @cons p e parts els h1 _ ih =>
    cases l with
    | nil => simp
    | cons x l =>
      simp only [List.zipWith_cons_cons, List.sum_cons, ih, h1]

theorem lePairs_one {a : Bytes} (h : 2 ≤ a.length) : (lePairs 1 a).sum = leNat (a.take 2) := by
  rw [lePairs_succ 0 a h]; simp [lePairs]

theorem toNat_sum {els : List Int} (hnn : ∀ e ∈ els, 0 ≤ e) : ((els.map Int.toNat).sum : Int) = els.sum := by
  induction els with
  | nil => rfl
  | cons e els ih =>
    have h1 := hnn e (by simp)
    have h2 := ih (fun x hx => hnn x (by simp [hx]))
    rw [List.map_cons, List.sum_cons, List.sum_cons, Nat.cast_add, h2]
    omega

theorem min_close {m r p ε : ℚ} (h : |r - p| ≤ ε) : |min m r - min m p| ≤ ε := by
  obtain ⟨a1, a2⟩ := abs_le.1 h
  rw [abs_le]
  rcases min_cases m r with ⟨e, _⟩ | ⟨e, _⟩ <;> rcases min_cases m p with ⟨e', _⟩ | ⟨e', _⟩ <;> rw [e, e'] <;>
    constructor <;> linarith

/-- What the variated stamps get together. -/
theorem final_close {P W lim : ℚ} {L : ℚ} {fv l : Int} (hl : lim = l) (h1 : |W - P| ≤ 3 / 10) (h2 : |lim - L| ≤ 6 / 10)
    (h3 : fv = if W < lim then roundHA W else l) (h4 : fv ≤ l) : |(fv : ℚ) - min P L| < 1 := by
  obtain ⟨a1, a2⟩ := abs_le.1 h1
  obtain ⟨b1, b2⟩ := abs_le.1 h2
  have h4' : (fv : ℚ) ≤ l := by exact_mod_cast h4
  rw [← hl] at h4'
  rw [abs_lt]
  by_cases hc : W < lim
  · rw [if_pos hc] at h3
    obtain ⟨c1, c2⟩ := abs_le.1 (roundHA_err W)
    rw [← h3] at c1 c2
    rcases min_cases P L with ⟨e, _⟩ | ⟨e, _⟩ <;> rw [e] <;> constructor <;> linarith
  · rw [if_neg hc] at h3
    rw [h3, ← hl]
    rw [not_lt] at hc
    rcases min_cases P L with ⟨e, _⟩ | ⟨e, _⟩ <;> rw [e] <;> constructor <;> linarith

end BS
