import Verif.Lemmas.SetStream
import Verif.Lemmas.GalleyUnb
import Verif.Lemmas.Dict

/-!
# Lemmas about the set galley
-/

namespace BS
open BlobLike

local notation "R" => rnd f64

theorem Out.bind_ok' {α γ : Type} (a : α) (f : α → Out γ) : (Out.ok a >>= f) = f a := rfl

/-! ## Kinds of stamps -/

/-- Sizes a stamp may report: a minimum, and a maximum or -1. -/
def SizePair.Ok (s : SizePair) : Prop := 0 ≤ s.1 ∧ s.1 ≤ INT_MAX ∧ (s.2 = -1 ∨ (s.1 ≤ s.2 ∧ s.2 ≤ INT_MAX))

theorem SizePair.fixed_iff (s : SizePair) : s.fixed = true ↔ s.1 = s.2 := by simp [SizePair.fixed]
theorem SizePair.unb_iff (s : SizePair) : s.unb = true ↔ s.2 = -1 := by simp [SizePair.unb]
theorem SizePair.var_iff (s : SizePair) : s.var = true ↔ s.1 ≠ s.2 ∧ s.2 ≠ -1 := by
  simp [SizePair.var, SizePair.fixed, SizePair.unb]

/-- Exactly one kind. -/
theorem SizePair.Ok.cases {s : SizePair} (h : s.Ok) :
    (s.fixed = true ∧ s.unb = false ∧ s.var = false ∧ s.1 = s.2) ∨
    (s.fixed = false ∧ s.unb = true ∧ s.var = false ∧ s.2 = -1) ∨
    (s.fixed = false ∧ s.unb = false ∧ s.var = true ∧ s.1 < s.2 ∧ s.2 ≤ INT_MAX) := by
  obtain ⟨h1, h2, h3⟩ := h
  have f := s.fixed_iff
  have u := s.unb_iff
  have v := s.var_iff
  rcases Bool.eq_false_or_eq_true s.fixed with e1 | e1 <;>
  rcases Bool.eq_false_or_eq_true s.unb with e2 | e2 <;>
  rcases Bool.eq_false_or_eq_true s.var with e3 | e3 <;>
  simp only [e1, e2, e3, true_iff, false_iff, Bool.false_eq_true, true_and, false_and, reduceCtorEq,
    or_false, false_or, and_self] at * <;> omega

/-- Sum of the minima. -/
def minSum (ss : List SizePair) : Int := (ss.map Prod.fst).sum

/-- Sum of the widths of the variated stamps. -/
def dSum : List SizePair → Int
  | [] => 0
  | s :: ss => (if s.var then s.2 - s.1 else 0) + dSum ss

theorem minSum_nonneg {ss : List SizePair} (h : ∀ s ∈ ss, s.Ok) : 0 ≤ minSum ss := by
  unfold minSum
  apply List.sum_nonneg
  intro x hx
  obtain ⟨s, hs, rfl⟩ := List.mem_map.1 hx
  exact (h s hs).1

theorem dSum_nonneg {ss : List SizePair} (h : ∀ s ∈ ss, s.Ok) : 0 ≤ dSum ss := by
  induction ss with
  | nil => simp [dSum]
  | cons s ss ih =>
    have h1 := ih (fun x hx => h x (by simp [hx]))
    unfold dSum
    rcases (h s (by simp)).cases with ⟨_, _, e, _⟩ | ⟨_, _, e, _⟩ | ⟨_, _, e, h3, _⟩ <;> rw [e] <;> simp <;> omega

theorem setTotals_ok {ss : List SizePair} (h : ∀ s ∈ ss, s.Ok) (t : SetTotals) (h1 : 0 ≤ t.fixed)
    (h2 : t.fixed + minSum ss ≤ INT_MAX) (h3 : 0 ≤ t.maxVar) (h4 : t.maxVar + dSum ss ≤ INT_MAX) :
    setTotals ss t = .ok ⟨t.fixed + minSum ss, t.maxVar + dSum ss, t.nUnb + ss.countP SizePair.unb,
      t.nVar + ss.countP SizePair.var⟩ := by
  induction ss generalizing t with
  | nil => simp [setTotals, minSum, dSum]
  | cons s ss ih =>
    have hs := h s (by simp)
    have hss : ∀ x ∈ ss, x.Ok := fun x hx => h x (by simp [hx])
    have m0 := minSum_nonneg hss
    have d0 := dSum_nonneg hss
    have hm : minSum (s :: ss) = s.1 + minSum ss := by simp [minSum]
    rw [hm] at h2
    unfold setTotals
    obtain ⟨hs1, hs2, hs3⟩ := hs
    rw [ckInt_ok (by omega) (by omega)]
    simp only [Out.bind_ok']
    rcases (h s (by simp)).cases with ⟨e1, e2, e3, _⟩ | ⟨e1, e2, e3, _⟩ | ⟨e1, e2, e3, h5, h6⟩
    · have hd : dSum (s :: ss) = dSum ss := by simp [dSum, e3]
      rw [hd] at h4
      rw [e3, e2, if_neg (by simp), if_neg (by simp), ih hss _ (by dsimp only; omega) (by dsimp only; omega)
        (by dsimp only; omega) (by dsimp only; omega), hm, hd]
      simp [e2, e3]; ring
    · have hd : dSum (s :: ss) = dSum ss := by simp [dSum, e3]
      rw [hd] at h4
      rw [e3, e2, if_neg (by simp), if_pos rfl, ih hss _ (by dsimp only; omega) (by dsimp only; omega)
        (by dsimp only; omega) (by dsimp only; omega), hm, hd]
      simp [e2, e3]
      constructor <;> ring
    · have hd : dSum (s :: ss) = s.2 - s.1 + dSum ss := by simp [dSum, e3]
      rw [hd] at h4
      rw [e3, if_pos rfl, ckInt_ok (by omega) (by omega)]
      simp only [Out.bind_ok']
      rw [ckInt_ok (by omega) (by omega)]
      simp only [Out.bind_ok']
      rw [ih hss _ (by dsimp only; omega) (by dsimp only; omega)
        (by dsimp only; omega) (by dsimp only; omega), hm, hd]
      simp [e2, e3]
      refine ⟨by ring, by ring, by ring⟩

/-! ## Modifiers -/

/-- `(double) o / (double) ORACLE_MAX` -/
def modQ (o : Nat) : ℚ := R ((o : ℚ) / 65535)

theorem modQ_zero : modQ 0 = 0 := by unfold modQ; simp [rnd_zero]

theorem modQ_max : modQ 65535 = 1 := by
  unfold modQ
  rw [show (((65535 : Nat) : ℚ) / 65535) = ((1 : Nat) : ℚ) by norm_num, rnd64_nat (by norm_num)]; norm_num

theorem modQ_rep (o : Nat) : Rep f64 (modQ o) := rnd_rep f64 f64_p _

theorem modQ_nonneg (o : Nat) : 0 ≤ modQ o := rnd_nonneg _ (by positivity)

theorem modQ_le {o : Nat} (h : o ≤ 65535) : modQ o ≤ 1 := by
  rw [← modQ_max]
  apply rnd_mono f64 f64_p
  apply div_le_div_of_nonneg_right _ (by norm_num)
  exact_mod_cast h

theorem modQ_pos {o : Nat} (h : 1 ≤ o) : 1 / 2 ^ 16 ≤ modQ o := by
  refine le_rnd_of_rep f64 f64_p ⟨1, -16, by rw [pow2_eq]; norm_num, by decide, by decide⟩ ?_
  have : (1 : ℚ) ≤ o := by exact_mod_cast h
  norm_num; linarith

theorem modifierOf_eq {o : Nat} (h : o ≤ 65535) : modifierOf o = .fin (modQ o) := by
  unfold modifierOf
  rw [ofInt64_nat (by omega), show (65535 : Int) = ((65535 : Nat) : Int) by rfl, ofInt64_nat (by omega),
    rnd64_nat (by omega), rnd64_nat (by norm_num), FV.div_fin _ _ (by norm_num), ofQ64]
  · push_cast; rfl
  · have : (o : ℚ) ≤ 65535 := by exact_mod_cast h
    rw [abs_of_nonneg (by positivity)]
    push_cast
    rw [div_le_iff₀ (by norm_num)]
    norm_num; linarith

/-! ## Weights -/

/-- A stamp with its oracle. -/
abbrev Row := SizePair × Nat

/-- `(s->maxSize() - s->minSize()) * modifier` -/
def varWeight (x : Row) : ℚ := R (((x.1.2 - x.1.1 : Int) : ℚ) * modQ x.2)

/-- Weights of the variated stamps. -/
def varW : List Row → List ℚ
  | [] => []
  | x :: l => if x.1.var then varWeight x :: varW l else varW l

/-- Weights of the unbounded stamps. -/
def unbW : List Row → List ℚ
  | [] => []
  | x :: l => if x.1.unb then modQ x.2 :: unbW l else unbW l

theorem mem_varW {l : List Row} {w : ℚ} (h : w ∈ varW l) : ∃ x ∈ l, x.1.var = true ∧ w = varWeight x := by
  induction l with
  | nil => simp [varW] at h
  | cons x l ih =>
    unfold varW at h
    split at h
    · next hv =>
      rcases List.mem_cons.1 h with rfl | h
      · exact ⟨x, by simp, hv, rfl⟩
      · obtain ⟨y, hy, h1⟩ := ih h; exact ⟨y, by simp [hy], h1⟩
    · obtain ⟨y, hy, h1⟩ := ih h; exact ⟨y, by simp [hy], h1⟩

theorem varWeight_mem {l : List Row} {x : Row} (h : x ∈ l) (hv : x.1.var = true) : varWeight x ∈ varW l := by
  induction l with
  | nil => simp at h
  | cons y l ih =>
    unfold varW
    rcases List.mem_cons.1 h with rfl | h
    · rw [if_pos hv]; simp
    · split <;> simp [ih h]

theorem mem_unbW {l : List Row} {w : ℚ} (h : w ∈ unbW l) : ∃ x ∈ l, x.1.unb = true ∧ w = modQ x.2 := by
  induction l with
  | nil => simp [unbW] at h
  | cons x l ih =>
    unfold unbW at h
    split at h
    · next hv =>
      rcases List.mem_cons.1 h with rfl | h
      · exact ⟨x, by simp, hv, rfl⟩
      · obtain ⟨y, hy, h1⟩ := ih h; exact ⟨y, by simp [hy], h1⟩
    · obtain ⟨y, hy, h1⟩ := ih h; exact ⟨y, by simp [hy], h1⟩

theorem unbWeight_mem {l : List Row} {x : Row} (h : x ∈ l) (hv : x.1.unb = true) : modQ x.2 ∈ unbW l := by
  induction l with
  | nil => simp at h
  | cons y l ih =>
    unfold unbW
    rcases List.mem_cons.1 h with rfl | h
    · rw [if_pos hv]; simp
    · split <;> simp [ih h]

theorem varW_length (l : List Row) : (varW l).length = (l.map Prod.fst).countP SizePair.var := by
  induction l with
  | nil => rfl
  | cons x l ih =>
    unfold varW
    rw [List.map_cons, List.countP_cons]
    split
    · rw [List.length_cons, ih]
    · rw [ih]; rfl

theorem unbW_length (l : List Row) : (unbW l).length = (l.map Prod.fst).countP SizePair.unb := by
  induction l with
  | nil => rfl
  | cons x l ih =>
    unfold unbW
    rw [List.map_cons, List.countP_cons]
    split
    · rw [List.length_cons, ih]
    · rw [ih]; rfl

/-- Bounds on a variated weight. -/
theorem varWeight_bounds {x : Row} (h : x.1.Ok) (hv : x.1.var = true) (ho : x.2 ≤ 65535) :
    0 ≤ varWeight x ∧ varWeight x ≤ ((x.1.2 - x.1.1 : Int) : ℚ) ∧ Rep f64 (varWeight x) ∧
    (1 ≤ x.2 → 1 / 2 ^ 16 ≤ varWeight x) ∧ (x.2 = 0 → varWeight x = 0) := by
  rcases h.cases with ⟨_, _, e, _⟩ | ⟨_, _, e, _⟩ | ⟨_, _, _, h3, h4⟩
  · rw [e] at hv; cases hv
  · rw [e] at hv; cases hv
  obtain ⟨h0, _, _⟩ := h
  have hd : (1 : ℚ) ≤ ((x.1.2 - x.1.1 : Int) : ℚ) := by exact_mod_cast (by omega : (1 : Int) ≤ x.1.2 - x.1.1)
  have hrep : Rep f64 ((x.1.2 - x.1.1 : Int) : ℚ) := rep64_int (by rw [abs_of_nonneg (by omega)]; omega)
  have m0 := modQ_nonneg x.2
  have m1 := modQ_le ho
  unfold varWeight
  set d : ℚ := ((x.1.2 - x.1.1 : Int) : ℚ)
  refine ⟨rnd_nonneg _ (mul_nonneg (by linarith) m0), rnd_le_of_rep f64 f64_p hrep (by nlinarith),
    rnd_rep f64 f64_p _, fun h => ?_, fun h => by rw [h, modQ_zero, mul_zero, rnd_zero]⟩
  refine le_rnd_of_rep f64 f64_p ⟨1, -16, by rw [pow2_eq]; norm_num, by decide, by decide⟩ ?_
  have := modQ_pos h
  nlinarith

/-- Totals of the weights are bounded by the widths. -/
theorem sumW_varW_le {l : List Row} (h : ∀ x ∈ l, x.1.Ok ∧ x.2 ≤ 65535) {p : ℚ} {A : Int} (hA0 : 0 ≤ A)
    (hp : p ≤ A) (hA : A + dSum (l.map Prod.fst) ≤ INT_MAX) :
    sumW (varW l) p ≤ ((A + dSum (l.map Prod.fst) : Int) : ℚ) := by
  induction l generalizing p A with
  | nil => simpa [varW, sumW, dSum] using hp
  | cons x l ih =>
    have hl : ∀ x ∈ l, x.1.Ok ∧ x.2 ≤ 65535 := fun y hy => h y (by simp [hy])
    have d0 : 0 ≤ dSum (l.map Prod.fst) := dSum_nonneg (by
      intro s hs; obtain ⟨y, hy, rfl⟩ := List.mem_map.1 hs; exact (hl y hy).1)
    have hx := h x (by simp)
    simp only [List.map_cons, dSum] at hA ⊢
    unfold varW
    by_cases hv : x.1.var = true
    · rw [if_pos hv] at hA ⊢
      rw [if_pos hv]
      obtain ⟨_, b, _, _, _⟩ := varWeight_bounds hx.1 hv hx.2
      have hd0 : 0 ≤ x.1.2 - x.1.1 := by
        have : (0 : ℚ) ≤ ((x.1.2 - x.1.1 : Int) : ℚ) := by linarith [(varWeight_bounds hx.1 hv hx.2).1]
        exact_mod_cast this
      have h1 : R (p + varWeight x) ≤ ((A + (x.1.2 - x.1.1) : Int) : ℚ) := by
        refine rnd_le_of_rep f64 f64_p (rep64_int (by rw [abs_of_nonneg (by omega)]; omega)) ?_
        push_cast at b ⊢; linarith
      have := ih hl (by omega) h1 (by omega)
      rw [show A + (x.1.2 - x.1.1 + dSum (l.map Prod.fst)) = A + (x.1.2 - x.1.1) + dSum (l.map Prod.fst) by ring]
      exact this
    · rw [if_neg hv] at hA ⊢
      rw [if_neg hv, zero_add]
      exact ih hl hA0 hp (by omega)

theorem sumW_unbW_le {l : List Row} (h : ∀ x ∈ l, x.2 ≤ 65535) {p : ℚ} {A : Nat}
    (hp : p ≤ A) (hA : A + (l.map Prod.fst).countP SizePair.unb ≤ INT_MAX) :
    sumW (unbW l) p ≤ ((A + (l.map Prod.fst).countP SizePair.unb : Nat) : ℚ) := by
  induction l generalizing p A with
  | nil => simpa [unbW, sumW] using hp
  | cons x l ih =>
    have hl : ∀ x ∈ l, x.2 ≤ 65535 := fun y hy => h y (by simp [hy])
    have hx := h x (by simp)
    simp only [List.map_cons, List.countP_cons] at hA ⊢
    unfold unbW
    by_cases hv : x.1.unb = true
    · rw [if_pos hv] at hA ⊢
      rw [if_pos hv]
      have h1 : R (p + modQ x.2) ≤ ((A + 1 : Nat) : ℚ) := by
        refine rnd_le_of_rep f64 f64_p (rep64_nat (by omega)) ?_
        have := modQ_le hx
        push_cast; linarith
      have := ih hl h1 (by omega)
      rw [show A + ((l.map Prod.fst).countP SizePair.unb + 1)
        = A + 1 + (l.map Prod.fst).countP SizePair.unb by ring]
      exact this
    · rw [if_neg hv] at hA ⊢
      rw [if_neg hv, add_zero]
      exact ih hl hp (by omega)

end BS
