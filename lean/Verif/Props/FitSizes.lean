import Verif.Experiment
import Verif.Lemmas.SetStream
import Verif.Lemmas.FloatErr
import Verif.Lemmas.GalleySetRun

/-!
# C75: `fit_sizes` of t/320
-/

namespace BS

theorem f64p : f64.p ≠ 0 := by decide

theorem rep64_half : Rep f64 (1 / 2 : ℚ) := ⟨1, -1, by rw [pow2_eq]; norm_num, by decide, by decide⟩

theorem toUnsigned {y : ℚ} (h1 : 0 ≤ roundHA y) (h2 : roundHA y ≤ 4294967295) :
    FV.toIntRange 0 4294967295 (FV.round (.fin y)) = .ok (roundHA y) := by
  have ht : truncQ ((roundHA y : Int) : ℚ) = roundHA y := by
    unfold truncQ
    rw [if_pos (by exact_mod_cast h1), Int.floor_intCast]
  show (if (0 : Int) ≤ truncQ (roundHA y : ℚ) ∧ truncQ (roundHA y : ℚ) ≤ 4294967295
    then Out.ok (truncQ (roundHA y : ℚ)) else .ub .floatToInt) = _
  rw [ht, if_pos ⟨h1, h2⟩]

/-- `d_size` in one round of the loop. -/
def fitD (s : Nat) (p r : ℚ) : ℚ := rnd f64 (rnd f64 (s * p) + r)

/-- How far rounding moves `d_size`. -/
theorem fitD_err {s : Nat} {p r : ℚ} (h0 : 0 ≤ (s : ℚ) * p) (h1 : (s : ℚ) * p ≤ 2147483649) (hr : |r| ≤ 1 / 2) :
    |fitD s p r - (s * p + r)| ≤ 1 / 2 ^ 20 := by
  have e1 := rnd64_err ((s : ℚ) * p)
  have e2 := rnd64_err (rnd f64 ((s : ℚ) * p) + r)
  unfold fitD
  rw [abs_of_nonneg h0] at e1
  have r' := abs_le.1 hr
  have e1' := abs_le.1 e1
  have hm : |rnd f64 ((s : ℚ) * p) + r| ≤ 2147483651 := by
    rw [abs_le]
    constructor <;> linarith
  have e2' := abs_le.1 e2
  rw [abs_le]
  constructor <;> linarith

theorem fitLoop_step {s : Nat} {ss : List Int} {p r : ℚ} {N : Int} (hs : s < 2147483648)
    (h0 : 0 ≤ (s : ℚ) * p) (h1 : (s : ℚ) * p ≤ 2147483649) (hr : |r| ≤ 1 / 2) (hd : -(1 / 2) < fitD s p r) :
    fitLoop (.fin p) ((s : Int) :: ss) (.fin r) N =
      (fitLoop (.fin p) ss (.fin (fitD s p r - roundHA (fitD s p r))) (wrap32 (N + roundHA (fitD s p r)))).bind
        fun x => .ok ((roundHA (fitD s p r)).toNat :: x.1, x.2) := by
  have e := fitD_err h0 h1 hr
  have e' := abs_le.1 e
  have r' := abs_le.1 hr
  have hz0 := roundHA_nonneg hd
  have hz := abs_le.1 (roundHA_err (fitD s p r))
  have hz1 : roundHA (fitD s p r) ≤ 4294967295 := by
    have : ((roundHA (fitD s p r) : Int) : ℚ) ≤ ((4294967295 : Int) : ℚ) := by push_cast; linarith
    exact_mod_cast this
  have k0 : FV.ofInt f64 (s : Int) = .fin (s : ℚ) := by
    unfold FV.ofInt
    rw [ofQ64_rep]
    · push_cast; rfl
    · have : ((s : Int) : ℚ) ≤ ((2147483648 : Nat) : ℚ) := by exact_mod_cast hs.le
      rw [abs_of_nonneg (by positivity)]
      refine le_trans this (by norm_num)
    · exact rep64_int (by rw [abs_of_nonneg (by omega)]; omega)
  have k1 : FV.mul f64 (.fin (s : ℚ)) (.fin p) = .fin (rnd f64 (s * p)) := by
    show FV.ofQ f64 _ = _
    exact ofQ64 (by rw [abs_of_nonneg h0]; refine le_trans h1 (by norm_num))
  have e1 := rnd64_err ((s : ℚ) * p)
  rw [abs_of_nonneg h0] at e1
  have e1' := abs_le.1 e1
  have k2 : FV.add f64 (.fin (rnd f64 ((s : ℚ) * p))) (.fin r) = .fin (fitD s p r) := by
    show FV.ofQ f64 _ = _
    refine ofQ64 ?_
    have : |rnd f64 ((s : ℚ) * p) + r| ≤ 2147483651 := by
      rw [abs_le]
      constructor <;> linarith
    exact le_trans this (by norm_num)
  have k3 : FV.ofInt f64 (roundHA (fitD s p r)) = .fin (roundHA (fitD s p r) : ℚ) := by
    unfold FV.ofInt
    refine ofQ64_rep ?_ (rep64_int (by rw [abs_of_nonneg hz0]; omega))
    rw [abs_of_nonneg (by exact_mod_cast hz0)]
    have : ((roundHA (fitD s p r) : Int) : ℚ) ≤ ((4294967295 : Int) : ℚ) := by exact_mod_cast hz1
    refine le_trans this (by norm_num)
  have k4 : FV.sub f64 (.fin (fitD s p r)) (.fin (roundHA (fitD s p r) : ℚ)) =
      .fin (fitD s p r - roundHA (fitD s p r)) := by
    show FV.ofQ f64 (fitD s p r + -(roundHA (fitD s p r) : ℚ)) = _
    rw [← sub_eq_add_neg]
    refine ofQ64_rep ?_ (Rep.round_frac (rnd_rep f64 f64p _))
    exact le_trans (roundHA_err _) (by norm_num)
  conv_lhs => unfold fitLoop
  rw [k0, k1, k2]
  show (FV.toIntRange 0 4294967295 (FV.round (.fin (fitD s p r)))).bind _ = _
  rw [toUnsigned hz0 hz1]
  show (fitLoop _ ss (FV.sub f64 (.fin (fitD s p r)) (FV.ofInt f64 (roundHA (fitD s p r)))) _).bind _ = _
  rw [k3, k4]

/-- A positive seed keeps `d_size` above -1/2. -/
theorem fitD_pos {s : Nat} {p r : ℚ} (hs : 0 < s) (hp : 1 / 2 ^ 43 ≤ p) (hr : |r| ≤ 1 / 2) :
    -(1 / 2) < fitD s p r := by
  have hsp : 1 / 2 ^ 43 ≤ (s : ℚ) * p := by
    have : (1 : ℚ) ≤ (s : ℚ) := by exact_mod_cast hs
    nlinarith
  have e1 := rnd64_err ((s : ℚ) * p)
  rw [abs_of_nonneg (a := (s : ℚ) * p) (by linarith)] at e1
  have e1' := abs_le.1 e1
  have r' := abs_le.1 hr
  have hm : 1 / 2 ^ 44 ≤ rnd f64 ((s : ℚ) * p) := by linarith
  unfold fitD
  by_cases hx : 0 ≤ rnd f64 ((s : ℚ) * p) + r
  · have := rnd_nonneg f64 hx
    linarith
  · have e2 := rnd64_err (rnd f64 ((s : ℚ) * p) + r)
    rw [abs_of_neg (not_le.1 hx)] at e2
    have e2' := abs_le.1 e2
    linarith

theorem wrap32_small {z : Int} (h0 : 0 ≤ z) (h1 : z < 2147483648) : wrap32 z = z := by
  unfold wrap32; omega

section
variable {fit S : Nat} (hS : 0 < S) (hS' : S ≤ 2147483648000) (hf : fit < 2147483648) (hf0 : 0 < fit)
include hS hS' hf hf0

omit hS' hf0 in
/-- The share of a seed, with the computed proportion. -/
theorem prop_err {s : Nat} (hs : s ≤ S) (hs' : s < 2147483648) :
    |(s : ℚ) * rnd f64 ((fit : ℚ) / S) - fit * s / S| ≤ 1 / 2 ^ 20 := by
  have hSq : (0 : ℚ) < S := by exact_mod_cast hS
  have e := rnd64_err ((fit : ℚ) / S)
  have hq : (0 : ℚ) ≤ (fit : ℚ) / S := by positivity
  rw [abs_of_nonneg hq] at e
  have hx : (fit : ℚ) * s / S ≤ fit := by
    rw [div_le_iff₀ hSq]
    have : (s : ℚ) ≤ S := by exact_mod_cast hs
    have : (0 : ℚ) ≤ fit := by positivity
    nlinarith
  have hfq : (fit : ℚ) < 2147483648 := by exact_mod_cast hf
  have hsq : (s : ℚ) < 2147483648 := by exact_mod_cast hs'
  have hs0 : (0 : ℚ) ≤ s := by positivity
  have e2 : |(s : ℚ) * rnd f64 ((fit : ℚ) / S) - fit * s / S| = s * |rnd f64 ((fit : ℚ) / S) - fit / S| := by
    rw [show (s : ℚ) * rnd f64 ((fit : ℚ) / S) - fit * s / S = s * (rnd f64 ((fit : ℚ) / S) - fit / S) by ring,
      abs_mul, abs_of_nonneg hs0]
  rw [e2]
  calc (s : ℚ) * |rnd f64 ((fit : ℚ) / S) - fit / S| ≤ s * ((fit : ℚ) / S / 2 ^ 53 + 1 / 2 ^ 200) :=
        mul_le_mul_of_nonneg_left e hs0
    _ = (fit * s / S) / 2 ^ 53 + s / 2 ^ 200 := by ring
    _ ≤ 1 / 2 ^ 20 := by
      have : (s : ℚ) / 2 ^ 200 ≤ 1 / 2 ^ 100 := by
        rw [div_le_iff₀ (by positivity)]
        refine le_trans hsq.le (by norm_num)
      have h2 : (fit : ℚ) * s / S / 2 ^ 53 ≤ 1 / 2 ^ 22 := by
        rw [div_le_iff₀ (by positivity)]
        refine le_trans (le_trans hx hfq.le) (by norm_num)
      have h3 : (1 : ℚ) / 2 ^ 22 + 1 / 2 ^ 100 ≤ 1 / 2 ^ 20 := by norm_num
      linarith

omit hf in
theorem prop_pos : 1 / 2 ^ 43 ≤ rnd f64 ((fit : ℚ) / S) := by
  have hSq : (0 : ℚ) < S := by exact_mod_cast hS
  have hSq' : (S : ℚ) ≤ 2147483648000 := by exact_mod_cast hS'
  have hfq : (1 : ℚ) ≤ fit := by exact_mod_cast hf0
  have h : (1 : ℚ) / 2 ^ 42 ≤ (fit : ℚ) / S := by
    rw [div_le_div_iff₀ (by positivity) hSq]
    norm_num
    linarith
  have e := rnd64_err ((fit : ℚ) / S)
  rw [abs_of_nonneg (a := (fit : ℚ) / S) (by linarith)] at e
  have e := abs_le.1 e
  linarith

/-- The loop over the seeds `ss`, after seeds with sum `A` got `N` together. -/
theorem fitLoop_run {ss : List Nat} {A k : Nat} {N : Int} {r : ℚ} (hA : A + ss.sum = S) (hk : k + ss.length ≤ 1000)
    (hs : ∀ s ∈ ss, s < 2147483648) (hpos : ∀ s ∈ ss.dropLast, 0 < s) (hN : 0 ≤ N) (hr : |r| ≤ 1 / 2)
    (hI : |(N : ℚ) + r - fit * A / S| ≤ k / 2 ^ 19) :
    ∃ l : List Nat, fitLoop (.fin (rnd f64 ((fit : ℚ) / S))) (ss.map fun (s : Nat) => (s : Int)) (.fin r) N = .ok (l, (fit : Int)) ∧
      l.length = ss.length ∧ N + (l.sum : Int) = fit ∧
      ∀ j, |(N : ℚ) + (l.take j).sum - fit * (A + (ss.take j).sum : Nat) / S| ≤ 1 / 2 + 1 / 500 := by
  have hSq : (0 : ℚ) < S := by exact_mod_cast hS
  have hfq : (0 : ℚ) < fit := by exact_mod_cast hf0
  have hfq' : (fit : ℚ) < 2147483648 := by exact_mod_cast hf
  have hk1 : (k : ℚ) / 2 ^ 19 ≤ 1 / 500 := by
    have : (k : ℚ) ≤ 1000 := by exact_mod_cast (by omega : k ≤ 1000)
    rw [div_le_iff₀ (by positivity)]
    refine le_trans this (by norm_num)
  have hI' := abs_le.1 hI
  have hr' := abs_le.1 hr
  have hAS : (fit : ℚ) * A / S ≤ fit := by
    rw [div_le_iff₀ hSq]
    have : (A : ℚ) ≤ S := by exact_mod_cast (by omega : A ≤ S)
    nlinarith
  have hNf : N ≤ fit := by
    have : (N : ℚ) < ((fit + 1 : Int) : ℚ) := by push_cast; linarith
    have : N < (fit : Int) + 1 := by exact_mod_cast this
    omega
  have hj0 : |(N : ℚ) - fit * A / S| ≤ 1 / 2 + 1 / 500 := by
    rw [abs_le]; constructor <;> linarith
  induction ss generalizing A k N r with
  | nil =>
    have e : A = S := by simpa using hA
    have e' : (fit : ℚ) * A / S = fit := by rw [e]; field_simp
    rw [e'] at hI' hj0
    have hj := abs_le.1 hj0
    have h1 : ((fit : Int) : ℚ) < ((N + 1 : Int) : ℚ) := by push_cast; linarith
    have h1 : (fit : Int) < N + 1 := by exact_mod_cast h1
    have hNe : N = fit := by omega
    refine ⟨[], ?_, rfl, by simp [hNe], fun j => ?_⟩
    · rw [← hNe]; rfl
    · simp only [List.take_nil, List.sum_nil, Nat.cast_zero, add_zero, e']
      exact hj0
  | cons s ss ih =>
    rw [List.sum_cons] at hA
    rw [List.length_cons] at hk
    have hs1 := hs s List.mem_cons_self
    have hsS : s ≤ S := by omega
    set p := rnd f64 ((fit : ℚ) / S) with hp
    have hpe := abs_le.1 (prop_err (fit := fit) (S := S) hS hf hsS hs1)
    rw [← hp] at hpe
    have hp0 := prop_pos (fit := fit) (S := S) hS hS' hf0
    rw [← hp] at hp0
    have hsx : (fit : ℚ) * s / S ≤ fit := by
      rw [div_le_iff₀ hSq]
      have : (s : ℚ) ≤ S := by exact_mod_cast hsS
      nlinarith
    have h0 : 0 ≤ (s : ℚ) * p := by
      have : (0 : ℚ) ≤ p := by linarith
      positivity
    have h1 : (s : ℚ) * p ≤ 2147483649 := by linarith
    have hde := abs_le.1 (fitD_err h0 h1 hr)
    have hA' : (fit : ℚ) * (A + s : Nat) / S = fit * A / S + fit * s / S := by push_cast; ring
    have hd : -(1 / 2) < fitD s p r := by
      by_cases hl : ss = []
      · subst hl
        have e : A + s = S := by simpa using hA
        have e' : (fit : ℚ) * A / S + fit * s / S = fit := by rw [← hA', e]; field_simp
        have : (N : ℚ) ≤ fit := by exact_mod_cast hNf
        linarith
      · refine fitD_pos (hpos s ?_) hp0 hr
        rw [List.dropLast_cons_of_ne_nil hl]
        exact List.mem_cons_self
    have hz0 := roundHA_nonneg hd
    have hze := roundHA_err (fitD s p r)
    have hz := abs_le.1 hze
    set d := fitD s p r with hdd
    set z := roundHA d with hzz
    have hI2 : |((N + z : Int) : ℚ) + (d - z) - fit * (A + s : Nat) / S| ≤ ((k + 1 : Nat) : ℚ) / 2 ^ 19 := by
      rw [hA', abs_le]
      have : ((k + 1 : Nat) : ℚ) / 2 ^ 19 = k / 2 ^ 19 + 1 / 2 ^ 20 + 1 / 2 ^ 20 := by push_cast; ring
      rw [this]
      push_cast
      constructor <;> linarith
    have hk2 : ((k + 1 : Nat) : ℚ) / 2 ^ 19 ≤ 1 / 500 := by
      have : ((k + 1 : Nat) : ℚ) ≤ 1000 := by exact_mod_cast (by omega : k + 1 ≤ 1000)
      rw [div_le_iff₀ (by positivity)]
      refine le_trans this (by norm_num)
    have hI3 := abs_le.1 hI2
    have hAS2 : (fit : ℚ) * (A + s : Nat) / S ≤ fit := by
      rw [div_le_iff₀ hSq]
      have : ((A + s : Nat) : ℚ) ≤ S := by exact_mod_cast (by omega : A + s ≤ S)
      nlinarith
    have hN2 : N + z ≤ fit := by
      have : ((N + z : Int) : ℚ) < ((fit + 1 : Int) : ℚ) := by push_cast at hI3 hAS2 ⊢; linarith
      have : N + z < (fit : Int) + 1 := by exact_mod_cast this
      omega
    have hj2 : |((N + z : Int) : ℚ) - fit * (A + s : Nat) / S| ≤ 1 / 2 + 1 / 500 := by
      rw [abs_le]; constructor <;> linarith
    obtain ⟨l, e1, e2, e3, e4⟩ := ih (A := A + s) (k := k + 1) (N := N + z) (r := d - z) (by omega) (by omega)
      (fun t ht => hs t (List.mem_cons_of_mem _ ht)) (fun t ht => hpos t (by
        by_cases hl : ss = []
        · subst hl; simp at ht
        · rw [List.dropLast_cons_of_ne_nil hl]; exact List.mem_cons_of_mem _ ht))
      (by omega) hze hI2 hk2 hI3 (abs_le.1 hze) hAS2 hN2 hj2
    refine ⟨z.toNat :: l, ?_, by rw [List.length_cons, e2, List.length_cons], ?_, ?_⟩
    · rw [List.map_cons, fitLoop_step hs1 h0 h1 hr hd, ← hdd, ← hzz, wrap32_small (by omega) (by omega), e1]
      rfl
    · rw [List.sum_cons]; push_cast; omega
    · intro j
      cases j with
      | zero => simpa using hj0
      | succ j =>
        have := e4 j
        rw [List.take_succ_cons, List.take_succ_cons, List.sum_cons, List.sum_cons]
        have hzc : ((z.toNat : Nat) : ℚ) = (z : ℚ) := by
          have : ((z.toNat : Nat) : Int) = z := Int.toNat_of_nonneg hz0
          exact_mod_cast this
        have e5 : (N : ℚ) + ((z.toNat + (l.take j).sum : Nat) : ℚ) = ((N + z : Int) : ℚ) + ((l.take j).sum : ℚ) := by
          push_cast; rw [hzc]; ring
        rw [e5, ← Nat.add_assoc]
        exact this

end

theorem map_wrap32 {seeds : List Nat} (hs : ∀ s ∈ seeds, s < 2147483648) :
    (seeds.map fun (s : Nat) => wrap32 (s : Int)) = seeds.map fun (s : Nat) => (s : Int) :=
  List.map_congr_left fun s h => by
    have := hs s h
    exact wrap32_small (by omega) (by omega)

theorem ofNat64 {n : Nat} (h : n ≤ 9007199254740992) : FV.ofInt f64 (n : Int) = .fin (n : ℚ) := by
  unfold FV.ofInt
  have e : ((n : Int) : ℚ) = (n : ℚ) := by push_cast; rfl
  rw [e, ofQ64_rep _ (rep64_nat (by norm_num; exact h))]
  have : (n : ℚ) ≤ 9007199254740992 := by exact_mod_cast h
  rw [abs_of_nonneg (Nat.cast_nonneg n)]
  exact le_trans this (by norm_num)

theorem sum_mapCast (l : List Nat) : (l.map fun (s : Nat) => (s : Int)).sum = (l.sum : Int) := by
  induction l with
  | nil => rfl
  | cons a l ih => simp [ih]

theorem sum_le_mul {l : List Nat} (hs : ∀ s ∈ l, s < 2147483648) : l.sum ≤ l.length * 2147483648 := by
  induction l with
  | nil => simp
  | cons a l ih =>
    have := ih fun s h => hs s (List.mem_cons_of_mem _ h)
    have := hs a List.mem_cons_self
    rw [List.sum_cons, List.length_cons]; omega

/-- The loop when nothing is to be shared out. -/
theorem fitLoop_zero {ss : List Nat} (hs : ∀ s ∈ ss, s < 2147483648) :
    fitLoop (.fin 0) (ss.map fun (s : Nat) => (s : Int)) (.fin 0) 0 = .ok (List.replicate ss.length 0, 0) := by
  induction ss with
  | nil => rfl
  | cons s ss ih =>
    have hd : fitD s 0 0 = 0 := by simp [fitD, rnd_zero]
    have hz : roundHA (0 : ℚ) = 0 := by decide +kernel
    rw [List.map_cons, fitLoop_step (hs s List.mem_cons_self) (by norm_num) (by norm_num) (by norm_num)
      (by rw [hd]; norm_num), hd, hz]
    have h2 : (0 : ℚ) - ((0 : Int) : ℚ) = 0 := by norm_num
    have h3 : wrap32 (0 + 0) = 0 := by decide
    rw [h2, h3, ih fun t ht => hs t (List.mem_cons_of_mem _ ht)]
    rfl

/-- `fitSizes` with the seeds and `proportion` worked out. -/
theorem fitSizes_eq {seeds : List Nat} {fit : Nat} (hs : ∀ s ∈ seeds, s < 2147483648) (hl : seeds.length ≤ 1000)
    (h0 : 0 < seeds.sum) (hf : fit < 2147483648) :
    fitSizes seeds fit =
      (fitLoop (.fin (rnd f64 ((fit : ℚ) / seeds.sum))) (seeds.map fun (s : Nat) => (s : Int)) (.fin 0) 0).bind fun r =>
        if r.2 % 4294967296 = (fit : Int) then .ok r.1 else .abort := by
  have hS := sum_le_mul hs
  have e1 : FV.ofInt f64 (fit : Int) = .fin (fit : ℚ) := ofNat64 (by omega)
  have e2 : FV.ofInt f64 (seeds.sum : Int) = .fin (seeds.sum : ℚ) := ofNat64 (by omega)
  have hq : (1 : ℚ) ≤ seeds.sum := by exact_mod_cast h0
  have e3 : FV.div f64 (.fin (fit : ℚ)) (.fin (seeds.sum : ℚ)) = .fin (rnd f64 ((fit : ℚ) / seeds.sum)) := by
    show (if (seeds.sum : ℚ) = 0 then _ else FV.ofQ f64 ((fit : ℚ) / seeds.sum)) = _
    rw [if_neg (by linarith)]
    refine ofQ64 ?_
    rw [abs_of_nonneg (by positivity), div_le_iff₀ (by linarith)]
    have : (fit : ℚ) < 2147483648 := by exact_mod_cast hf
    have : (2147483648 : ℚ) ≤ 2 ^ 100 * seeds.sum := by
      have : (2147483648 : ℚ) ≤ 2 ^ 100 := by norm_num
      nlinarith
    linarith
  unfold fitSizes
  rw [map_wrap32 hs]
  show (fitLoop (FV.div f64 (FV.ofInt f64 fit) (FV.ofInt f64 ((seeds.map fun (s : Nat) => (s : Int)).sum))) _ _ _).bind _ = _
  rw [sum_mapCast, e1, e2, e3]

/-- **C75.** Shares a number out among seeds: as many sizes as there are seeds, which add up to the number exactly (so the
`assert` holds), and for every `j` the first `j` sizes together are the share of the first `j` seeds to within
1/2 + 1/500. For up to 1000 seeds below 2^31, not all 0, of which only the first and the last may be 0, and a number below
2^31. -/
theorem C75_fit {seeds : List Nat} {fit : Nat} (hs : ∀ s ∈ seeds, s < 2147483648) (hl : seeds.length ≤ 1000)
    (h0 : 0 < seeds.sum) (hpos : ∀ s ∈ seeds.tail.dropLast, 0 < s) (hf : fit < 2147483648) :
    ∃ l, fitSizes seeds fit = .ok l ∧ l.length = seeds.length ∧ l.sum = fit ∧
      ∀ j, |((l.take j).sum : ℚ) - fit * (seeds.take j).sum / seeds.sum| ≤ 1 / 2 + 1 / 500 := by
  rw [fitSizes_eq hs hl h0 hf]
  have hS := sum_le_mul hs
  rcases Nat.eq_zero_or_pos fit with rfl | hf0
  · refine ⟨List.replicate seeds.length 0, ?_, by simp, by simp, fun j => ?_⟩
    · have : rnd f64 (((0 : Nat) : ℚ) / seeds.sum) = 0 := by simp [rnd_zero]
      rw [this, fitLoop_zero hs]; rfl
    · simp; norm_num
  have fin : ∀ {l : List Nat}, fitLoop (.fin (rnd f64 ((fit : ℚ) / seeds.sum))) (seeds.map fun (s : Nat) => (s : Int))
      (.fin 0) 0 = .ok (l, (fit : Int)) →
      ((fitLoop (.fin (rnd f64 ((fit : ℚ) / seeds.sum))) (seeds.map fun (s : Nat) => (s : Int)) (.fin 0) 0).bind fun r =>
        if r.2 % 4294967296 = (fit : Int) then Out.ok r.1 else .abort) = .ok l := by
    intro l e
    rw [e]
    show (if (fit : Int) % 4294967296 = (fit : Int) then Out.ok l else .abort) = _
    rw [if_pos (by omega)]
  cases seeds with
  | nil => simp at h0
  | cons s ss =>
    rcases Nat.eq_zero_or_pos s with rfl | hs0
    · have hd : ∀ p : ℚ, fitD 0 p 0 = 0 := by intro p; simp [fitD, rnd_zero]
      have hz : roundHA (0 : ℚ) = 0 := by decide +kernel
      rw [List.length_cons] at hl hS
      obtain ⟨l, e1, e2, e3, e4⟩ := fitLoop_run (fit := fit) (S := (0 :: ss).sum) h0 (by omega) hf hf0
        (ss := ss) (A := 0) (k := 0) (N := 0) (r := 0) (by simp) (by omega)
        (fun t ht => hs t (List.mem_cons_of_mem _ ht)) hpos (le_refl _) (by norm_num) (by simp)
      refine ⟨0 :: l, fin ?_, by simp [e2], by simp at e3 ⊢; exact_mod_cast e3, fun j => ?_⟩
      · rw [List.map_cons, fitLoop_step (by omega) (by simp) (by simp) (by norm_num) (by rw [hd]; norm_num), hd, hz]
        have h2 : (0 : ℚ) - ((0 : Int) : ℚ) = 0 := by norm_num
        have h3 : wrap32 (0 + 0) = 0 := by decide
        rw [h2, h3, e1]
        rfl
      · cases j with
        | zero => simp; norm_num
        | succ j => simpa using e4 j
    · obtain ⟨l, e1, e2, e3, e4⟩ := fitLoop_run (fit := fit) (S := (s :: ss).sum) h0 (by omega) hf hf0
        (ss := s :: ss) (A := 0) (k := 0) (N := 0) (r := 0) (by simp) (by omega) hs (fun t ht => by
          by_cases hl : ss = []
          · subst hl; simp at ht
          · rw [List.dropLast_cons_of_ne_nil hl] at ht
            rcases List.mem_cons.1 ht with rfl | h
            · exact hs0
            · exact hpos t h) (le_refl _) (by norm_num) (by simp)
      refine ⟨l, fin e1, e2, by simp at e3 ⊢; exact_mod_cast e3, fun j => by simpa using e4 j⟩

/-- The call in `TestRNode1` (290-291): two seeds that add up to 65535. -/
theorem C75_two {s fit : Nat} (hs : s ≤ 65535) (hf : fit < 2147483648) :
    ∃ a b, fitSizes [s, 65535 - s] fit = .ok [a, b] ∧ a + b = fit := by
  obtain ⟨l, e1, e2, e3, _⟩ := C75_fit (seeds := [s, 65535 - s]) (fit := fit)
    (by intro t ht; rcases List.mem_cons.1 ht with rfl | h
        · omega
        · rcases List.mem_cons.1 h with rfl | h
          · omega
          · simp at h) (by simp) (by simp; omega) (by simp) hf
  match l, e2 with
  | [a, b], _ => exact ⟨a, b, e1, by simpa using e3⟩

/-- The test's own call. -/
example : ∃ l, fitSizes [1, 20, 30, 10, 1] 6 = .ok l ∧ l.length = 5 ∧ l.sum = 6 := by
  obtain ⟨l, e1, e2, e3, _⟩ := C75_fit (seeds := [1, 20, 30, 10, 1]) (fit := 6) (by decide) (by decide) (by decide)
    (by decide) (by decide)
  exact ⟨l, e1, e2, e3⟩

/-- A seed of 0 between others can make `d_size` -0.5: converting -1 to `unsigned int` is undefined. -/
theorem C75_zero_seed : fitSizes [1, 0, 1] 1 = .ub .floatToInt := by decide +kernel

/-- Seeds that add up to 0: the proportion is no number. -/
theorem C75_no_seeds : fitSizes [0, 0] 5 = .ub .floatToInt ∧ fitSizes [] 5 = .abort := by decide +kernel

/-- So the requirement on the seeds cannot be dropped. -/
theorem C75_fit_needed : ¬ ∀ (seeds : List Nat) (fit : Nat), 0 < seeds.sum →
    ∃ l, fitSizes seeds fit = .ok l := by
  intro h
  obtain ⟨l, e⟩ := h [1, 0, 1] 1 (by decide)
  rw [C75_zero_seed] at e
  cases e

end BS
