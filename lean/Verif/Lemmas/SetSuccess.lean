import Verif.Lemmas.GalleySetSpec
import Verif.Lemmas.Terminate

/-!
# What a set galley that succeeds has handed out

No conditions on the oracles, the length of the blob or the number of stamps.
-/

namespace BS
open BlobLike

local notation "R" => rnd f64

theorem chop_abs_ok {n : Nat} {a c a' : ABlob} (h : (chop n : M ABlob ABlob) a = (.ok c, a')) :
    c.length = n ∧ c ++ a' = a := by
  rw [chop_abs] at h
  split at h
  · cases h
  · cases h
    rw [List.length_take, Nat.min_eq_left (by omega)]
    exact ⟨rfl, List.take_append_drop _ _⟩

theorem oracle_abs_ok {a a' : ABlob} {o : Nat} (h : oracle a = (.ok o, a')) :
    o ≤ 65535 ∧ a.take 2 ++ a' = a := by
  rw [oracle_abs] at h
  split at h
  · cases h
  · cases h; exact ⟨leNat_two a, List.take_append_drop _ _⟩

theorem toSz_le {i : Int} (h1 : -W31 ≤ i) (h2 : i < W31) {n : Nat} (hn : n < 9223372036854775808)
    (h : toSz i ≤ n) : 0 ≤ i ∧ (toSz i : Int) = i := by
  unfold toSz at h ⊢
  omega

theorem lift_ok {α : Type} {o : Out α} {a a' : ABlob} {x : α} (h : (M.lift o : M ABlob α) a = (.ok x, a')) :
    o = .ok x ∧ a' = a := by
  cases h; exact ⟨rfl, rfl⟩

theorem bind_lift_ok {α γ : Type} {o : Out α} {f : α → M ABlob γ} {a a' : ABlob} {y : γ}
    (h : (M.lift o >>= f : M ABlob γ) a = (.ok y, a')) : ∃ x, o = .ok x ∧ f x a = (.ok y, a') := by
  obtain ⟨x, a1, h1, h2⟩ := M.bind_eq_ok.1 h
  obtain ⟨e, e2⟩ := lift_ok h1
  rw [e2] at h2
  exact ⟨x, e, h2⟩

theorem ckInt_eq {i v : Int} (h : ckInt i = .ok v) : v = i ∧ -W31 ≤ i ∧ i < W31 := by
  have h2 := ckInt_int h
  rcases ckInt_cases i with e | e
  · rw [e] at h; cases h; exact ⟨rfl, h2⟩
  · rw [e] at h; cases h

/-! ## Sums that may overflow -/

/-- A sum of non-negative doubles that is not below `x`. -/
def Above (v : FV) (x : ℚ) : Prop := v = .inf false ∨ ∃ p, v = .fin p ∧ 0 ≤ p ∧ x ≤ p

theorem ofQ_nonneg {q : ℚ} (h : 0 ≤ q) : FV.ofQ f64 q = .inf false ∨ FV.ofQ f64 q = .fin (R q) := by
  unfold FV.ofQ
  dsimp only
  split
  · left
    rw [decide_eq_false]
    exact not_lt.2 (rnd_nonneg f64 h)
  · exact Or.inr rfl

theorem Above.add {v : FV} {x w : ℚ} (h : Above v x) (hx : Rep f64 x) (hw : Rep f64 w) (hw0 : 0 ≤ w) :
    Above (FV.add f64 v (.fin w)) x ∧ Above (FV.add f64 v (.fin w)) w := by
  rcases h with rfl | ⟨p, rfl, hp, hxp⟩
  · exact ⟨Or.inl rfl, Or.inl rfl⟩
  · rw [FV.add_fin]
    rcases ofQ_nonneg (add_nonneg hp hw0) with e | e
    · exact ⟨Or.inl e, Or.inl e⟩
    · have h0 : 0 ≤ R (p + w) := rnd_nonneg f64 (add_nonneg hp hw0)
      exact ⟨Or.inr ⟨_, e, h0, le_rnd_of_rep f64 f64_p hx (by linarith)⟩,
        Or.inr ⟨_, e, h0, le_rnd_of_rep f64 f64_p hw (by linarith)⟩⟩

/-- What the loop over the oracles leaves: the weight of every variated stamp is in the sum. -/
def ModOk (pred : FV) (s : SizePair) (m : FV) : Prop :=
  s.var = true → ∃ o : Nat, o ≤ 65535 ∧ m = .fin (modQ o) ∧ Above pred (varWeight (s, o))

theorem setModLoop_ok {nUnb : Nat} (ss : List SizePair) (hss : ∀ s ∈ ss, s.Ok) {a a' : ABlob} {pred ut : FV}
    {r : SetMods} (h : setModLoop nUnb ss pred ut a = (.ok r, a')) {x : ℚ} (hx : Rep f64 x) (hp : Above pred x) :
    Above r.pred x ∧ List.Forall₂ (ModOk r.pred) ss r.mods ∧ ∃ os, os ++ a' = a := by
  induction ss generalizing a pred ut r x with
  | nil => cases h; exact ⟨hp, .nil, [], rfl⟩
  | cons s ss ih =>
    have hs := hss s (by simp)
    have ih := fun {a pred ut r} h {x} => @ih (fun y hy => hss y (by simp [hy])) a pred ut r h x
    unfold setModLoop at h
    rcases hs.cases with ⟨e1, e2, e3, e4⟩ | ⟨e1, e2, e3, e4⟩ | ⟨e1, e2, e3, e4, e5⟩
    · rw [e1, if_pos rfl] at h
      obtain ⟨r1, a1, h1, h2⟩ := M.bind_eq_ok.1 h
      cases h2
      obtain ⟨i1, i2, i3⟩ := ih h1 hx hp
      exact ⟨i1, .cons (fun hv => by rw [e3] at hv; cases hv) i2, i3⟩
    · rw [e1, if_neg (by simp), e2, if_pos rfl] at h
      split at h
      · obtain ⟨r1, a1, h1, h2⟩ := M.bind_eq_ok.1 h
        cases h2
        obtain ⟨i1, i2, i3⟩ := ih h1 hx hp
        exact ⟨i1, .cons (fun hv => by rw [e3] at hv; cases hv) i2, i3⟩
      · obtain ⟨o, a1, ho, h⟩ := M.bind_eq_ok.1 h
        obtain ⟨r1, a2, h1, h2⟩ := M.bind_eq_ok.1 h
        cases h2
        obtain ⟨i1, i2, os, i3⟩ := ih h1 hx hp
        obtain ⟨_, ho⟩ := oracle_abs_ok ho
        exact ⟨i1, .cons (fun hv => by rw [e3] at hv; cases hv) i2, _, by rw [← i3, ← List.append_assoc] at ho; exact ho⟩
    · rw [e1, if_neg (by simp), e2, if_neg (by simp)] at h
      obtain ⟨o, a1, ho, h⟩ := M.bind_eq_ok.1 h
      obtain ⟨d, hd, h⟩ := bind_lift_ok h
      obtain ⟨r1, a3, h1, h2⟩ := M.bind_eq_ok.1 h
      cases h2
      obtain ⟨rfl, d1, d2⟩ := ckInt_eq hd
      obtain ⟨hle, ho⟩ := oracle_abs_ok ho
      have m0 := modQ_nonneg o
      have m1 := modQ_le hle
      obtain ⟨w0, w1, wr, _, _⟩ := varWeight_bounds (x := (s, o)) hs e3 hle
      have hd0 : (0 : ℚ) ≤ ((s.2 - s.1 : Int) : ℚ) := by exact_mod_cast (by omega : 0 ≤ s.2 - s.1)
      have hdI : (((s.2 - s.1 : Int)) : ℚ) ≤ 2147483647 := by
        obtain ⟨h0, _, _⟩ := hs
        exact_mod_cast (by omega : s.2 - s.1 ≤ 2147483647)
      have hmul : FV.mul f64 (FV.ofInt f64 (s.2 - s.1)) (.fin (modQ o)) = .fin (varWeight (s, o)) := by
        rw [ofInt64_int (by omega) (by omega), FV.mul_fin, ofQ64]
        · rfl
        · rw [abs_of_nonneg (mul_nonneg hd0 m0)]
          refine le_trans (b := (2147483647 : ℚ)) (by nlinarith) (by norm_num)
      rw [modifierOf_eq hle, hmul] at h1
      have hp' := hp.add hx wr w0
      obtain ⟨i1, _, _⟩ := ih h1 hx hp'.1
      obtain ⟨j1, i2, os, i3⟩ := ih h1 wr hp'.2
      exact ⟨i1, .cons (fun _ => ⟨o, hle, modifierOf_eq hle, j1⟩) i2, _,
        by rw [← i3, ← List.append_assoc] at ho; exact ho⟩

theorem setModFix_ok {pred : FV} {ss : List SizePair} (hss : ∀ s ∈ ss, s.Ok) {ms : List FV}
    (h : List.Forall₂ (ModOk pred) ss ms) (ut : FV) : List.Forall₂ (ModOk pred) ss (setModFix ss ms ut).1 := by
  induction h generalizing ut with
  | nil => exact .nil
  | @cons s m ss ms h _ ih =>
    have ih := ih (fun y hy => hss y (by simp [hy]))
    unfold setModFix
    rcases (hss s (by simp)).cases with ⟨e1, e2, e3, e4⟩ | ⟨e1, e2, e3, e4⟩ | ⟨e1, e2, e3, e4, e5⟩
    · rw [e2, if_neg (by simp)]; exact .cons h (ih _)
    · rw [e2, if_pos rfl]; exact .cons (fun hv => by rw [e3] at hv; cases hv) (ih _)
    · rw [e2, if_neg (by simp)]; exact .cons h (ih _)

/-! ## One share -/

/-- `round` and conversion succeed only on numbers. -/
theorem round_toCInt_ok {v : FV} {el : Int} (h : v.round.toCInt = .ok el) :
    ∃ y, v = .fin y ∧ el = roundHA y ∧ -W31 ≤ el ∧ el < W31 := by
  cases v with
  | nan => cases h
  | inf s => cases h
  | fin y =>
    have ht : truncQ ((roundHA y : Int) : ℚ) = roundHA y := by
      unfold truncQ; split
      · exact Int.floor_intCast _
      · exact Int.ceil_intCast _
    have h : (if (-W31 : Int) ≤ truncQ (roundHA y : ℚ) ∧ truncQ (roundHA y : ℚ) ≤ W31 - 1
      then Out.ok (truncQ (roundHA y : ℚ)) else .ub .floatToInt) = Out.ok el := h
    rw [ht] at h
    split at h
    · next hc => cases h; exact ⟨y, rfl, rfl, by omega, by omega⟩
    · cases h

theorem rnd_le_add {q B : ℚ} (h : q ≤ B) (h0 : 0 ≤ B) (h1 : B ≤ 2 ^ 33) : R q ≤ B + 1 / 1000 := by
  have := rnd_mono f64 f64_p h
  have e := rnd64_err B
  rw [abs_of_nonneg h0] at e
  obtain ⟨_, e⟩ := abs_le.1 e
  have : B / 2 ^ 53 ≤ 1 / 2 ^ 20 := by
    rw [div_le_div_iff₀ (by norm_num) (by norm_num)]; norm_num at *; linarith
  norm_num at *; linarith

theorem ofQ_fin_inv {q y : ℚ} (h : FV.ofQ f64 q = .fin y) : y = R q := by
  unfold FV.ofQ at h
  dsimp only at h
  split at h
  · cases h
  · cases h; rfl

theorem add_fin_inv {v : FV} {r y : ℚ} (h : FV.add f64 v (.fin r) = .fin y) :
    ∃ x, v = .fin x ∧ y = R (x + r) := by
  cases v with
  | nan => cases h
  | inf s => cases h
  | fin x => exact ⟨x, rfl, ofQ_fin_inv h⟩

theorem mul_fin_inv {v : FV} {w y : ℚ} (h : FV.mul f64 (.fin w) v = .fin y) :
    ∃ x, v = .fin x ∧ y = R (w * x) := by
  cases v with
  | nan => cases h
  | inf s =>
    exfalso
    have h : (if w = 0 then FV.nan else .inf (xor (decide (w < 0)) s)) = .fin y := h
    split at h <;> cases h
  | fin x => exact ⟨x, rfl, ofQ_fin_inv h⟩

/-- The coefficient of the variated stamps: at most half a byte is added to the sum of the weights. -/
def CoefLe (kvar pred : FV) : Prop :=
  ∃ fv : Int, kvar = FV.div f64 (.fin fv) pred ∧ ∀ p, pred = .fin p → (fv : ℚ) ≤ p + 1 / 2

theorem share_le {kvar pred : FV} (hk : CoefLe kvar pred) {w d : ℚ} (hw : Above pred w) (hw0 : 0 ≤ w)
    (hwd : w ≤ d) (hd : d ≤ 2147483647) {r : ℚ} (hr : |r| ≤ 1 / 2) {y : ℚ}
    (h : FV.add f64 (FV.mul f64 (.fin w) kvar) (.fin r) = .fin y) : y ≤ d + 1 + 1 / 100 ∧ Rep f64 y := by
  obtain ⟨x, hx, rfl⟩ := add_fin_inv h
  obtain ⟨k, rfl, rfl⟩ := mul_fin_inv hx
  refine ⟨?_, rnd_rep f64 f64_p _⟩
  obtain ⟨r1, r2⟩ := abs_le.1 hr
  have hwk : w * k ≤ w + 1 / 2 + 1 / 1000 := by
    obtain ⟨fv, e, hf⟩ := hk
    rcases hw with rfl | ⟨p, rfl, hp, hwp⟩
    · have e : FV.fin k = .fin 0 := e
      cases e; linarith
    · have hf := hf p rfl
      have e : FV.fin k = if p = 0 then (if (fv : ℚ) = 0 then .nan else .inf (decide ((fv : ℚ) < 0)))
        else FV.ofQ f64 (fv / p) := e
      split at e
      · split at e <;> cases e
      · next hp0 =>
        rw [ofQ_fin_inv e.symm]
        have hp : 0 < p := lt_of_le_of_ne hp (Ne.symm hp0)
        rcases le_or_gt (fv : ℚ) 0 with hn | hn
        · have : R (fv / p) ≤ 0 :=
            rnd_le_of_rep f64 f64_p (Rep.zero _) (div_nonpos_of_nonpos_of_nonneg hn hp.le)
          have := mul_nonpos_of_nonneg_of_nonpos hw0 this
          linarith
        · have e1 := rnd64_err ((fv : ℚ) / p)
          have q0 : 0 ≤ (fv : ℚ) / p := (div_pos hn hp).le
          rw [abs_of_nonneg q0] at e1
          obtain ⟨_, e1⟩ := abs_le.1 e1
          have h1 : w * ((fv : ℚ) / p) ≤ w + 1 / 2 := by
            rw [mul_div_assoc', div_le_iff₀ hp]
            nlinarith
          have h2 : w * R ((fv : ℚ) / p) ≤ w * ((fv : ℚ) / p) * (1 + 1 / 2 ^ 53) + w * (1 / 2 ^ 200) := by
            have := mul_le_mul_of_nonneg_left (show R ((fv : ℚ) / p) ≤ (fv : ℚ) / p * (1 + 1 / 2 ^ 53) + 1 / 2 ^ 200 by linarith) hw0
            linarith [this]
          have h3 : w * ((fv : ℚ) / p) * (1 + 1 / 2 ^ 53) ≤ (w + 1 / 2) * (1 + 1 / 2 ^ 53) :=
            mul_le_mul_of_nonneg_right h1 (by norm_num)
          norm_num at h2 h3 ⊢
          linarith
  have h1 : R (w * k) ≤ w + 1 / 2 + 1 / 1000 + 1 / 1000 :=
    rnd_le_add hwk (by linarith) (by norm_num at *; linarith)
  have h2 := rnd_le_add (q := R (w * k) + r) (B := w + 1 / 2 + 1 / 1000 + 1 / 1000 + 1 / 2) (by linarith) (by linarith)
    (by norm_num at *; linarith)
  norm_num at *; linarith

/-! ## The loop that chops -/

/-- What a piece must look like. -/
def PieceFits (s : SizePair) (p : Bytes) : Prop :=
  (IsVariated s → (p.length : Int) ≤ s.2 + 1) ∧ (s.1 = s.2 → (p.length : Int) = s.1)

theorem setChopLoop_ok {kvar kunb pred : FV} (ss : List SizePair) (hss : ∀ s ∈ ss, s.Ok) {ms : List FV}
    (hm : List.Forall₂ (ModOk pred) ss ms) (hk : (∃ s ∈ ss, s.var = true) → CoefLe kvar pred)
    {vr : ℚ} (hvr : |vr| ≤ 1 / 2) (ur : FV) {a a' : ABlob} (ha : a.length < 9223372036854775808) {ps : List ABlob}
    (h : setChopLoop kvar kunb ss ms (.fin vr) ur a = (.ok ps, a')) :
    List.Forall₂ PieceFits ss ps ∧ ps.flatten ++ a' = a := by
  induction ss generalizing ms vr ur a ps with
  | nil =>
    cases hm
    cases h
    exact ⟨.nil, rfl⟩
  | cons s ss ih =>
    cases hm with
    | @cons _ m _ ms hm1 hm2 =>
    have hs := hss s (by simp)
    have hk' : (∃ s ∈ ss, s.var = true) → CoefLe kvar pred := fun ⟨y, hy, e⟩ => hk ⟨y, by simp [hy], e⟩
    have ih := fun {vr} hvr ur {a} ha {ps} => @ih (fun y hy => hss y (by simp [hy])) ms hm2 hk' vr hvr ur a ha ps
    have step : ∀ {n : Nat} {c a1 a2 : ABlob} {r : List ABlob},
        (chop n : M ABlob ABlob) a = (.ok c, a1) → (a1.length < 9223372036854775808 →
          List.Forall₂ PieceFits ss r ∧ r.flatten ++ a2 = a1) → (n ≤ a.length → PieceFits s c) →
        List.Forall₂ PieceFits (s :: ss) (c :: r) ∧ (c :: r).flatten ++ a2 = a := by
      intro n c a1 a2 r hc hi hp
      obtain ⟨hl, hcat⟩ := chop_abs_ok hc
      have hla : c.length + a1.length = a.length := by rw [← hcat, List.length_append]
      obtain ⟨i1, i2⟩ := hi (by omega)
      refine ⟨.cons (hp (by omega)) i1, ?_⟩
      rw [List.flatten_cons, List.append_assoc, i2, hcat]
    unfold setChopLoop at h
    rcases hs.cases with ⟨e1, e2, e3, e4⟩ | ⟨e1, e2, e3, e4⟩ | ⟨e1, e2, e3, e4, e5⟩
    · rw [e2, if_neg (by simp), e1, if_pos rfl] at h
      obtain ⟨c, a1, hc, h⟩ := M.bind_eq_ok.1 h
      obtain ⟨r, a2, hr, h⟩ := M.bind_eq_ok.1 h
      cases h
      refine step hc (fun hl => ih hvr ur hl hr) fun _ => ⟨fun hv => absurd e4 hv.1, fun _ => ?_⟩
      obtain ⟨h0, h1, _⟩ := hs
      rw [(chop_abs_ok hc).1, toSz_of_nonneg h0 (by omega)]
      omega
    · rw [e2, if_pos rfl] at h
      obtain ⟨el, _, h⟩ := bind_lift_ok h
      obtain ⟨el', _, h⟩ := bind_lift_ok h
      obtain ⟨c, a1, hc, h⟩ := M.bind_eq_ok.1 h
      obtain ⟨r, a2, hr, h⟩ := M.bind_eq_ok.1 h
      cases h
      refine step hc (fun hl => ih hvr _ hl hr) fun _ => ⟨fun hv => absurd e4 hv.2, fun hf => ?_⟩
      obtain ⟨h0, _, _⟩ := hs
      omega
    · rw [e2, if_neg (by simp), e1, if_neg (by simp)] at h
      obtain ⟨d, hd, h⟩ := bind_lift_ok h
      obtain ⟨rfl, d1, d2⟩ := ckInt_eq hd
      obtain ⟨el, hel1, h⟩ := bind_lift_ok h
      obtain ⟨el', hel2, h⟩ := bind_lift_ok h
      obtain ⟨rfl, l1, l2⟩ := ckInt_eq hel2
      obtain ⟨c, a1, hc, h⟩ := M.bind_eq_ok.1 h
      obtain ⟨r, a2, hr, h⟩ := M.bind_eq_ok.1 h
      cases h
      obtain ⟨o, hle, rfl, hab⟩ := hm1 e3
      have m0 := modQ_nonneg o
      have m1 := modQ_le hle
      obtain ⟨w0, w1, wr, _, _⟩ := varWeight_bounds (x := (s, o)) hs e3 hle
      have hd0 : (0 : ℚ) ≤ ((s.2 - s.1 : Int) : ℚ) := by exact_mod_cast (by omega : 0 ≤ s.2 - s.1)
      have hdI : (((s.2 - s.1 : Int)) : ℚ) ≤ 2147483647 := by
        obtain ⟨h0, _, _⟩ := hs
        exact_mod_cast (by omega : s.2 - s.1 ≤ 2147483647)
      have hmul : FV.mul f64 (FV.ofInt f64 (s.2 - s.1)) (.fin (modQ o)) = .fin (varWeight (s, o)) := by
        rw [ofInt64_int (by omega) (by omega), FV.mul_fin, ofQ64]
        · rfl
        · rw [abs_of_nonneg (mul_nonneg hd0 m0)]
          refine le_trans (b := (2147483647 : ℚ)) (by nlinarith) (by norm_num)
      rw [hmul] at hel1 hr
      obtain ⟨y, hy, rfl, el1, el2⟩ := round_toCInt_ok hel1
      rw [hy] at hr
      obtain ⟨hyd, hyr⟩ := share_le (hk ⟨s, by simp, e3⟩) hab w0 w1 hdI hvr hy
      rw [sub_round_fv hyr el1 el2] at hr
      refine step hc (fun hl => ih (roundHA_err y) _ hl hr) fun hn => ⟨fun _ => ?_, fun hf => absurd hf (by omega)⟩
      rw [(chop_abs_ok hc).1, (toSz_le l1 l2 ha hn).2]
      have e := (abs_le.1 (roundHA_err y)).1
      have hlt : ((roundHA y : Int) : ℚ) < ((s.2 - s.1 + 2 : Int) : ℚ) := by
        push_cast at *; linarith
      have := Int.cast_lt.1 hlt
      omega

theorem setLimit_ok {t : SetTotals} {avail lim : Int} {a a' : ABlob}
    (h : (setLimit t avail : M ABlob Int) a = (.ok lim, a')) (h1 : -W31 ≤ avail ∧ avail < W31)
    (h2 : -W31 ≤ t.maxVar ∧ t.maxVar < W31) : (-W31 ≤ lim ∧ lim < W31) ∧ ∃ os, os ++ a' = a := by
  unfold setLimit at h
  have h3 : -W31 ≤ (if avail < t.maxVar then avail else t.maxVar) ∧ (if avail < t.maxVar then avail else t.maxVar) < W31 := by
    split <;> assumption
  split at h
  · obtain ⟨o, a1, ho, h⟩ := M.bind_eq_ok.1 h
    obtain ⟨p, hp, h⟩ := bind_lift_ok h
    obtain ⟨_, _, _, p1, p2⟩ := round_toCInt_ok hp
    cases h
    refine ⟨?_, _, (oracle_abs_ok ho).2⟩
    generalize (if avail < t.maxVar then avail else t.maxVar) = q at h3 ⊢
    split <;> [exact ⟨p1, p2⟩; exact h3]
  · cases h; exact ⟨h3, [], rfl⟩

theorem setTotals_nVar {ss : List SizePair} {t t' : SetTotals} (h : setTotals ss t = .ok t') :
    t.nVar + ss.countP SizePair.var = t'.nVar ∧
      (-W31 ≤ t.maxVar ∧ t.maxVar < W31 → -W31 ≤ t'.maxVar ∧ t'.maxVar < W31) := by
  induction ss generalizing t with
  | nil => cases h; exact ⟨rfl, id⟩
  | cons s ss ih =>
    unfold setTotals at h
    rw [List.countP_cons]
    cases h1 : ckInt (t.fixed + s.1) with
    | ok x =>
      rw [h1] at h
      simp only [Out.bind_ok'] at h
      cases hv : s.var with
      | true =>
        rw [hv, if_pos rfl] at h
        cases h2 : ckInt (s.2 - s.1) with
        | ok d =>
          rw [h2] at h
          simp only [Out.bind_ok'] at h
          cases h3 : ckInt (t.maxVar + d) with
          | ok mv =>
            rw [h3] at h
            simp only [Out.bind_ok'] at h
            have := ih h
            dsimp only at this
            have hr := ckInt_int h3
            refine ⟨?_, fun _ => this.2 hr⟩
            simp only [if_true]; omega
          | _ => rw [h3] at h; cases h
        | _ => rw [h2] at h; cases h
      | false =>
        rw [hv, if_neg (by simp)] at h
        simp only [Bool.false_eq_true, if_false, add_zero]
        split at h <;> (have := ih h; dsimp only at this; exact this)
    | _ => rw [h1] at h; cases h

/-- The whole galley. -/
theorem setSplit_ok {ss : List SizePair} (hss : ∀ s ∈ ss, s.Ok) {a a' : ABlob}
    (ha : a.length < 9223372036854775808) {ps : List ABlob} (h : setSplit ss a = (.ok ps, a')) :
    List.Forall₂ PieceFits ss ps ∧ ∃ os, os ++ ps.flatten ++ a' = a := by
  unfold setSplit at h
  obtain ⟨t, ht, h⟩ := bind_lift_ok h
  dsimp only at h
  obtain ⟨b, a1, hb, h⟩ := M.bind_eq_ok.1 h
  cases hb
  split at h
  · cases h
  obtain ⟨lim, a1, hlim, h⟩ := M.bind_eq_ok.1 h
  obtain ⟨hn, hmv⟩ := setTotals_nVar ht
  obtain ⟨hlim1, os1, e1⟩ := setLimit_ok hlim (wrap32_fits _) (hmv (by decide))
  obtain ⟨r, a2, hr, h⟩ := M.bind_eq_ok.1 h
  obtain ⟨hp, hm, os2, e2⟩ := setModLoop_ok ss hss hr (Rep.zero _) (Or.inr ⟨0, rfl, le_refl _, le_refl _⟩)
  -- the modifiers that are used
  have hmods : ∃ ms ut, (if FV.beq r.unbTot (.fin 0) then setModFix ss r.mods (.fin 0)
      else (r.mods, r.unbTot)) = (ms, ut) ∧ List.Forall₂ (ModOk r.pred) ss ms := by
    split
    · exact ⟨_, _, rfl, setModFix_ok hss hm _⟩
    · exact ⟨_, _, rfl, hm⟩
  obtain ⟨ms, ut, em, hm⟩ := hmods
  rw [em] at h
  dsimp only at h
  obtain ⟨fv, hfv, h⟩ := bind_lift_ok h
  obtain ⟨fu, _, h⟩ := bind_lift_ok h
  have hlen : a2.length ≤ a.length := by
    rw [← e1, ← e2]; simp only [List.length_append]; omega
  -- the coefficient of the variated stamps
  have hcoef : (∃ s ∈ ss, s.var = true) →
      CoefLe (if 0 < t.nVar then FV.div f64 (FV.ofInt f64 fv) r.pred else .fin 1) r.pred := by
    rintro ⟨s, hs, hv⟩
    have hc := List.countP_pos_iff.2 ⟨s, hs, hv⟩
    rw [if_pos (by dsimp only at hn; omega)]
    split at hfv
    · obtain ⟨y, e, rfl, y1, y2⟩ := round_toCInt_ok hfv
      rw [ofInt64_int y1 (by omega)]
      refine ⟨_, rfl, fun p hp => ?_⟩
      rw [e] at hp
      cases hp
      linarith [(abs_le.1 (roundHA_err y)).1]
    · next hlt =>
      cases hfv
      rw [ofInt64_int hlim1.1 (by omega)] at hlt ⊢
      refine ⟨_, rfl, fun p hp => ?_⟩
      rw [hp] at hlt
      have : ¬ p < (lim : ℚ) := fun hc => hlt (decide_eq_true hc)
      linarith
  obtain ⟨f1, f2⟩ := setChopLoop_ok ss hss hm hcoef (vr := 0) (by norm_num) (.fin 0) (by omega) h
  refine ⟨f1, os1 ++ os2, ?_⟩
  rw [← e1, ← e2, ← f2]
  simp only [List.append_assoc]

/-! ## Variated stamps that all read 0 -/

theorem mul_notFin {v k : FV} (hk : ∀ q, k ≠ .fin q) (q : ℚ) : FV.mul f64 v k ≠ .fin q := by
  intro h
  cases k with
  | nan => cases v <;> cases h
  | fin x => exact hk x rfl
  | inf s =>
    cases v with
    | nan => cases h
    | inf t => cases h
    | fin x => obtain ⟨_, e, _⟩ := mul_fin_inv h; cases e

theorem div_zero_notFin (v : FV) (q : ℚ) : FV.div f64 v (.fin 0) ≠ .fin q := by
  intro h
  cases v with
  | nan => cases h
  | inf s => cases h
  | fin a =>
    have h : (if (0 : ℚ) = 0 then (if a = 0 then FV.nan else .inf (decide (a < 0))) else FV.ofQ f64 (a / 0))
      = .fin q := h
    rw [if_pos rfl] at h
    split at h <;> cases h

/-- A coefficient that is not a number is not survived. -/
theorem setChopLoop_notFin {kvar kunb : FV} (hk : ∀ q, kvar ≠ .fin q) (ss : List SizePair) (hss : ∀ s ∈ ss, s.Ok)
    (hv : ∃ s ∈ ss, s.var = true) {ms : List FV} (hm : ms.length = ss.length) (vr : FV) (ur : FV)
    {a a' : ABlob} {ps : List ABlob} : setChopLoop kvar kunb ss ms vr ur a ≠ (.ok ps, a') := by
  intro h
  induction ss generalizing ms vr ur a a' ps with
  | nil => obtain ⟨s, hs, _⟩ := hv; simp at hs
  | cons s ss ih =>
    rcases ms with _ | ⟨m, ms⟩
    · cases hm
    have hm' : ms.length = ss.length := by simpa using hm
    unfold setChopLoop at h
    have rest : s.var = false → ∃ t ∈ ss, t.var = true := by
      intro e
      obtain ⟨t, ht, htv⟩ := hv
      rcases List.mem_cons.1 ht with rfl | ht
      · rw [e] at htv; cases htv
      · exact ⟨t, ht, htv⟩
    have hss' : ∀ s ∈ ss, s.Ok := fun y hy => hss y (by simp [hy])
    rcases (hss s (by simp)).cases with ⟨e1, e2, e3, e4⟩ | ⟨e1, e2, e3, e4⟩ | ⟨e1, e2, e3, e4, e5⟩
    · rw [e2, if_neg (by simp), e1, if_pos rfl] at h
      obtain ⟨c, a1, hc, h⟩ := M.bind_eq_ok.1 h
      obtain ⟨r, a2, hr, h⟩ := M.bind_eq_ok.1 h
      exact ih hss' (rest e3) hm' _ _ hr
    · rw [e2, if_pos rfl] at h
      obtain ⟨el, _, h⟩ := bind_lift_ok h
      obtain ⟨el', _, h⟩ := bind_lift_ok h
      obtain ⟨c, a1, hc, h⟩ := M.bind_eq_ok.1 h
      obtain ⟨r, a2, hr, h⟩ := M.bind_eq_ok.1 h
      exact ih hss' (rest e3) hm' _ _ hr
    · rw [e2, if_neg (by simp), e1, if_neg (by simp)] at h
      obtain ⟨d, hd, h⟩ := bind_lift_ok h
      obtain ⟨el, hel, h⟩ := bind_lift_ok h
      obtain ⟨y, hy, _⟩ := round_toCInt_ok hel
      generalize hx : FV.mul f64 (FV.mul f64 (FV.ofInt f64 d) m) kvar = x at hy
      cases x with
      | nan => cases vr <;> cases hy
      | fin q => exact mul_notFin hk q hx
      | inf t =>
        cases vr with
        | nan => cases hy
        | fin q => cases hy
        | inf u =>
          have hy : (if t = u then FV.inf t else .nan) = .fin y := hy
          split at hy <;> cases hy

theorem sumW_zero {ws : List ℚ} (h : ∀ w ∈ ws, w = 0) : sumW ws 0 = 0 := by
  induction ws with
  | nil => rfl
  | cons w ws ih =>
    rw [sumW, h w (by simp), add_zero, rnd_zero]
    exact ih fun x hx => h x (by simp [hx])

/-- A set galley that returns had a variated stamp whose oracle was not 0. -/
theorem setSplit_someVarPos {ss : List SizePair} {bs : Bytes} (hz : SetSizes ss) (hmin : setNeed ss ≤ bs.length)
    (hS : bs.length ≤ 2147483646) {parts : List ABlob} {left : ABlob}
    (h : setSplit ss (bs : ABlob) = (.ok parts, left)) : SomeVarPos ss bs := by
  intro hvar
  by_contra hno
  have hok := hz.ok
  have hne := setNeed_eq hok
  have m0 := minSum_nonneg hok
  have d0 := dSum_nonneg hok
  obtain ⟨n0, n1⟩ := setNeed_le hz
  have hl : 2 * oracleCount ss ≤ bs.length := by omega
  have hd : dSum ss ≤ INT_MAX := by rw [← slack_sum hok]; exact hz.widths
  have hr := setRows_eq hok bs hl
  -- every weight is zero
  have hw : sumW (varW (setRows ss bs)) 0 = 0 := by
    apply sumW_zero
    intro w hw
    obtain ⟨x, hx, hxv, rfl⟩ := mem_varW hw
    rw [hr] at hx
    obtain ⟨s, o, h1, rfl⟩ := mem_zipWith_mkRow.1 hx
    have hsv : IsVariated s := (isVariated_iff s).2 hxv
    have h0 : (mkRow s o).2 = 0 := by
      cases o with
      | none =>
        unfold mkRow
        have : s.unb = false := by
          rcases Bool.eq_false_or_eq_true s.unb with e | e
          · exact absurd (s.unb_iff.1 e) hsv.2
          · exact e
        simp [this]
      | some o =>
        show o = 0
        by_contra hc
        exact hno ⟨s, o, h1, hsv, hc⟩
    have hs : s ∈ ss := (List.of_mem_zip h1).1
    have := (varWeight_bounds (x := mkRow s o) (hok s hs) hxv (by rw [h0]; omega)).2.2.2.2 h0
    exact this
  -- run the galley up to the last loop
  have htot := setTotals_ok hok ⟨0, 0, 0, 0⟩ (le_refl _) (by dsimp only; omega) (le_refl _)
    (by dsimp only; omega)
  simp only [zero_add] at htot
  have hfix : setFixed ⟨minSum ss, dSum ss, ss.countP SizePair.unb, ss.countP SizePair.var⟩ = setNeed ss :=
    setFixed_eq (m := minSum ss) (d := dSum ss) (u := ss.countP SizePair.unb)
      (v := ss.countP SizePair.var) m0 n1
  have hoc : oracleCount ss = divides ss +
      ss.countP (SizePair.takesOracle (decide (1 < ss.countP SizePair.unb))) := rfl
  have hnu : ss.countP SizePair.unb ≤ INT_MAX := by
    have h1 : ss.countP SizePair.unb ≤ ss.length := List.countP_le_length
    have := hz.total
    unfold minSum at m0
    omega
  obtain ⟨lim, el, _, _, _, _⟩ := setLimit_abs
    (t := ⟨minSum ss, dSum ss, ss.countP SizePair.unb, ss.countP SizePair.var⟩)
    (avail := (bs.length : Int) - setNeed ss) (by omega) (by omega) (by exact d0) bs (by
      intro h
      have : divides ss = 1 := if_pos h
      omega)
  dsimp only at el
  rw [show (if 0 < ss.countP SizePair.var ∧ 0 < ss.countP SizePair.unb then 1 else 0) = divides ss from rfl] at el
  have hml := setModLoop_abs (nUnb := ss.countP SizePair.unb) ss hok (bs.drop (2 * divides ss))
    (by rw [List.length_drop]; omega) (p := 0) (u := 0) (A := 0) (B := 0) (le_refl _) (le_refl _) (by norm_num)
    (by omega) (le_refl _) (by norm_num) (by omega)
  rw [show rowsOf (decide (1 < ss.countP SizePair.unb)) ss (bs.drop (2 * divides ss)) = setRows ss bs from rfl,
    hw] at hml
  unfold setSplit at h
  have u1 : (M.lift (setTotals ss ⟨0, 0, 0, 0⟩) : M ABlob SetTotals) bs
      = (.ok ⟨minSum ss, dSum ss, ss.countP SizePair.unb, ss.countP SizePair.var⟩, bs) := by rw [htot]; rfl
  rw [M.bind_ok u1] at h
  dsimp only at h
  rw [hfix, M.bind_ok (M.get_apply _), size_abs, toSz_of_nonneg n0 (by omega), if_neg (by omega),
    wrap32_of_fits (by omega) (by omega), M.bind_ok el, M.bind_ok hml] at h
  dsimp only at h
  obtain ⟨fv, _, h⟩ := bind_lift_ok h
  obtain ⟨fu, _, h⟩ := bind_lift_ok h
  obtain ⟨s, hs, hsv⟩ := hvar
  have hsv := (isVariated_iff s).1 hsv
  rw [if_pos (List.countP_pos_iff.2 ⟨s, hs, hsv⟩)] at h
  refine setChopLoop_notFin (div_zero_notFin _) ss hok ⟨s, hs, hsv⟩ ?_ _ _ h
  have hlen : ((setRows ss bs).map fun x => FV.fin (modQ x.2)).length = ss.length := by
    rw [List.length_map, ← List.length_map (f := Prod.fst) (as := setRows ss bs)]
    unfold setRows
    rw [rowsOf_fst]
  have fixlen : ∀ (ss : List SizePair) (ms : List FV) (u : FV), ms.length = ss.length →
      (setModFix ss ms u).1.length = ss.length := by
    intro ss
    induction ss with
    | nil => intro ms u _; rfl
    | cons s ss ih =>
      intro ms u hm
      rcases ms with _ | ⟨m, ms⟩
      · cases hm
      have hm' : ms.length = ss.length := by simpa using hm
      unfold setModFix
      split <;> simp [ih ms _ hm']
  split
  · exact fixlen ss _ _ hlen
  · exact hlen

theorem holds_length_lt {b : Blob} {bs : Bytes} (hb : b.Valid) (hh : Holds b bs) :
    bs.length < 9223372036854775808 := by
  rw [holds_iff hb] at hh
  subst hh
  rw [hb.abs_length]
  exact hb.size_lt

/-- What returns concretely returns on the bytes. -/
theorem SetReturns.inv {ss : List SizePair} {b : Blob} {bs : Bytes} (hb : b.Valid) (hh : Holds b bs)
    {parts : List Bytes} {left : Bytes} (h : SetReturns ss b parts left) :
    setSplit ss (bs : ABlob) = (.ok parts, left) := by
  rw [holds_iff hb] at hh
  subst hh
  obtain ⟨ps, b', h1, h2, h3⟩ := h
  obtain ⟨s1, s2⟩ := sim_setSplit ss b b.abs ⟨hb, rfl⟩
  rw [h1] at s1 s2
  rcases he : setSplit ss b.abs with ⟨o, a'⟩
  rw [he] at s1 s2
  cases s1 with
  | @ok _ qs s1 =>
    have e1 : a' = left := by
      have := (holds_iff s2.1 _).1 h3
      rw [← this]; exact s2.2.symm
    have e2 : qs = parts := by
      clear he h1 s2
      induction s1 generalizing parts with
      | nil => cases h2; rfl
      | cons hx _ ih =>
        cases h2 with
        | cons hy h2 =>
          rw [ih h2, ← hx.2, (holds_iff hx.1 _).1 hy]
    rw [e1, e2]

end BS
