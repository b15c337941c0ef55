import Verif.Lemmas.Oracle

/-!
# C09-C11: `OracleProportion`
-/

namespace BS

/-- **C09.** For every 16-bit oracle and every range of `size_t`, the result exists and lies in the
range. -/
theorem C09_proportion_in_range {o mn mx : Nat} (ho : o ≤ 65535) (h : mn ≤ mx) (hx : mx < W64) :
    ∃ r, oracleProportion o mn mx = .ok r ∧ mn ≤ r ∧ r ≤ mx := by
  obtain ⟨h1, h2⟩ := oracleProportion_range (o := o) (by omega) h hx
  rcases (by omega : mx - mn + 1 < W64 ∨ mx - mn + 1 = W64) with hd | hd
  · obtain ⟨a, b⟩ := h1 hd
    exact ⟨_, a, by omega, by omega⟩
  · exact ⟨_, h2 hd, le_refl _, h⟩

/-- The largest oracle on a range so large that binary32 cannot count it. -/
example : oracleProportion 65535 5 1000000000000 = .ok 999984726021 := by decide +kernel

/-- **C10.** A larger oracle never gives a smaller result; oracle 0 gives `min`; the largest oracle
gives `max` on ranges of up to 65536 values. -/
theorem C10_proportion_monotone {mn mx : Nat} (h : mn ≤ mx) (hx : mx < W64) :
    (∀ o o' r r', o ≤ o' → o' ≤ 65535 → oracleProportion o mn mx = .ok r →
      oracleProportion o' mn mx = .ok r' → r ≤ r') ∧
    oracleProportion 0 mn mx = .ok mn ∧
    (mx - mn + 1 ≤ 65536 → oracleProportion 65535 mn mx = .ok mx) := by
  refine ⟨?_, ?_, ?_⟩
  · intro o o' r r' hle ho' hr hr'
    obtain ⟨h1, h2⟩ := oracleProportion_range (o := o) (by omega) h hx
    obtain ⟨h1', h2'⟩ := oracleProportion_range (o := o') (by omega) h hx
    rcases (by omega : mx - mn + 1 < W64 ∨ mx - mn + 1 = W64) with hd | hd
    · rw [(h1 hd).1] at hr
      rw [(h1' hd).1] at hr'
      injection hr with hr
      injection hr' with hr'
      have := Int.floor_le_floor (propQ_mono (d := mx - mn + 1) hle)
      omega
    · rw [h2 hd] at hr
      rw [h2' hd] at hr'
      injection hr with hr
      injection hr' with hr'
      omega
  · obtain ⟨h1, h2⟩ := oracleProportion_range (o := 0) (by omega) h hx
    rcases (by omega : mx - mn + 1 < W64 ∨ mx - mn + 1 = W64) with hd | hd
    · rw [(h1 hd).1]
      have : propQ 0 (mx - mn + 1) = 0 := by unfold propQ; simp [rnd_zero]
      rw [this]; simp
    · exact h2 hd
  · intro hd
    obtain ⟨h1, _⟩ := oracleProportion_range (o := 65535) (by omega) h hx
    obtain ⟨e, hle⟩ := h1 (by omega)
    rw [e]
    congr 1
    have hge : ((mx - mn : Nat) : Int) ≤ ⌊propQ 65535 (mx - mn + 1)⌋ := by
      rw [Int.le_floor]
      unfold propQ
      rw [rnd_of_rep (rep32_nat (by omega : mx - mn + 1 ≤ 2 ^ 24))]
      have := le_rnd_of_rep f32 f32_p (a := ((mx - mn : Nat) : ℚ))
        (b := ((65535 : Nat) : ℚ) / 65536 * ((mx - mn + 1 : Nat) : ℚ)) (rep32_nat (by omega)) (by
          have : ((mx - mn + 1 : Nat) : ℚ) ≤ 65536 := by exact_mod_cast hd
          have e2 : ((mx - mn + 1 : Nat) : ℚ) = ((mx - mn : Nat) : ℚ) + 1 := by push_cast; ring
          rw [e2] at this ⊢
          push_cast
          linarith)
      exact_mod_cast this
    omega

example : oracleProportion 65535 10 70 = .ok 70 ∧ oracleProportion 0 10 70 = .ok 10 ∧
    oracleProportion 30000 10 70 = .ok 37 ∧
    oracleProportion 65535 0 70000 = .ok 69999 := by decide +kernel

/-- **C11.** On a range of at most 256 values the result is exactly
`min + floor(oracle * count / 65536)`, and every value of the range is the result of some oracle. -/
theorem C11_small_ranges_exact {mn mx : Nat} (h : mn ≤ mx) (hx : mx < W64)
    (hd : mx - mn + 1 ≤ 256) :
    (∀ o, o ≤ 65535 → oracleProportion o mn mx = .ok (mn + o * (mx - mn + 1) / 65536)) ∧
    (∀ v, mn ≤ v → v ≤ mx → ∃ o, o ≤ 65535 ∧ oracleProportion o mn mx = .ok v) := by
  have key : ∀ o, o ≤ 65535 → oracleProportion o mn mx = .ok (mn + o * (mx - mn + 1) / 65536) := by
    intro o ho
    obtain ⟨h1, _⟩ := oracleProportion_range (o := o) (by omega) h hx
    rw [(h1 (by omega)).1, propQ_small (by omega) hd]
    congr 2
    have : ((o : ℚ) * ((mx - mn + 1 : Nat) : ℚ) / 65536)
        = ((o * (mx - mn + 1) : Nat) : ℚ) / ((65536 : Nat) : ℚ) := by push_cast; ring
    rw [this, Rat.floor_natCast_div_natCast]
    omega
  refine ⟨key, ?_⟩
  intro v hv1 hv2
  set c := mx - mn + 1 with hc
  set k := v - mn with hk
  refine ⟨(k * 65536 + (c - 1)) / c, ?_, ?_⟩
  · have : (k * 65536 + (c - 1)) / c < 65536 := by
      rw [Nat.div_lt_iff_lt_mul (by omega)]
      have : k * 65536 ≤ (c - 1) * 65536 := Nat.mul_le_mul_right _ (by omega)
      have e : 65536 * c = (c - 1) * 65536 + 65536 := by
        obtain ⟨j, hj⟩ : ∃ j, c = j + 1 := ⟨c - 1, by omega⟩
        rw [hj]; simp; ring
      omega
    omega
  · have hb : (k * 65536 + (c - 1)) / c ≤ 65535 := by
      have : (k * 65536 + (c - 1)) / c < 65536 := by
        rw [Nat.div_lt_iff_lt_mul (by omega)]
        have : k * 65536 ≤ (c - 1) * 65536 := Nat.mul_le_mul_right _ (by omega)
        have e : 65536 * c = (c - 1) * 65536 + 65536 := by
          obtain ⟨j, hj⟩ : ∃ j, c = j + 1 := ⟨c - 1, by omega⟩
          rw [hj]; simp; ring
        omega
      omega
    rw [key _ hb]
    congr 1
    set o := (k * 65536 + (c - 1)) / c with ho
    have l1 : o * c ≤ k * 65536 + (c - 1) := Nat.div_mul_le_self _ _
    have l2 : k * 65536 + (c - 1) < o * c + c := by
      have h1 := Nat.div_add_mod (k * 65536 + (c - 1)) c
      have h2 := Nat.mod_lt (k * 65536 + (c - 1)) (by omega : c > 0)
      rw [← ho, Nat.mul_comm c o] at h1
      omega
    have : o * c / 65536 = k := by omega
    omega

example : oracleProportion 32768 100 109 = .ok 105 ∧ oracleProportion 65535 0 255 = .ok 255 ∧
    oracleProportion 6554 100 109 = .ok 101 := by decide +kernel

end BS
