import Verif.Lemmas.Calls
import Verif.Props.Depth

/-!
# C86: how many calls a size query makes
-/

namespace BS

/-- The sizes told call by call are those of the model used everywhere else. -/
theorem C86_same_sizes {G : Graph} {fl fl' : Flags} {sel : Sel} {i : Id} {v : Int} (h : SizeRuns G fl sel i v fl') :
    ∃ c, Costs G fl sel i c ∧ fl' = fl ∧ ∃ N, ∀ n ≥ N, sizeC G n sel i (fl, 0) = (.ok v, (fl, c)) := by
  obtain ⟨N, h⟩ := h
  have h1 := h N (le_refl _)
  cases (keeps_sizeQ G N sel i fl).2.2 _ _ h1
  obtain ⟨c, hc⟩ := shadows_sizeC G N sel i _ _ _ h1 0
  refine ⟨c, .intro N hc, rfl, N, fun m hm => ?_⟩
  rcases fle_sizeC G hm sel i (fl, 0) with e | e
  · rw [hc] at e
    cases e
  · rw [← e, hc]

/-- **C86**, the part that holds: a query that nests no more than `n` calls, of stamps that hold no more than `w` stamps
each, makes at most `(5 w + 1) ^ n` calls. Missing: a bound proportional to the number of stamps (`C86_violated`). -/
theorem C86_calls_partial {G : Graph} {w : Nat} (hw : Narrow w G) (h1 : 1 ≤ w) {fl : Flags} {sel : Sel} {i : Id} {n c : Nat}
    (hn : Deep G fl sel i n) (h : Costs G fl sel i c) : c ≤ (5 * w + 1) ^ n := by
  obtain ⟨N, h⟩ := h
  obtain ⟨v, e⟩ := h (max N n) (le_max_left _ _)
  rcases fle_sizeC G (le_max_right N n) sel i (fl, 0) with e' | e'
  · exact absurd e' hn
  · have := (within_sizeC hw h1 n sel i (fl, 0)).2
    rw [e', e] at this
    simpa using this

/-- For a grammar whose recursion goes through pickers there is one bound for the queries of all stamps. -/
theorem C86_bounded {G : Graph} (hg : Guarded G) {w : Nat} (hw : Narrow w G) (fl : Flags) :
    ∃ K, ∀ sel i v, SizeRuns G fl sel i v fl → ∃ c ≤ K, Costs G fl sel i c := by
  obtain ⟨Q, hQ⟩ := hg.queries fl
  have hw' : Narrow (w + 1) G := by
    intro i nd h
    have := hw i nd h
    cases nd
    case set => exact Nat.le_succ_of_le this
    case seq => exact Nat.le_succ_of_le this
    case picker => exact Nat.le_succ_of_le this
    all_goals exact trivial
  refine ⟨(5 * (w + 1) + 1) ^ Q, fun sel i v ⟨N, h⟩ => ?_⟩
  have h1 := h (max N Q) (le_max_left _ _)
  rw [sizeQ_stable (le_max_right N Q) (hQ sel i)] at h1
  obtain ⟨c, hc⟩ := shadows_sizeC G Q sel i _ _ _ h1 0
  refine ⟨c, ?_, .intro Q hc⟩
  have := (within_sizeC hw' (by omega) Q sel i (fl, 0)).2
  rw [hc] at this
  simpa using this

/-- `maxSize()` of a list makes no further call. -/
theorem C86_list_max {G : Graph} {i c : Id} {j : List Bytes → Bytes} (h : G i = some (.vec c j)) (fl : Flags) :
    Costs G fl .max i 1 := by
  refine .intro 1 (v := -1) ?_
  unfold sizeC
  rw [M.bind_ok (Takes.tick 0), h]
  rfl

/-- `minSize()` of `d + 1` lists inside each other makes `7 * 2 ^ d - 3` calls. -/
theorem C86_lists (d : Nat) (fl : Flags) : Costs nestGraph fl .min (d + 1) (7 * 2 ^ d - 3) := by
  obtain ⟨v, _, h⟩ := takes_nest d 0 fl
  refine .intro (0 + d + 2) (v := v) ?_
  rw [h 0, Nat.zero_add]

/-- `minSize()` of one of `k` pickers that may pick each other makes at least `(k - 1)!` calls. -/
theorem C86_pickers (k : Nat) (hk : 0 < k) :
    ∃ c, Costs (cliqueGraph k) Flags.init .min 0 c ∧ Nat.factorial (k - 1) ≤ c := by
  have hidle : idle k Flags.init = Finset.range k := by
    unfold idle
    exact Finset.filter_true_of_mem fun _ _ => rfl
  have h := takes_clique k (k + 1) Flags.init 0 (by rw [hidle]; exact Finset.mem_range.2 hk)
    (by rw [hidle, Finset.card_range])
  rw [hidle, Finset.card_range] at h
  refine ⟨_, .intro _ (v := 3) (h 0), ?_⟩
  obtain ⟨r, rfl⟩ : ∃ r, k = r + 1 := ⟨k - 1, by omega⟩
  rw [Nat.add_sub_cancel, Nat.zero_add]
  exact cliqueCost_ge (r + 1) r

/-- **C86** fails: the number of calls is not bounded by anything proportional to the number of stamps, nor by any
polynomial or exponential in it. -/
theorem C86_violated :
    ¬ ∃ a b : Nat, ∀ (G : Graph) (m : Nat), Stamps m G → ∀ i c, Costs G Flags.init .min i c → c ≤ a * b ^ m := by
  rintro ⟨a, b, h⟩
  obtain ⟨x, hx⟩ : ∃ x, x = a * (b + 1) ^ (2 * (b + 1) + 2) := ⟨_, rfl⟩
  obtain ⟨c, hc, hle⟩ := C86_pickers (2 * (b + 1) + x + 1) (by omega)
  have hst : Stamps (2 * (b + 1) + x + 2) (cliqueGraph (2 * (b + 1) + x + 1)) := by
    intro i nd hi
    unfold cliqueGraph at hi
    split at hi
    next hlt => exact Nat.lt_succ_of_lt hlt
    next =>
      split at hi
      next heq => rw [heq]; exact Nat.lt_succ_self _
      next => cases hi
  have h1 := h _ _ hst 0 c hc
  rw [Nat.add_sub_cancel] at hle
  have h2 : (2 * (b + 1) + 1) ^ x ≤ Nat.factorial (2 * (b + 1) + x) :=
    le_trans (Nat.le_mul_of_pos_left _ (Nat.factorial_pos _)) Nat.factorial_mul_pow_le_factorial
  have h3 : (2 * (b + 1)) ^ x ≤ (2 * (b + 1) + 1) ^ x := Nat.pow_le_pow_left (Nat.le_succ _) _
  have h4 : a * b ^ (2 * (b + 1) + x + 2) ≤ x * (b + 1) ^ x := by
    calc a * b ^ (2 * (b + 1) + x + 2) ≤ a * (b + 1) ^ (2 * (b + 1) + x + 2) :=
          Nat.mul_le_mul_left _ (Nat.pow_le_pow_left (Nat.le_succ _) _)
      _ = a * (b + 1) ^ (2 * (b + 1) + 2) * (b + 1) ^ x := by
          rw [Nat.mul_assoc, ← Nat.pow_add]
          congr 2
          omega
      _ = x * (b + 1) ^ x := by rw [← hx]
  have h5 : x * (b + 1) ^ x < 2 ^ x * (b + 1) ^ x :=
    Nat.mul_lt_mul_of_pos_right Nat.lt_two_pow_self (Nat.pow_pos (Nat.succ_pos b))
  rw [Nat.mul_pow] at h3
  omega

/-- `minSize()` of `StampJSON` makes 18 calls, `maxSize()` 5. -/
theorem C86_json : Costs jsonGraph Flags.init .min 0 18 ∧ Costs jsonGraph Flags.init .max 0 5 :=
  ⟨costs_eval 12 (v := 10) (by decide +kernel) (by decide +kernel),
    costs_eval 12 (v := -1) (by decide +kernel) (by decide +kernel)⟩

/-- Three lists inside each other: 25 calls. -/
example : Costs nestGraph Flags.init .min 3 25 := C86_lists 2 _

/-- Ten lists inside each other: 3581 calls; thirty: more than three thousand million. -/
example : Costs nestGraph Flags.init .min 10 3581 ∧ Costs nestGraph Flags.init .min 30 3758096381 :=
  ⟨C86_lists 9 _, C86_lists 29 _⟩

/-- Four pickers: 81 calls. -/
example : Costs (cliqueGraph 4) Flags.init .min 0 81 :=
  costs_eval 6 (v := 3) (by decide +kernel) (by decide +kernel)

/-- What the bound says about `StampJSON`, whose queries nest at most ten calls. -/
example : Deep jsonGraph Flags.init .min 0 10 := by unfold Deep; decide +kernel

end BS
