import Verif.Lemmas.Work
import Verif.Props.Depth

/-!
# C87: how many calls an extraction makes
-/

namespace BS
open BlobLike

/-- The texts, the flags and the bytes left are those of the model used everywhere else. -/
theorem C87_same {β : Type} [BlobLike β] (G : Graph) (n : Nat) (i : Id) (k : Nat) (s : Flags × β) :
    (extractW G n i (k, s)).1 = (extract G n i s).1 ∧ (extractW G n i (k, s)).2.2 = (extract G n i s).2 := by
  obtain ⟨h1, h2⟩ := forget_extract G n i (k, s) s rfl
  exact ⟨h1.eq, h2⟩

/-! ## Every grammar -/

/-- How many stamps stand below a stamp down to the next pickers, lotteries and leaves, counted as often as they are
reached. -/
def spread (G : Graph) : Nat → Id → Nat
  | 0, _ => 1
  | n + 1, i =>
    match G i with
    | none => 1
    | some nd => 1 + (nd.plainKids.map (spread G n)).sum

theorem spread_pos (G : Graph) (n : Nat) (i : Id) : 1 ≤ spread G n i := by
  cases n with
  | zero => exact le_refl _
  | succ n =>
    unfold spread
    split <;> omega

theorem spread_stable {G : Graph} {r : Id → Nat} (hr : ∀ i j, PlainEdge G i j → r j < r i) (n m : Nat) (i : Id)
    (hn : r i ≤ n) (hm : r i ≤ m) : spread G n i = spread G m i := by
  induction n generalizing m i with
  | zero =>
    cases m with
    | zero => rfl
    | succ m =>
      unfold spread
      cases hG : G i with
      | none => rfl
      | some nd =>
        have : nd.plainKids = [] := by
          rw [List.eq_nil_iff_forall_not_mem]
          intro j hj
          have := hr i j ⟨nd, hG, hj⟩
          omega
        dsimp only
        rw [this]; rfl
  | succ n ih =>
    cases m with
    | zero =>
      unfold spread
      cases hG : G i with
      | none => rfl
      | some nd =>
        have : nd.plainKids = [] := by
          rw [List.eq_nil_iff_forall_not_mem]
          intro j hj
          have := hr i j ⟨nd, hG, hj⟩
          omega
        dsimp only
        rw [this]; rfl
    | succ m =>
      unfold spread
      cases hG : G i with
      | none => rfl
      | some nd =>
        dsimp only
        congr 2
        refine List.map_congr_left fun j hj => ?_
        have hj := hr i j ⟨nd, hG, hj⟩
        exact ih m j (by omega) (by omega)

/-- Every stamp counts for more than those it is built on together. -/
theorem Guarded.weights {G : Graph} (h : Guarded G) : ∃ (P : Id → Nat) (Q : Nat),
    (∀ i nd, G i = some nd → 1 + (nd.plainKids.map P).sum ≤ P i) ∧ ∀ i, 1 ≤ P i ∧ P i ≤ Q := by
  obtain ⟨r, R, hr, hR⟩ := h.rank
  obtain ⟨B, hB⟩ := h.finite
  refine ⟨spread G (R + 1), 1 + ((List.range B).map (spread G (R + 1))).sum, fun i nd hG => ?_,
    fun i => ⟨spread_pos _ _ _, ?_⟩⟩
  · conv_rhs => unfold spread
    rw [hG]
    dsimp only
    refine Nat.add_le_add_left (le_of_eq ?_) _
    congr 1
    refine List.map_congr_left fun j _ => ?_
    exact spread_stable hr _ _ j (by have := hR j; omega) (hR j)
  · by_cases hi : (i : Nat) < B
    · have := List.single_le_sum (l := (List.range B).map (spread G (R + 1))) (fun _ _ => Nat.zero_le _) _
        (List.mem_map.2 ⟨i, List.mem_range.2 hi, rfl⟩)
      omega
    · unfold spread
      rw [hB i (Nat.le_of_not_lt hi)]
      dsimp only
      omega

/-- Calls enough for `n` bytes. -/
def callCap (P : Id → Nat) (Q : Nat) (i : Id) (n : Nat) : Nat := if n = 0 then P i else P i + Q * n + Q * (n - 1)

theorem callCap_zero {P : Id → Nat} {Q : Nat} {i : Id} : callCap P Q i 0 = P i := rfl
theorem callCap_succ {P : Id → Nat} {Q : Nat} {i : Id} {n : Nat} : callCap P Q i (n + 1) = P i + Q + 2 * (Q * n) := by
  unfold callCap
  rw [if_neg (by omega), Nat.add_sub_cancel, Nat.mul_add]; omega

theorem callCap_mono (P : Id → Nat) (Q : Nat) (i : Id) {n m : Nat} (h : n ≤ m) : callCap P Q i n ≤ callCap P Q i m := by
  cases n with
  | zero =>
    cases m with
    | zero => exact le_refl _
    | succ m => rw [callCap_zero, callCap_succ]; omega
  | succ n =>
    cases m with
    | zero => omega
    | succ m =>
      rw [callCap_succ, callCap_succ]
      have := Nat.mul_le_mul_left Q (show n ≤ m by omega)
      omega

theorem callCap_le (P : Id → Nat) (Q : Nat) (i : Id) (n : Nat) : callCap P Q i n ≤ P i + 2 * (Q * n) := by
  cases n with
  | zero => rw [callCap_zero]; omega
  | succ n => rw [callCap_succ, Nat.mul_add]; omega

theorem callCap_zip {P : Id → Nat} {Q : Nat} : ∀ (cs : List Id) (ns : List Nat),
    (ns.sum = 0 → (List.zipWith (callCap P Q) cs ns).sum ≤ (cs.map P).sum) ∧
    (List.zipWith (callCap P Q) cs ns).sum + Q ≤ (cs.map P).sum + Q + 2 * (Q * ns.sum) ∧
    (ns.sum ≠ 0 → (List.zipWith (callCap P Q) cs ns).sum + Q ≤ (cs.map P).sum + 2 * (Q * ns.sum))
  | [], ns => by
    refine ⟨fun _ => Nat.zero_le _, by simp, fun h => ?_⟩
    have := Nat.le_mul_of_pos_right Q (Nat.pos_of_ne_zero h)
    simp only [List.zipWith_nil_left, List.sum_nil, List.map_nil]
    omega
  | c :: cs, [] => by simp
  | c :: cs, x :: ns => by
    obtain ⟨h1, h2, h3⟩ := callCap_zip (P := P) (Q := Q) cs ns
    simp only [List.zipWith_cons_cons, List.sum_cons, List.map_cons]
    have h0 := callCap_le P Q c x
    cases x with
    | zero =>
      rw [callCap_zero, Nat.zero_add]
      exact ⟨fun e => by have := h1 e; omega, by omega, fun e => by have := h3 e; omega⟩
    | succ x =>
      rw [callCap_succ]
      have e : Q * (x + 1 + ns.sum) = Q * x + Q + Q * ns.sum := by ring
      rw [e]
      exact ⟨fun e => by omega, by omega, fun _ => by omega⟩

theorem callCap_fixed {P : Id → Nat} {Q : Nat} {c : Id} (hc : P c ≤ Q) : ∀ (ns : List Nat), (∀ x ∈ ns, 1 ≤ x) → ns ≠ [] →
    (ns.map (callCap P Q c)).sum + Q ≤ P c + 2 * (Q * ns.sum)
  | [], _, h => absurd rfl h
  | x :: ns, hx, _ => by
    obtain ⟨y, rfl⟩ : ∃ y, x = y + 1 := ⟨x - 1, by have := hx x List.mem_cons_self; omega⟩
    simp only [List.map_cons, List.sum_cons]
    rw [callCap_succ]
    have e : Q * (y + 1 + ns.sum) = Q * y + Q + Q * ns.sum := by ring
    rw [e]
    by_cases hn : ns = []
    · subst hn; simp; omega
    · have := callCap_fixed hc ns (fun z hz => hx z (List.mem_cons_of_mem _ hz)) hn
      omega

theorem callCap_other {P : Id → Nat} {Q : Nat} {c : Id} (hc : P c ≤ Q) : ∀ (ns : List Nat),
    (ns.map (callCap P Q c)).sum ≤ Q * ns.length + 2 * (Q * ns.sum)
  | [] => by simp
  | x :: ns => by
    have := callCap_other hc ns
    have h0 := callCap_le P Q c x
    simp only [List.map_cons, List.sum_cons, List.length_cons, Nat.mul_add, Nat.mul_one]
    omega

theorem callCap_enough {G : Graph} (fl : Flags) {P : Id → Nat} {Q : Nat}
    (hP : ∀ i nd, G i = some nd → 1 + (nd.plainKids.map P).sum ≤ P i) (hQ : ∀ i, 1 ≤ P i ∧ P i ≤ Q) :
    Enough G fl (callCap P Q) := by
  have step : ∀ i n, P i ≤ callCap P Q i n := fun i n => callCap_mono P Q i (Nat.zero_le n)
  have lists : ∀ i cs (ns : List Nat) n, 1 + (cs.map P).sum ≤ P i → ns.sum ≤ n →
      1 + (List.zipWith (callCap P Q) cs ns).sum ≤ callCap P Q i n := by
    intro i cs ns n h1 h2
    refine le_trans ?_ (callCap_mono P Q i h2)
    obtain ⟨e1, _, e3⟩ := callCap_zip (P := P) (Q := Q) cs ns
    rcases hs : ns.sum with _ | s
    · rw [callCap_zero]; have := e1 hs; omega
    · rw [callCap_succ]
      have := e3 (by omega)
      rw [hs, Nat.mul_add] at this
      omega
  refine ⟨fun i n m h => callCap_mono P Q i h, fun i n => le_trans (hQ i).1 (step i n), ?_, ?_, ?_, ?_, ?_, ?_⟩
  · intro i c join mn mx ns n hG _ _ hv
    have hc := hP i _ hG
    simp only [Node.plainKids, List.map_cons, List.map_nil, List.sum_cons, List.sum_nil] at hc
    by_cases hn : ns = []
    · subst hn
      have := step i n
      simp only [List.map_nil, List.sum_nil]
      omega
    by_cases he : mn = mx
    · obtain ⟨h1, h2, h3⟩ := hv.1 he
      have hf := callCap_fixed (hQ c).2 ns (fun x hx => by rw [h2 x hx]; exact h1) hn
      have hs : 1 ≤ ns.sum := by
        obtain ⟨x, xs, rfl⟩ := List.exists_cons_of_ne_nil hn
        have := h2 x List.mem_cons_self
        rw [List.sum_cons]; omega
      refine le_trans ?_ (callCap_mono P Q i h3)
      obtain ⟨s, hs⟩ : ∃ s, ns.sum = s + 1 := ⟨ns.sum - 1, by omega⟩
      rw [hs] at hf ⊢
      rw [callCap_succ]
      rw [Nat.mul_add] at hf
      omega
    · have h3 := hv.2.2 he
      have ho := callCap_other (hQ c).2 ns
      have hl := List.length_pos_iff.2 hn
      refine le_trans ?_ (callCap_mono P Q i h3)
      obtain ⟨s, hs⟩ : ∃ s, ns.sum + 2 * ns.length = s + 1 := ⟨ns.sum + 2 * ns.length - 1, by omega⟩
      rw [hs, callCap_succ]
      have e : Q * ns.sum + 2 * (Q * ns.length) = Q * s + Q := by
        have : Q * (ns.sum + 2 * ns.length) = Q * (s + 1) := by rw [hs]
        rw [Nat.mul_add, Nat.mul_add, Nat.mul_left_comm] at this
        omega
      have := Nat.le_mul_of_pos_right Q hl
      have := (hQ i).1
      omega
  · exact fun i cs join unb ns n hG hs => lists i cs ns n (hP i _ hG) hs
  · exact fun i cs join unb ns n hG hs _ => lists i cs ns n (hP i _ hG) hs
  · intro i op c n hG
    have := lists i [c] [n] n (hP i _ hG) (by simp)
    simpa using this
  · intro i r l w a b j n hG hw
    have h1 := (hQ i).1
    have h2 := (hQ j).2
    refine le_trans ?_ (callCap_mono P Q i (show n + 1 ≤ n + w by omega))
    rw [callCap_succ]
    have := callCap_le P Q j n
    omega
  · intro i l j n hG
    have h1 := (hQ i).1
    have h2 := (hQ j).2
    refine le_trans ?_ (callCap_mono P Q i (show n + 1 ≤ n + 2 by omega))
    rw [callCap_succ]
    have := callCap_le P Q j n
    omega

/-- With explicit constants: let `P i` be at least one more than the sum of `P` over the stamps that a list, set, sequence
or operator `i` calls, and `Q` an upper bound of `P`. Then `ExtractStr` makes at most `P i + 2 * Q * n` calls on `n`
bytes. -/
theorem C87_weights {G : Graph} {P : Id → Nat} {Q : Nat}
    (hP : ∀ i nd, G i = some nd → 1 + (nd.plainKids.map P).sum ≤ P i) (hQ : ∀ i, 1 ≤ P i ∧ P i ≤ Q) (fl : Flags) (i : Id)
    (bs : Bytes) : Works G fl i bs (P i + 2 * Q * bs.length) := by
  intro b hr hh n
  refine le_trans (works_of (callCap_enough fl hP hQ) i bs b hr hh n) (le_trans (callCap_le P Q i bs.length) ?_)
  rw [Nat.mul_assoc]

/-- **C87.** In every grammar of finitely many stamps in which every cycle passes through a pool picker or a lottery, the
number of calls of `ExtractStr` that an extraction makes, whatever its outcome, is bounded by the size of the blob times
a constant of the grammar. -/
theorem C87_linear {G : Graph} (h : Guarded G) : ∃ K, ∀ fl i bs, Works G fl i bs (K * (bs.length + 1)) := by
  obtain ⟨P, Q, hP, hQ⟩ := h.weights
  refine ⟨2 * Q, fun fl i bs b hr hh n => ?_⟩
  refine le_trans (works_of (callCap_enough fl hP hQ) i bs b hr hh n) ?_
  have h1 := callCap_le P Q i bs.length
  have h2 := (hQ i).2
  have e : 2 * Q * (bs.length + 1) = 2 * (Q * bs.length) + 2 * Q := by ring
  omega

/-- The constant exists for the grammar of `StampJSON`, at any time. -/
example : ∃ K, ∀ fl i bs, Works jsonGraph fl i bs (K * (bs.length + 1)) := C87_linear jsonGraph_ending.guarded

/-! ## `StampJSON` -/

/-- Calls enough for the objects of a `StampJSON`. -/
def jsonCalls : Id → Nat → Nat
  | 0, n | 4, n | 5, n => n + 1
  | 6, n => n + 2
  | _, _ => 1

theorem json_enough : Enough jsonGraph Flags.init jsonCalls := by
  have hmx : ∀ c mx, (c = 0 ∨ c = 6) → HasMax jsonGraph Flags.init c mx → mx = -1 := by
    rintro c mx (rfl | rfl) h <;> exact (SizeRuns.unique h (hasSize_eval 10 (by decide +kernel))).1
  have hmn : ∀ c mn, (c = 0 ∨ c = 6) → HasMin jsonGraph Flags.init c mn → mn ≠ -1 := by
    rintro c mn (rfl | rfl) h
    · rw [(SizeRuns.unique h (hasSize_eval (v := 10) 12 (by decide +kernel))).1]; decide
    · rw [(SizeRuns.unique h (hasSize_eval (v := 18) 12 (by decide +kernel))).1]; decide
  have hle : ∀ j n, jsonCalls j n ≤ n + 2 := by
    intro j n
    unfold jsonCalls
    split <;> omega
  refine ⟨?_, ?_, ?_, ?_, ?_, ?_, ?_, ?_⟩
  · intro i n m h
    unfold jsonCalls
    split <;> omega
  · intro i n
    unfold jsonCalls
    split <;> omega
  · intro i c join mn mx ns n hG h1 h2 hv
    have hi : (i = 4 ∧ c = 0) ∨ (i = 5 ∧ c = 6) := by
      rcases i with _ | _ | _ | _ | _ | _ | _ | _ | i <;> cases hG
      · exact .inl ⟨rfl, rfl⟩
      · exact .inr ⟨rfl, rfl⟩
    have hc : c = 0 ∨ c = 6 := by rcases hi with h | h <;> simp [h.2]
    have e := hmx c mx hc h2
    subst e
    have hn := hv.2.1 (hmn c mn hc h1) rfl
    rcases hi with ⟨rfl, rfl⟩ | ⟨rfl, rfl⟩
    · have : ∀ l : List Nat, (l.map (jsonCalls 0)).sum = l.sum + l.length := by
        intro l
        induction l with
        | nil => rfl
        | cons x l ih =>
          rw [List.map_cons, List.sum_cons, List.sum_cons, List.length_cons, ih]
          show x + 1 + _ = _
          omega
      rw [this]
      show _ ≤ n + 1
      omega
    · have : ∀ l : List Nat, (l.map (jsonCalls 6)).sum = l.sum + 2 * l.length := by
        intro l
        induction l with
        | nil => rfl
        | cons x l ih =>
          rw [List.map_cons, List.sum_cons, List.sum_cons, List.length_cons, ih]
          show x + 2 + _ = _
          omega
      rw [this]
      show _ ≤ n + 1
      omega
  · intro i cs join unb ns n hG
    rcases i with _ | _ | _ | _ | _ | _ | _ | _ | i <;> cases hG
  · intro i cs join unb ns n hG hs hf
    rcases i with _ | _ | _ | _ | _ | _ | _ | _ | i <;> cases hG
    rcases ns with _ | ⟨x, _ | ⟨y, ns⟩⟩
    · show 1 ≤ n + 2
      omega
    · show 1 + (1 + 0) ≤ n + 2
      omega
    · have h1 : 1 ≤ x := hf.1 ⟨_, rfl, trivial⟩
      have h2 : (List.zipWith jsonCalls [7, 0] (x :: y :: ns)).sum = 1 + (y + 1 + 0) := by
        rw [List.zipWith_cons_cons, List.zipWith_cons_cons, List.zipWith_nil_left, List.sum_cons, List.sum_cons, List.sum_nil]
        rfl
      rw [h2]
      rw [List.sum_cons, List.sum_cons] at hs
      show _ ≤ n + 2
      omega
  · intro i op c n hG
    rcases i with _ | _ | _ | _ | _ | _ | _ | _ | i <;> cases hG
  · intro i r l w a b j n hG
    rcases i with _ | _ | _ | _ | _ | _ | _ | _ | i <;> cases hG
  · intro i l j n hG
    rcases i with _ | _ | _ | _ | _ | _ | _ | _ | i <;> cases hG
    have := hle j n
    show _ ≤ n + 2 + 1
    omega

/-- **C87**, `StampJSON`: at most one call for each byte of the blob, and one. -/
theorem C87_json (bs : Bytes) : Works jsonGraph Flags.init 0 bs (bs.length + 1) := works_of json_enough 0 bs

/-- 24 bytes that become `{"a": [0]}`: eight calls (picker, hash, element, name, picker, array, picker, integer)
where 25 are allowed. -/
example : (extractW jsonGraph 14 0 (0, (Flags.init, (0 :: 128 :: List.replicate 22 0 : ABlob)))).1 =
      .ok (str "{\"a\": [0]}") ∧
    (extractW jsonGraph 14 0 (0, (Flags.init, (0 :: 128 :: List.replicate 22 0 : ABlob)))).2.1 = 8 := by
  constructor <;> decide +kernel

/-- An operator that is its own operand. -/
def selfGraph : Graph
  | 0 => some (.unary (str "-") 0)
  | _ => none

/-- Why every cycle has to pass through a picker or a lottery: an operator on itself makes any number of calls, on any
blob. -/
theorem C87_needs_guard (fl : Flags) (bs : Bytes) (hl : bs.length < 9223372036854775808) (c : Nat) :
    ¬ Works selfGraph fl 0 bs c := by
  intro h
  obtain ⟨b, hr, hh⟩ := exists_blob hl
  have key : ∀ n k, (extractW selfGraph n 0 (k, (fl, b))).2.1 = k + n ∧
      (extractW selfGraph n 0 (k, (fl, b))).1 = .fuel := by
    intro n
    induction n with
    | zero => exact fun k => ⟨rfl, rfl⟩
    | succ n ih =>
      intro k
      obtain ⟨h1, h2⟩ := ih (k + 1)
      rcases he : extractW selfGraph n 0 (k + 1, (fl, b)) with ⟨o, w⟩
      rw [he] at h1 h2
      dsimp only at h1 h2
      subst h2
      have e : extractW selfGraph (n + 1) 0 (k, (fl, b)) = (.fuel, w) := by
        show ((extractW selfGraph n 0 : WM Blob Bytes) >>= fun x => pure (unaryText (str "-") x)) (k + 1, (fl, b)) = _
        rw [M.bind_fuel he]
      rw [e]
      exact ⟨by dsimp only; omega, rfl⟩
  have := h b hr hh (c + 1)
  rw [(key (c + 1) 0).1] at this
  omega

end BS
