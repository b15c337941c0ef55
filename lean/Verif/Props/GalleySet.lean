import Verif.Lemmas.SetSuccess

/-!
# C21-C25: the set galley
-/

namespace BS
open BlobLike

/-! ## C25 -/

theorem setSplit_short {ss : List SizePair} {bs : Bytes} (hz : SetSizes ss) {m : Int}
    (hm : setMinSize ss = .ok m) (hlt : (bs.length : Int) < m) :
    setSplit ss (bs : ABlob) = (.outOfData, bs) := by
  rw [setMinSize_eq hz] at hm
  cases hm
  have hok := hz.ok
  have m0 := minSum_nonneg hok
  have d0 := dSum_nonneg hok
  have hd : dSum ss ≤ INT_MAX := by rw [← slack_sum hok]; exact hz.widths
  obtain ⟨n0, n1⟩ := setNeed_le hz
  have hne := setNeed_eq hok
  have htot := setTotals_ok hok ⟨0, 0, 0, 0⟩ (le_refl _) (by dsimp only; omega) (le_refl _)
    (by dsimp only; omega)
  simp only [zero_add] at htot
  have hfix : setFixed ⟨minSum ss, dSum ss, ss.countP SizePair.unb, ss.countP SizePair.var⟩ = setNeed ss :=
    setFixed_eq (m := minSum ss) (d := dSum ss) (u := ss.countP SizePair.unb)
      (v := ss.countP SizePair.var) m0 n1
  have u1 : (M.lift (setTotals ss ⟨0, 0, 0, 0⟩) : M ABlob SetTotals) bs
      = (.ok ⟨minSum ss, dSum ss, ss.countP SizePair.unb, ss.countP SizePair.var⟩, bs) := by rw [htot]; rfl
  unfold setSplit
  rw [M.bind_ok u1]
  dsimp only
  rw [hfix, M.bind_ok (M.get_apply _), size_abs, toSz_of_nonneg n0 (by omega), if_pos (by omega)]
  rfl

/-- **C25**, for sizes whose sums are `int`s: fewer than `minSize()` bytes give `OutOfData` and the blob
keeps its bytes. -/
theorem C25_short_throws_partial {ss : List SizePair} {b : Blob} {bs : Bytes} (hr : Reachable b) (hh : Holds b bs)
    (hz : SetSizes ss) (hlt : (bs.length : Int) < setNeeds ss) : SetThrows ss b bs :=
  SetThrows.intro hr.valid hh (setSplit_short hz (setMinSize_needs hz) hlt)

/-! ## C21 -/

/-- **C21**, pieces: whenever the set galley returns, whatever the oracles and the size of the blob, it
returns one piece per stamp, in order, consecutive after the oracles and followed by what is left. -/
theorem C21_pieces_partial {ss : List SizePair} {b : Blob} {bs : Bytes} (hr : Reachable b) (hh : Holds b bs)
    (hs : ∀ s ∈ ss, 0 ≤ s.1 ∧ s.1 ≤ INT_MAX ∧ (s.2 = -1 ∨ (s.1 ≤ s.2 ∧ s.2 ≤ INT_MAX)))
    {parts : List Bytes} {left : Bytes} (h : SetReturns ss b parts left) :
    parts.length = ss.length ∧ ∃ oracles, oracles ++ parts.flatten ++ left = bs := by
  obtain ⟨h1, h2⟩ := setSplit_ok hs (holds_length_lt hr.valid hh) (h.inv hr.valid hh)
  exact ⟨h1.length_eq.symm, h2⟩

/-- **C21**, outcome: for sizes whose sums are `int`s, a blob of at least `minSize()` and fewer than 2^31-1
bytes and `stamps * (Size + 1) ≤ 2^49`, unless all variated stamps read the oracle 0, the set galley
returns one piece per stamp, or else a stamp whose minimum is 0 read the oracle 0 and it throws. -/
theorem C21_outcome_partial {ss : List SizePair} {b : Blob} {bs : Bytes} (hr : Reachable b) (hh : Holds b bs)
    (hz : SetSizes ss) (hmin : setNeeds ss ≤ bs.length)
    (hS : bs.length ≤ 2147483646) (hn : ss.length * (bs.length + 1) ≤ 2 ^ 49) (ho : SomeVarPos ss bs) :
    (∃ parts left, SetReturns ss b parts left) ∨ (SomeBare ss bs ∧ ∃ left, SetThrows ss b left) := by
  rw [setNeeds_eq] at hmin
  rcases set_core' hz ho hmin hS hn with ⟨parts, left, h, _⟩ | ⟨h0, left, h⟩
  · exact .inl ⟨parts, left, SetReturns.intro hr.valid hh h⟩
  · exact .inr ⟨h0, left, SetThrows.intro hr.valid hh h⟩

/-- What a set galley that returns was given, and what its pieces are. -/
theorem setReturns_facts {ss : List SizePair} {b : Blob} {bs : Bytes} (hr : Reachable b) (hh : Holds b bs)
    (hz : SetSizes ss) (hS : bs.length ≤ 2147483646) (hn : ss.length * (bs.length + 1) ≤ 2 ^ 49)
    {parts : List Bytes} {left : Bytes} (h : SetReturns ss b parts left) :
    setNeed ss ≤ bs.length ∧ SomeVarPos ss bs ∧ SetFacts ss bs parts left := by
  have h' := h.inv hr.valid hh
  have hmin : setNeed ss ≤ bs.length := by
    by_contra hc
    obtain ⟨b', h1, _⟩ := C25_short_throws_partial hr hh hz (by rw [setNeeds_eq]; omega)
    obtain ⟨ps, b'', h2, _⟩ := h
    rw [h1] at h2; cases h2
  have hp := setSplit_someVarPos hz hmin hS h'
  refine ⟨hmin, hp, ?_⟩
  rcases set_core' hz hp hmin hS hn with ⟨ps, l, h1, h2⟩ | ⟨_, l, h1⟩
  · rw [h'] at h1; cases h1; exact h2
  · rw [h'] at h1; cases h1

/-- **C21**, failure: when there are variated stamps and all of them read the oracle 0, the set galley never
returns (for sizes whose sums are `int`s and blobs of at least `minSize()` and fewer than 2^31-1 bytes). -/
theorem C21_violated_all_zero {ss : List SizePair} {b : Blob} {bs : Bytes} (hr : Reachable b) (hh : Holds b bs)
    (hz : SetSizes ss) (hmin : setNeeds ss ≤ bs.length)
    (hS : bs.length ≤ 2147483646) (ho : ¬ SomeVarPos ss bs) (parts : List Bytes) (left : Bytes) :
    ¬ SetReturns ss b parts left := by
  intro h
  rw [setNeeds_eq] at hmin
  exact ho (setSplit_someVarPos hz hmin hS (h.inv hr.valid hh))

/-- **C21** where the oracles are as in `SetOraclesOk`: the set galley over a blob of at least `minSize()` bytes
yields one piece per stamp, in order, consecutive after the oracles, which are two bytes per stamp that
has one and two more to divide the data when there are variated and unbounded stamps. -/
theorem C21_set_pieces_partial {ss : List SizePair} {b : Blob} {bs : Bytes} (hr : Reachable b) (hh : Holds b bs)
    (hz : SetSizes ss) (hmin : setNeeds ss ≤ bs.length) (ho : SetOraclesOk ss bs)
    (hS : bs.length ≤ 2147483646) (hn : ss.length * (bs.length + 1) ≤ 2 ^ 49) :
    ∃ (oracles : Bytes) (parts : List Bytes) (left : Bytes), SetReturns ss b parts left ∧
      parts.length = ss.length ∧ oracles ++ parts.flatten ++ left = bs ∧
      (oracles.length : Int) = setNeeds ss - (ss.map Prod.fst).sum := by
  rw [setNeeds_eq] at hmin ⊢
  obtain ⟨parts, left, h1, h2, h3, _⟩ := set_core hz ho hmin hS hn
  refine ⟨_, parts, left, SetReturns.intro hr.valid hh h1, h2, h3, ?_⟩
  have h4 := setNeed_eq hz.ok
  have h5 := minSum_nonneg hz.ok
  rw [List.length_take]
  unfold minSum at h4 h5
  omega

/-! ## C22 -/

/-- **C22**, for sizes whose sums are `int`s, blobs of fewer than 2^31-1 bytes and
`stamps * (Size + 1) ≤ 2^49`: whenever the set galley returns, every stamp gets its minimum, unless it read
the oracle 0 (and is not an unbounded stamp among unbounded stamps that all read 0); then it gets at most
one byte less. -/
theorem C22_minimum_partial {ss : List SizePair} {b : Blob} {bs : Bytes} (hr : Reachable b) (hh : Holds b bs)
    (hz : SetSizes ss) (hS : bs.length ≤ 2147483646) (hn : ss.length * (bs.length + 1) ≤ 2 ^ 49)
    {parts : List Bytes} {left : Bytes} (h : SetReturns ss b parts left)
    {i : Nat} {s : SizePair} {p : Bytes} (hs : ss[i]? = some s) (hp : parts[i]? = some p) :
    s.1 - 1 ≤ p.length ∧
    ((setOracles ss bs)[i]? ≠ some (some 0) ∨ (s.2 = -1 ∧ UnbAllZero ss bs) → s.1 ≤ p.length) := by
  have hf := (setReturns_facts hr hh hz hS hn h).2.2.sizes i s p hs hp
  exact ⟨hf.1, hf.2.1⟩

/-! ## C23 -/

/-- **C23**: whenever the set galley returns, whatever the oracles, the number of stamps and the size of the
blob, a variated stamp gets at most one byte more than its maximum, and a stamp of fixed size gets exactly
its size. -/
theorem C23_maximum {ss : List SizePair} {b : Blob} {bs : Bytes} (hr : Reachable b) (hh : Holds b bs)
    (hz : ∀ s ∈ ss, 0 ≤ s.1 ∧ s.1 ≤ INT_MAX ∧ (s.2 = -1 ∨ (s.1 ≤ s.2 ∧ s.2 ≤ INT_MAX)))
    {parts : List Bytes} {left : Bytes} (h : SetReturns ss b parts left)
    {i : Nat} {s : SizePair} {p : Bytes} (hs : ss[i]? = some s) (hp : parts[i]? = some p) :
    (IsVariated s → p.length ≤ s.2 + 1) ∧ (s.1 = s.2 → p.length = s.1) := by
  obtain ⟨h1, _⟩ := setSplit_ok hz (holds_length_lt hr.valid hh) (h.inv hr.valid hh)
  obtain ⟨k1, rfl⟩ := List.getElem?_eq_some_iff.1 hs
  obtain ⟨k2, rfl⟩ := List.getElem?_eq_some_iff.1 hp
  exact h1.get k1 k2

/-! ## C24 -/

theorem setMaxSize_eq {ss : List SizePair} (h : ∀ s ∈ ss, s.Ok ∧ s.2 ≠ -1) (r : Int) (h0 : 0 ≤ r)
    (h1 : r + (ss.map Prod.snd).sum + 2 * ss.length ≤ INT_MAX) :
    setMaxSize ss r = .ok (r + minSum ss + dSum ss + 2 * ss.countP SizePair.var) := by
  induction ss generalizing r with
  | nil => simp [setMaxSize, minSum, dSum]
  | cons s ss ih =>
    have h' : ∀ s ∈ ss, s.Ok ∧ s.2 ≠ -1 := fun x hx => h x (by simp [hx])
    have hs := h s (by simp)
    have hp : 0 ≤ (ss.map Prod.snd).sum := by
      apply List.sum_nonneg
      intro x hx
      obtain ⟨t, ht, rfl⟩ := List.mem_map.1 hx
      obtain ⟨⟨t0, _, t2⟩, t3⟩ := h' t ht
      omega
    simp only [List.map_cons, List.sum_cons, List.length_cons] at h1
    push_cast at h1
    have hm : minSum (s :: ss) = s.1 + minSum ss := by simp [minSum]
    have hd : dSum (s :: ss) = (if s.var then s.2 - s.1 else 0) + dSum ss := rfl
    rw [hm, hd, List.countP_cons]
    unfold setMaxSize
    have hc := hs.1.cases
    obtain ⟨⟨s0, s1, s2⟩, s3⟩ := hs
    rw [ckInt_ok (by omega) (by omega)]
    simp only [Out.bind_ok']
    rcases hc with ⟨_, e2, e3, e4⟩ | ⟨_, e2, e3, e4⟩ | ⟨_, e2, e3, e4, e5⟩
    · rw [e2, e3, if_neg (by simp), if_neg (by simp), ih h' _ (by omega) (by omega)]
      simp; omega
    · exact absurd e4 s3
    · rw [e2, e3, if_neg (by simp), if_pos rfl, wrap32_of_fits (by omega) (by omega),
        ih h' _ (by omega) (by omega)]
      simp; ring

/-- **C24**, for sizes whose sums are `int`s, blobs of fewer than 2^31-1 bytes and
`stamps * (Size + 1) ≤ 2^49`: whenever the set galley returns, with an unbounded stamp no byte is left;
without one (and with `maxSize()` an `int`) the bytes consumed are between `minSize()` and `maxSize()`. -/
theorem C24_consumed_partial {ss : List SizePair} {b : Blob} {bs : Bytes} (hr : Reachable b) (hh : Holds b bs)
    (hz : SetSizes ss)
    (hS : bs.length ≤ 2147483646) (hn : ss.length * (bs.length + 1) ≤ 2 ^ 49)
    {parts : List Bytes} {left : Bytes} (h : SetReturns ss b parts left) :
    ((∃ s ∈ ss, s.2 = -1) → left = []) ∧
    ((∀ s ∈ ss, s.2 ≠ -1) → (ss.map Prod.snd).sum + 2 * ss.length ≤ INT_MAX →
      setNeeds ss ≤ (bs.length : Int) - left.length ∧ (bs.length : Int) - left.length ≤ setTakes ss) := by
  rw [setNeeds_eq]
  obtain ⟨hmin, _, _, _, _, fv, h5, h6⟩ := setReturns_facts hr hh hz hS hn h
  refine ⟨fun ⟨s, hs, hu⟩ => ?_, fun hno hmx => ?_⟩
  · rw [if_pos (List.countP_pos_iff.2 ⟨s, hs, s.unb_iff.2 hu⟩)] at h6
    exact List.length_eq_zero_iff.1 (by omega)
  · have hu0 : ss.countP SizePair.unb = 0 := by
      rw [List.countP_eq_zero]
      intro s hs hu
      exact hno s hs (s.unb_iff.1 hu)
    rw [hu0, if_neg (by omega)] at h6
    have hM : setTakes ss = minSum ss + dSum ss + 2 * ss.countP SizePair.var := by
      have e1 := setMaxSize_eq (fun s hs => ⟨hz.ok s hs, hno s hs⟩) 0 (le_refl _) (by omega)
      have hx : (ss.map fun s => if s.2 = -1 then 0 else s.2) = ss.map Prod.snd :=
        List.map_congr_left fun s hs => if_neg (hno s hs)
      have e2 := setMaxSize_takes hz.sizes 0 (le_refl _) (by rw [hx]; omega)
      rw [e1, Int.zero_add, Int.zero_add] at e2
      injection e2 with e2
      exact e2.symm
    rw [hM]
    refine ⟨by omega, ?_⟩
    have : setNeed ss = minSum ss + 2 * ss.countP SizePair.var := by
      unfold setNeed
      rw [hu0, if_neg (by omega), if_neg (by omega)]; ring
    omega

/-! ## Examples -/

section
/-- A set with all three kinds of stamps. -/
private def exSet : List SizePair := [(2, 2), (1, 4), (2, -1), (0, -1)]
private def exBytes : Bytes := [0, 128, 255, 127, 0, 64, 9, 0] ++ [1, 2, 3, 4, 5, 6, 7, 8, 9, 10, 11, 12]

example : SetSizes exSet := ⟨by decide, by decide, by decide⟩
example : setMinSize exSet = .ok 13 := by decide
example : setOracles exSet exBytes = [none, some 32767, some 16384, some 9] := by decide
example : SetOraclesOk exSet exBytes := by
  have h : exSet.zip (setOracles exSet exBytes)
      = [((2, 2), none), ((1, 4), some 32767), ((2, -1), some 16384), ((0, -1), some 9)] := by decide
  refine ⟨fun _ => ⟨(1, 4), 32767, by rw [h]; simp, by decide, by decide⟩, fun ⟨s, hs, _⟩ => ?_⟩
  rw [h] at hs
  simp at hs
example : setSplit exSet (exBytes : ABlob) = (.ok [[1, 2], [3, 4], [5, 6, 7, 8, 9, 10, 11, 12], []], []) := by
  decide +kernel
/-- One byte above the maximum does happen. -/
example : setSplit [(0, 1), (0, 1), (0, 1)] ([0x99, 0x59, 255, 255, 0x67, 0x26, 1, 2, 3, 4, 5] : ABlob)
    = (.ok [[], [1, 2], []], [3, 4, 5]) := by decide +kernel
end

/-- C22 and C23 where the galley returns a piece one byte too short and one byte too long. -/
example {b : Blob} (hr : Reachable b) (hh : Holds b [0x99, 0x59, 255, 255, 0x67, 0x26, 1, 2, 3, 4, 5]) :
    SetReturns [(0, 1), (0, 1), (0, 1)] b [[], [1, 2], []] [3, 4, 5] :=
  SetReturns.intro hr.valid hh (by decide +kernel)
/-- C21: a set whose one variated stamp reads 0. -/
example : ¬ SomeVarPos [(0, -1), (1, 4)] [9, 9, 0, 0, 1, 2, 3] := by
  intro h
  obtain ⟨s, o, h1, h2, h3⟩ := h ⟨(1, 4), by simp, by decide⟩
  rw [show [((0 : Int), (-1 : Int)), (1, 4)].zip (setOracles [(0, -1), (1, 4)] [9, 9, 0, 0, 1, 2, 3])
    = [((0, -1), none), ((1, 4), some 0)] by decide] at h1
  simp at h1
  exact h3 h1.2
example : setSplit [(0, -1), (1, 4)] ([9, 9, 0, 0, 1, 2, 3] : ABlob) = (.ub .floatToInt, [3]) := by decide +kernel

/-! ## Violations -/

/-- **C21 is violated**: when the variated stamps all read the oracle 0, the galley computes 0/0 and
converts the result to `int`. -/
theorem C21_violated_zero {b : Blob} (hr : Reachable b) (hh : Holds b [0, 0, 1, 2, 3, 4, 5]) :
    setMinSize [(0, 4)] = .ok 2 ∧ SetUndefined [(0, 4)] b := by
  refine ⟨by decide, SetUndefined.intro hr.valid hh (r := .floatToInt) (left := [1, 2, 3, 4, 5]) ?_⟩
  decide +kernel

/-- **C21 is violated**: a remainder of -1/2 makes the size of the second piece -1, and the galley
throws `OutOfData` although every stamp accepts an empty piece. -/
theorem C21_violated_remainder {b : Blob} (hr : Reachable b)
    (hh : Holds b [255, 255, 0, 0, 255, 255, 1, 2, 3, 4, 5]) :
    setMinSize [(0, -1), (0, -1), (0, -1)] = .ok 6 ∧ SetThrows [(0, -1), (0, -1), (0, -1)] b [4, 5] := by
  refine ⟨by decide, SetThrows.intro hr.valid hh ?_⟩
  decide +kernel

/-- **C22 is violated**: a stamp of minimal size 1 gets an empty piece. -/
theorem C22_violated {b : Blob} (hr : Reachable b)
    (hh : Holds b [255, 255, 0, 0, 255, 255, 1, 2, 3, 4, 5, 6, 7, 8]) :
    setMinSize [(1, -1), (1, -1), (1, -1)] = .ok 9 ∧
    SetReturns [(1, -1), (1, -1), (1, -1)] b [[1, 2, 3, 4], [], [5, 6, 7, 8]] [] := by
  refine ⟨by decide, SetReturns.intro hr.valid hh ?_⟩
  decide +kernel

/-- **C24 is violated**: a lone unbounded stamp gets nothing of a blob of 2^31 bytes. -/
theorem C24_violated {b : Blob} {bs : Bytes} (hr : Reachable b) (hh : Holds b bs) (hl : bs.length = 2147483648) :
    setMinSize [(0, -1)] = .ok 0 ∧ SetReturns [(0, -1)] b [[]] bs := by
  refine ⟨by decide, SetReturns.intro hr.valid hh ?_⟩
  unfold setSplit
  have u1 : (M.lift (setTotals [(0, -1)] ⟨0, 0, 0, 0⟩) : M ABlob SetTotals) bs = (.ok ⟨0, 0, 1, 0⟩, bs) := by
    rw [setTotals_ok (by intro s hs; simp at hs; subst hs; exact ⟨by norm_num, by norm_num, .inl rfl⟩) _ (by norm_num)
      (by simp [minSum]) (by norm_num) (by simp [dSum, SizePair.var, SizePair.unb])]
    rfl
  rw [M.bind_ok u1]
  dsimp only
  rw [show setFixed ⟨0, 0, 1, 0⟩ = 0 by decide, M.bind_ok (M.get_apply _), size_abs, hl,
    show toSz 0 = 0 by decide, if_neg (by omega),
    show wrap32 (((2147483648 : Nat) : Int) - 0) = -2147483648 by decide +kernel]
  have u2 : (setLimit ⟨0, 0, 1, 0⟩ (-2147483648) : M ABlob Int) bs = (.ok (-2147483648), bs) := rfl
  rw [M.bind_ok u2]
  have u3 : (setModLoop 1 [(0, -1)] (.fin 0) (.fin 0) : M ABlob SetMods) bs
      = (.ok ⟨[.fin 1], .fin 0, FV.add f64 (.fin 0) (.fin 1)⟩, bs) := rfl
  rw [M.bind_ok u3, show FV.add f64 (.fin 0) (.fin 1) = .fin 1 by decide +kernel]
  dsimp only
  rw [show FV.beq (.fin 1) (.fin 0) = false by decide +kernel,
    show FV.lt (.fin 0) (FV.ofInt f64 (-2147483648)) = false by decide +kernel]
  simp only [Bool.false_eq_true, if_false]
  have u4 : (M.lift (.ok (-2147483648)) : M ABlob Int) bs = (.ok (-2147483648), bs) := rfl
  have u5 : (M.lift (ckInt (-2147483648 - -2147483648)) : M ABlob Int) bs = (.ok 0, bs) := by
    rw [ckInt_ok (by norm_num) (by norm_num)]; rfl
  rw [M.bind_ok u4, M.bind_ok u5, if_neg (Nat.lt_irrefl 0), if_pos (Nat.zero_lt_one),
    show FV.div f64 (FV.ofInt f64 0) (.fin 1) = .fin 0 by decide +kernel]
  unfold setChopLoop
  rw [if_pos (by decide), show FV.add f64 (FV.mul f64 (.fin 1) (.fin 0)) (.fin 0) = .fin 0 by decide +kernel]
  have u6 : (M.lift (FV.round (.fin 0)).toCInt : M ABlob Int) bs = (.ok 0, bs) := by
    rw [show (FV.round (.fin 0)).toCInt = .ok 0 by decide +kernel]; rfl
  have u7 : (M.lift (ckInt (0 + 0)) : M ABlob Int) bs = (.ok 0, bs) := by
    rw [ckInt_ok (by norm_num) (by norm_num)]; rfl
  dsimp only
  rw [M.bind_ok u6, M.bind_ok u7, show toSz 0 = 0 by decide]
  rfl

/-- **C25 is violated**: two stamps of up to `INT_MAX` bytes make the galley overflow an `int` before it
looks at the (empty) blob. -/
theorem C25_violated {b : Blob} (hr : Reachable b) (hh : Holds b []) :
    setMinSize [(0, 2147483647), (0, 2147483647)] = .ok 4 ∧
    SetUndefined [(0, 2147483647), (0, 2147483647)] b := by
  refine ⟨by decide, SetUndefined.intro hr.valid hh (r := .intOverflow) (left := []) ?_⟩
  decide +kernel

end BS
