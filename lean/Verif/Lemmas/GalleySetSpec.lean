import Verif.Lemmas.GalleySetMain

/-!
# Lemmas about the set galley: the specification vocabulary
-/

namespace BS
open BlobLike

/-! ## From remaining bytes to blobs -/

theorem SetReturns.intro {ss : List SizePair} {b : Blob} {bs : Bytes} (hb : b.Valid) (hh : Holds b bs)
    {parts : List ABlob} {left : ABlob} (h : setSplit ss (bs : ABlob) = (.ok parts, left)) :
    SetReturns ss b parts left := by
  rw [holds_iff hb] at hh
  subst hh
  obtain ⟨h1, h2⟩ := sim_setSplit ss b b.abs ⟨hb, rfl⟩
  rw [h] at h1 h2
  rcases he : setSplit ss b with ⟨o, b'⟩
  rw [he] at h1 h2
  cases h1 with
  | @ok ps _ h1 => exact ⟨ps, b', he, forall₂_holds h1, (holds_iff h2.1 _).2 h2.2⟩

theorem SetThrows.intro {ss : List SizePair} {b : Blob} {bs : Bytes} (hb : b.Valid) (hh : Holds b bs)
    {left : ABlob} (h : setSplit ss (bs : ABlob) = (.outOfData, left)) : SetThrows ss b left := by
  rw [holds_iff hb] at hh
  subst hh
  obtain ⟨h1, h2⟩ := sim_setSplit ss b b.abs ⟨hb, rfl⟩
  rw [h] at h1 h2
  rcases he : setSplit ss b with ⟨o, b'⟩
  rw [he] at h1 h2
  cases h1
  exact ⟨b', he, (holds_iff h2.1 _).2 h2.2⟩

theorem SetUndefined.intro {ss : List SizePair} {b : Blob} {bs : Bytes} (hb : b.Valid) (hh : Holds b bs)
    {r : UB} {left : ABlob} (h : setSplit ss (bs : ABlob) = (.ub r, left)) : SetUndefined ss b := by
  rw [holds_iff hb] at hh
  subst hh
  obtain ⟨h1, _⟩ := sim_setSplit ss b b.abs ⟨hb, rfl⟩
  rw [h] at h1
  rcases he : setSplit ss b with ⟨o, b'⟩
  rw [he] at h1
  cases h1
  exact ⟨r, b', he⟩

/-! ## Specification and lemmas -/

theorem mem_le_minSum {ss : List SizePair} (h : ∀ s ∈ ss, 0 ≤ s.1) {s : SizePair} (hs : s ∈ ss) :
    s.1 ≤ minSum ss := by
  unfold minSum
  refine List.single_le_sum (l := ss.map Prod.fst) ?_ _ (List.mem_map.2 ⟨s, hs, rfl⟩)
  intro y hy
  obtain ⟨t, ht, rfl⟩ := List.mem_map.1 hy
  exact h t ht

theorem SetSizes.ok {ss : List SizePair} (h : SetSizes ss) : ∀ s ∈ ss, s.Ok := by
  intro s hs
  obtain ⟨h1, h2⟩ := h.sizes s hs
  have h3 := mem_le_minSum (fun t ht => (h.sizes t ht).1) hs
  have h4 := h.total
  unfold minSum at h3
  exact ⟨h1, by omega, h2⟩

theorem slack_sum {ss : List SizePair} (h : ∀ s ∈ ss, s.Ok) : (ss.map slack).sum = dSum ss := by
  induction ss with
  | nil => rfl
  | cons s ss ih =>
    rw [List.map_cons, List.sum_cons, ih (fun x hx => h x (by simp [hx]))]
    rw [show dSum (s :: ss) = (if s.var then s.2 - s.1 else 0) + dSum ss from rfl]
    unfold slack
    rcases (h s (by simp)).cases with ⟨_, e2, e3, e4⟩ | ⟨_, e2, e3, e4⟩ | ⟨_, e2, e3, e4, _⟩
    · rw [e3, e4]; simp
    · rw [e3, if_pos e4]; simp
    · rw [e3]
      have := (s.unb_iff).not.1 (by simp [e2])
      rw [if_neg this]; simp

theorem isVariated_iff (s : SizePair) : IsVariated s ↔ s.var = true := (s.var_iff).symm

theorem countP_unb (ss : List SizePair) : ss.countP (fun s => s.2 = -1) = ss.countP SizePair.unb := by
  apply List.countP_congr
  intro s _
  simp [SizePair.unb]

theorem drop_divides {ss : List SizePair} (bs : Bytes) :
    (if (∃ s ∈ ss, IsVariated s) ∧ (∃ s ∈ ss, s.2 = -1) then bs.drop 2 else bs) = bs.drop (2 * divides ss) := by
  unfold divides
  have h1 : 0 < ss.countP SizePair.var ↔ ∃ s ∈ ss, IsVariated s := by
    rw [List.countP_pos_iff]; simp only [isVariated_iff]
  have h2 : 0 < ss.countP SizePair.unb ↔ ∃ s ∈ ss, s.2 = -1 := by
    rw [List.countP_pos_iff]; simp only [SizePair.unb_iff]
  by_cases h : (∃ s ∈ ss, IsVariated s) ∧ (∃ s ∈ ss, s.2 = -1)
  · rw [if_pos h, if_pos ⟨h1.2 h.1, h2.2 h.2⟩]
  · rw [if_neg h, if_neg (fun h' => h ⟨h1.1 h'.1, h2.1 h'.2⟩)]; rfl

/-- The row of a stamp with its oracle. -/
def mkRow (s : SizePair) (o : Option Nat) : Row := (s, o.getD (if s.unb then 65535 else 0))

theorem rowsOf_eq {several : Bool} {ss : List SizePair} (h : ∀ s ∈ ss, s.Ok) (a : Bytes)
    (hl : 2 * ss.countP (SizePair.takesOracle several) ≤ a.length) :
    rowsOf several ss a = List.zipWith mkRow ss (stampOracles several ss a) := by
  induction ss generalizing a with
  | nil => rfl
  | cons s ss ih =>
    have ih := ih (fun x hx => h x (by simp [hx]))
    by_cases ht : s.takesOracle several = true
    · have hc : ¬ (s.1 = s.2 ∨ (s.2 = -1 ∧ several = false)) := by
        intro hc
        unfold SizePair.takesOracle at ht
        rcases (h s (by simp)).cases with ⟨_, e2, e3, e4⟩ | ⟨_, e2, e3, e4⟩ | ⟨_, e2, e3, e4, _⟩
        · rw [e2, e3] at ht; simp at ht
        · rw [e2, e3] at ht
          obtain ⟨h0, _, _⟩ := h s (by simp)
          rcases hc with hc | ⟨_, hc⟩
          · omega
          · rw [hc] at ht; simp at ht
        · have := (s.unb_iff).not.1 (by simp [e2])
          rcases hc with hc | hc
          · omega
          · exact this hc.1
      rw [List.countP_cons_of_pos ht] at hl
      rcases a with _ | ⟨x, _ | ⟨y, rest⟩⟩
      · simp at hl
      · simp at hl; omega
      · rw [rowsOf_take ht]
        have h1 : stampOracles several (s :: ss) (x :: y :: rest)
            = some (x.toNat + 256 * y.toNat) :: stampOracles several ss rest := by
          conv_lhs => unfold stampOracles
          rw [if_neg hc]
        rw [h1, List.zipWith_cons_cons]
        simp only [List.length_cons] at hl
        have := ih rest (by omega)
        simp only [List.drop_succ_cons, List.drop_zero]
        rw [this]
        have hle : leNat ((x :: y :: rest : Bytes).take 2) = x.toNat + 256 * y.toNat := by
          simp [leNat]
        rw [hle]
        rfl
    · have ht' : s.takesOracle several = false := by simpa using ht
      have hc : s.1 = s.2 ∨ (s.2 = -1 ∧ several = false) := by
        unfold SizePair.takesOracle at ht
        rcases (h s (by simp)).cases with ⟨_, e2, e3, e4⟩ | ⟨_, e2, e3, e4⟩ | ⟨_, e2, e3, e4, _⟩
        · exact .inl e4
        · rw [e2, e3] at ht; exact .inr ⟨e4, by simpa using ht⟩
        · rw [e3] at ht; simp at ht
      rw [List.countP_cons_of_neg (by simp [ht'])] at hl
      rw [rowsOf_skip ht']
      have h1 : stampOracles several (s :: ss) a = none :: stampOracles several ss a := by
        conv_lhs => unfold stampOracles
        rw [if_pos hc]
      rw [h1, List.zipWith_cons_cons, ih a hl]
      rfl

theorem stampOracles_length (several : Bool) (ss : List SizePair) (a : Bytes) :
    (stampOracles several ss a).length = ss.length := by
  induction ss generalizing a with
  | nil => rfl
  | cons s ss ih =>
    unfold stampOracles
    split
    · simp [ih]
    · split <;> simp [ih]

theorem setOracles_length (ss : List SizePair) (a : Bytes) : (setOracles ss a).length = ss.length :=
  stampOracles_length _ _ _

/-- Only stamps of fixed size and lone unbounded ones have no oracle. -/
theorem setRows_eq {ss : List SizePair} (h : ∀ s ∈ ss, s.Ok) (a : Bytes) (hl : 2 * oracleCount ss ≤ a.length) :
    setRows ss a = List.zipWith mkRow ss (setOracles ss a) := by
  unfold setRows setOracles
  rw [countP_unb, drop_divides, rowsOf_eq h]
  unfold oracleCount at hl
  rw [List.length_drop]; omega

theorem mem_zipWith_mkRow {ss : List SizePair} {os : List (Option Nat)} {x : Row} :
    x ∈ List.zipWith mkRow ss os ↔ ∃ s o, (s, o) ∈ ss.zip os ∧ x = mkRow s o := by
  induction ss generalizing os with
  | nil => simp
  | cons s ss ih =>
    rcases os with _ | ⟨o, os⟩
    · simp
    · simp only [List.zipWith_cons_cons, List.mem_cons, List.zip_cons_cons, ih]
      constructor
      · rintro (rfl | ⟨s', o', h1, h2⟩)
        · exact ⟨s, o, .inl rfl, rfl⟩
        · exact ⟨s', o', .inr h1, h2⟩
      · rintro ⟨s', o', h1 | h1, h2⟩
        · cases h1; exact .inl h2
        · exact .inr ⟨s', o', h1, h2⟩

theorem setMinSize_eq {ss : List SizePair} (h : SetSizes ss) : setMinSize ss = .ok (setNeed ss) := by
  have key : ∀ (l : List SizePair) (a : Int), (∀ s ∈ l, 0 ≤ s.1) → 0 ≤ a → a + minSum l ≤ INT_MAX →
      l.foldlM (fun (a : Int) (s : SizePair) => ckInt (a + s.1)) a = (.ok (a + minSum l) : Out Int) := by
    intro l
    induction l with
    | nil => intro a _ _ _; simp [minSum]; rfl
    | cons s l ih =>
      intro a hl h0 h1
      have hm : minSum (s :: l) = s.1 + minSum l := by simp [minSum]
      have hs := hl s (by simp)
      have hl' : ∀ s ∈ l, 0 ≤ s.1 := fun x hx => hl x (by simp [hx])
      have m0 : 0 ≤ minSum l := by
        unfold minSum
        apply List.sum_nonneg
        intro x hx
        obtain ⟨t, ht, rfl⟩ := List.mem_map.1 hx
        exact hl' t ht
      rw [hm] at h1 ⊢
      rw [List.foldlM_cons, ckInt_ok (by omega) (by omega), Out.bind_ok', ih _ hl' (by omega) (by omega)]
      congr 1; ring
  have ht := h.total
  have m0 := minSum_nonneg h.ok
  have hv : ss.countP SizePair.var + ss.countP SizePair.unb ≤ ss.length := by
    have h1 := countP_takes h.ok true
    rw [if_pos rfl] at h1
    rw [← h1]; exact List.countP_le_length
  unfold setMinSize
  rw [key ss 0 (fun s hs => (h.sizes s hs).1) (le_refl _) (by unfold minSum; omega), Out.bind_ok']
  unfold setNeed
  rw [zero_add]
  unfold minSum at m0 ⊢
  generalize (ss.map Prod.fst).sum = m at ht m0
  generalize ss.countP SizePair.var = v at hv
  generalize ss.countP SizePair.unb = u at hv
  dsimp only
  by_cases h1 : 1 < u <;> by_cases h2 : 0 < v ∧ 0 < u
  · rw [if_pos h1, if_pos h2, if_pos h1, if_pos h2, wrap32_of_fits (i := m + 2) (by omega) (by omega),
      wrap32_of_fits (i := m + 2 + 2 * v) (by omega) (by omega), wrap32_of_fits (by omega) (by omega)]
    show Out.ok _ = _
    congr 1; ring
  · rw [if_pos h1, if_neg h2, if_pos h1, if_neg h2, wrap32_of_fits (i := m + 2 * v) (by omega) (by omega),
      wrap32_of_fits (by omega) (by omega)]
    show Out.ok _ = _
    congr 1; ring
  · rw [if_neg h1, if_pos h2, if_neg h1, if_pos h2, wrap32_of_fits (i := m + 2) (by omega) (by omega),
      wrap32_of_fits (by omega) (by omega)]
    show Out.ok _ = _
    congr 1; ring
  · rw [if_neg h1, if_neg h2, if_neg h1, if_neg h2, wrap32_of_fits (by omega) (by omega)]
    show Out.ok _ = _
    congr 1; ring

theorem var_eq {s : SizePair} : SizePair.var s = decide (IsVariated s) := by
  unfold SizePair.var SizePair.fixed SizePair.unb IsVariated
  by_cases h1 : s.1 = s.2 <;> by_cases h2 : s.2 = -1 <;> simp [h1, h2]

theorem unb_eq {s : SizePair} : SizePair.unb s = decide (s.2 = -1) := by
  unfold SizePair.unb
  by_cases h2 : s.2 = -1 <;> simp [h2]

theorem setNeeds_eq (ss : List SizePair) : setNeeds ss = setNeed ss := by
  unfold setNeeds setNeed minSum
  have e1 : ss.countP SizePair.var = (ss.filter fun s => decide (IsVariated s)).length := by
    rw [List.countP_eq_length_filter]
    congr 2
    funext s; exact var_eq
  have e2 : ss.countP SizePair.unb = (ss.filter fun s => decide (s.2 = -1)).length := by
    rw [List.countP_eq_length_filter]
    congr 2
  have e3 : (∃ s ∈ ss, IsVariated s) ↔ 0 < (ss.filter fun s => decide (IsVariated s)).length := by
    rw [List.length_pos_iff_exists_mem]
    simp [List.mem_filter]
  have e4 : (∃ s ∈ ss, s.2 = -1) ↔ 0 < (ss.filter fun s => decide (s.2 = -1)).length := by
    rw [List.length_pos_iff_exists_mem]
    simp [List.mem_filter]
  rw [e1, e2]
  simp only [e3, e4]
  congr 1
  congr 1
  by_cases h : 2 ≤ (ss.filter fun s => decide (s.2 = -1)).length
  · rw [if_pos h, if_pos (by omega)]; push_cast; rfl
  · rw [if_neg h, if_neg (by omega)]; rfl

theorem setMaxSize_takes {ss : List SizePair} (h : ∀ s ∈ ss, 0 ≤ s.1 ∧ (s.2 = -1 ∨ (s.1 ≤ s.2 ∧ s.2 ≤ INT_MAX)))
    (r : Int) (h0 : 0 ≤ r) (h1 : r + (ss.map fun s => if s.2 = -1 then 0 else s.2).sum + 2 * ss.length ≤ INT_MAX) :
    setMaxSize ss r = .ok (if ∃ s ∈ ss, s.2 = -1 then -1
      else r + (ss.map Prod.snd).sum + 2 * (ss.filter fun s => decide (IsVariated s)).length) := by
  induction ss generalizing r with
  | nil => simp [setMaxSize]
  | cons s ss ih =>
    have h' : ∀ s ∈ ss, 0 ≤ s.1 ∧ (s.2 = -1 ∨ (s.1 ≤ s.2 ∧ s.2 ≤ INT_MAX)) := fun x hx => h x (by simp [hx])
    have hp : 0 ≤ (ss.map fun s => if s.2 = -1 then 0 else s.2).sum := by
      apply List.sum_nonneg
      intro x hx
      obtain ⟨t, ht, rfl⟩ := List.mem_map.1 hx
      have := h' t ht
      split <;> omega
    have hs := h s (by simp)
    simp only [List.map_cons, List.sum_cons, List.length_cons] at h1
    push_cast at h1
    unfold setMaxSize
    by_cases hu : s.2 = -1
    · rw [if_pos hu] at h1
      rw [ckInt_ok (by omega) (by omega)]
      simp only [Out.bind_ok']
      rw [if_pos (c := SizePair.unb s = true) (by rw [unb_eq]; simp [hu]), if_pos ⟨s, by simp, hu⟩]
    · rw [if_neg hu] at h1
      rw [ckInt_ok (by omega) (by omega)]
      simp only [Out.bind_ok']
      rw [if_neg (c := SizePair.unb s = true) (by rw [unb_eq]; simp [hu])]
      have e : (∃ t ∈ s :: ss, t.2 = -1) ↔ ∃ t ∈ ss, t.2 = -1 := by simp [hu]
      simp only [e]
      by_cases hv : IsVariated s
      · rw [if_pos (by rw [var_eq]; simpa using hv), wrap32_of_fits (by omega) (by omega), ih h' _ (by omega) (by omega)]
        congr 2
        rw [List.filter_cons_of_pos (by simpa using hv)]
        simp only [List.map_cons, List.sum_cons, List.length_cons]
        push_cast
        ring
      · rw [if_neg (by rw [var_eq]; simpa using hv), ih h' _ (by omega) (by omega)]
        congr 2
        rw [List.filter_cons_of_neg (by simpa using hv)]
        simp only [List.map_cons, List.sum_cons]
        ring

/-- For sizes whose sums are `int`s, `GalleySetBase::minSize` gives `setNeeds`. -/
theorem setMinSize_needs {ss : List SizePair} (h : SetSizes ss) : setMinSize ss = .ok (setNeeds ss) := by
  rw [setMinSize_eq h, setNeeds_eq]

theorem vecMinSize_needs {mn mx : Int} (h0 : -W31 ≤ mn) (h1 : mn + 4 ≤ INT_MAX) :
    vecMinSize mn mx = vecNeeds mn mx := by
  unfold vecMinSize vecNeeds
  rw [wrap32_of_fits (by omega) (by omega), wrap32_of_fits (by omega) (by omega)]
  split
  · omega
  · split <;> rfl

theorem setNeed_le {ss : List SizePair} (h : SetSizes ss) : 0 ≤ setNeed ss ∧ setNeed ss ≤ INT_MAX := by
  have ht := h.total
  have m0 := minSum_nonneg h.ok
  have hn := setNeed_eq h.ok
  have hv := countP_takes h.ok (decide (1 < ss.countP SizePair.unb))
  have h1 := countP_takes h.ok true
  rw [if_pos rfl] at h1
  have h2 : ss.countP (SizePair.takesOracle true) ≤ ss.length := List.countP_le_length
  have h3 : oracleCount ss = divides ss +
    ss.countP (SizePair.takesOracle (decide (1 < ss.countP SizePair.unb))) := rfl
  have h4 : divides ss ≤ 1 := by unfold divides; split <;> omega
  have h5 : (if decide (1 < ss.countP SizePair.unb) = true then ss.countP SizePair.unb else 0)
      ≤ ss.countP SizePair.unb := by split <;> omega
  unfold minSum at m0 hn
  omega

theorem stampOracles_none {several : Bool} {ss : List SizePair} (h : ∀ s ∈ ss, s.Ok) (a : Bytes)
    (hl : 2 * ss.countP (SizePair.takesOracle several) ≤ a.length) {i : Nat} {s : SizePair}
    (hs : ss[i]? = some s) (ho : (stampOracles several ss a)[i]? = some none) (hf : s.fixed = false) :
    s.unb = true := by
  induction ss generalizing a i with
  | nil => simp at hs
  | cons t ss ih =>
    have ih := @ih (fun x hx => h x (by simp [hx]))
    by_cases ht : t.1 = t.2 ∨ (t.2 = -1 ∧ several = false)
    · have h1 : stampOracles several (t :: ss) a = none :: stampOracles several ss a := by
        conv_lhs => unfold stampOracles
        rw [if_pos ht]
      rw [h1] at ho
      rcases i with _ | i
      · simp only [List.getElem?_cons_zero, Option.some.injEq] at hs
        subst hs
        rcases ht with ht | ht
        · rw [(t.fixed_iff).2 ht] at hf; cases hf
        · exact t.unb_iff.2 ht.1
      · rw [List.getElem?_cons_succ] at hs ho
        refine ih a (le_trans ?_ hl) hs ho
        rw [List.countP_cons]; omega
    · have htk : t.takesOracle several = true := by
        unfold SizePair.takesOracle
        rcases (h t (by simp)).cases with ⟨_, _, _, e4⟩ | ⟨_, e2, e3, e4⟩ | ⟨_, e2, e3, e4, _⟩
        · exact absurd (.inl e4) ht
        · rw [e2, e3]
          rcases Bool.eq_false_or_eq_true several with h | h
          · rw [h]; rfl
          · exact absurd (.inr ⟨e4, h⟩) ht
        · rw [e3]; rfl
      rw [List.countP_cons_of_pos htk] at hl
      rcases a with _ | ⟨x, _ | ⟨y, rest⟩⟩
      · simp at hl
      · simp at hl; omega
      · have h1 : stampOracles several (t :: ss) (x :: y :: rest)
            = some (x.toNat + 256 * y.toNat) :: stampOracles several ss rest := by
          conv_lhs => unfold stampOracles
          rw [if_neg ht]
        rw [h1] at ho
        simp only [List.length_cons] at hl
        rcases i with _ | i
        · simp at ho
        · rw [List.getElem?_cons_succ] at hs ho
          exact ih rest (by omega) hs ho

/-- Rows of the galley that used them. -/
theorem row_get {ss : List SizePair} (hok : ∀ s ∈ ss, s.Ok) {a : Bytes} {i : Nat} {s : SizePair} {x : Row}
    (hl : 2 * oracleCount ss ≤ a.length)
    (hr : setRows ss a = List.zipWith mkRow ss (setOracles ss a))
    (hs : ss[i]? = some s) (hx : (finRows (setRows ss a))[i]? = some x) :
    x.1 = s ∧ (s.fixed = false →
      ((setOracles ss a)[i]? ≠ some (some 0) ∨ (s.2 = -1 ∧ UnbAllZero ss a)) → 1 ≤ x.2) := by
  have hi : i < ss.length := (List.getElem?_eq_some_iff.1 hs).1
  obtain ⟨o, ho⟩ : ∃ o, (setOracles ss a)[i]? = some o :=
    ⟨_, List.getElem?_eq_getElem (by rw [setOracles_length]; exact hi)⟩
  have hrow : (setRows ss a)[i]? = some (mkRow s o) := by
    rw [hr, List.getElem?_zipWith, hs, ho]
  rw [ho]
  -- what the row is
  have hcase : (x = mkRow s o ∧ sumW (unbW (setRows ss a)) 0 ≠ 0) ∨ (x = fixRow (mkRow s o) ∧ sumW (unbW (setRows ss a)) 0 = 0) := by
    unfold finRows at hx
    split at hx
    · next h => rw [List.getElem?_map, hrow] at hx; cases hx; exact .inr ⟨rfl, h⟩
    · next h => rw [hrow] at hx; cases hx; exact .inl ⟨rfl, h⟩
  have hb : 1 ≤ (mkRow s o).2 → 1 ≤ (fixRow (mkRow s o)).2 := by
    intro h; unfold fixRow; dsimp only; split <;> omega
  refine ⟨by rcases hcase with ⟨rfl, _⟩ | ⟨rfl, _⟩ <;> rfl, fun hf hc => ?_⟩
  rcases hc with hc | ⟨hu, hz⟩
  · have h1 : 1 ≤ (mkRow s o).2 := by
      unfold mkRow
      rcases o with _ | o
      · unfold setOracles at ho
        rw [countP_unb, drop_divides] at ho
        have hu := stampOracles_none hok _ (by
          unfold oracleCount at hl
          rw [List.length_drop]; omega) hs ho hf
        simp [hu]
      · simp only [Option.getD_some]
        rcases Nat.eq_zero_or_pos o with h | h
        · rw [h] at hc; exact absurd rfl hc
        · exact h
    rcases hcase with ⟨rfl, _⟩ | ⟨rfl, _⟩
    · exact h1
    · exact hb h1
  · have hu' : s.unb = true := s.unb_iff.2 hu
    rcases hcase with ⟨rfl, h⟩ | ⟨rfl, _⟩
    · exfalso
      apply h
      apply sumW_unbW_of_zero
      intro y hy hyu
      rw [hr] at hy
      obtain ⟨s', o', h1, rfl⟩ := mem_zipWith_mkRow.1 hy
      have := hz s' o' h1 (s'.unb_iff.1 hyu)
      subst this
      rfl
    · unfold fixRow mkRow
      dsimp only
      rw [if_pos hu']; omega

/-- What is known of the pieces of a set. -/
structure SetFacts (ss : List SizePair) (bs : Bytes) (parts : List Bytes) (left : Bytes) : Prop where
  length : parts.length = ss.length
  cat : bs.take (2 * oracleCount ss) ++ parts.flatten ++ left = bs
  sizes : ∀ (i : Nat) (s : SizePair) (p : Bytes), ss[i]? = some s → parts[i]? = some p →
    s.1 - 1 ≤ p.length ∧
    (((setOracles ss bs)[i]? ≠ some (some 0) ∨ (s.2 = -1 ∧ UnbAllZero ss bs)) → s.1 ≤ p.length) ∧
    (IsVariated s → p.length ≤ s.2 + 1) ∧ (s.1 = s.2 → p.length = s.1)
  used : ∃ fv : Nat, (fv : Int) ≤ dSum ss ∧
    (left.length : Int) = if 0 < ss.countP SizePair.unb then 0 else bs.length - setNeed ss - fv

/-- Some variated stamp has a modifier. -/
theorem set_hv {ss : List SizePair} {bs : Bytes} (hz : SetSizes ss) (ho : SomeVarPos ss bs)
    (hl : 2 * oracleCount ss ≤ bs.length) :
    0 < ss.countP SizePair.var → ∃ x ∈ finRows (setRows ss bs), x.1.var = true ∧ 1 ≤ x.2 := by
  have hr := setRows_eq hz.ok bs hl
  intro h
  obtain ⟨s, hs, hsv⟩ := List.countP_pos_iff.1 h
  obtain ⟨t, o, h1, h2, h3⟩ := ho ⟨s, hs, (isVariated_iff s).2 hsv⟩
  have hx : mkRow t (some o) ∈ setRows ss bs := by rw [hr]; exact mem_zipWith_mkRow.2 ⟨_, _, h1, rfl⟩
  have htv := (isVariated_iff t).1 h2
  have hfix : fixRow (mkRow t (some o)) = mkRow t (some o) := by
    unfold fixRow mkRow
    have : t.unb = false := by
      rcases Bool.eq_false_or_eq_true t.unb with e | e
      · exact absurd (t.unb_iff.1 e) h2.2
      · exact e
    simp [this]
  refine ⟨mkRow t (some o), ?_, htv, ?_⟩
  · unfold finRows
    split
    · rw [← hfix]; exact List.mem_map.2 ⟨_, hx, rfl⟩
    · exact hx
  · show 1 ≤ o
    omega

/-- The set galley returns, or a stamp that accepts no data reads the oracle 0 and it throws. -/
theorem set_core' {ss : List SizePair} {bs : Bytes} (hz : SetSizes ss) (ho : SomeVarPos ss bs)
    (hmin : setNeed ss ≤ bs.length) (hS : bs.length ≤ 2147483646) (hn : ss.length * (bs.length + 1) ≤ 2 ^ 49) :
    (∃ (parts : List Bytes) (left : Bytes), setSplit ss (bs : ABlob) = (.ok parts, left) ∧ SetFacts ss bs parts left) ∨
    (SomeBare ss bs ∧ ∃ left : Bytes, setSplit ss (bs : ABlob) = (.outOfData, left)) := by
  have hok := hz.ok
  have hne := setNeed_eq hok
  have m0 := minSum_nonneg hok
  have hl : 2 * oracleCount ss ≤ bs.length := by omega
  have hr := setRows_eq hok bs hl
  have hd : dSum ss ≤ INT_MAX := by rw [← slack_sum hok]; exact hz.widths
  have hfst : (finRows (setRows ss bs)).map Prod.fst = ss := by
    rw [finRows_fst]; exact rowsOf_fst _ _ _
  have hv := set_hv hz ho hl
  obtain ⟨els, fv, hrun, hthrow, hpo, hfd, hfn, hsum⟩ := setSplit_abs hok hd bs hmin hS hn hv
  have hlen : (finRows (setRows ss bs)).length = ss.length := by rw [← hfst, List.length_map, hfst]
  by_cases hneg : ∃ e ∈ els, e < 0
  · refine .inr ⟨?_, hthrow hneg⟩
    obtain ⟨e, he, hlt⟩ := hneg
    obtain ⟨i, hie, rfl⟩ := List.mem_iff_getElem.1 he
    have hix : i < (finRows (setRows ss bs)).length := by rw [hpo.length_eq]; exact hie
    have hi' : i < ss.length := by rw [← hlen]; exact hix
    have hs := List.getElem?_eq_getElem hi'
    obtain ⟨e1, e2⟩ := row_get hok hl hr hs (List.getElem?_eq_getElem hix)
    have hpx := hpo.get hix hie
    simp only [List.get_eq_getElem] at hpx
    generalize (finRows (setRows ss bs))[i] = x at e1 e2 hpx
    obtain ⟨p1, _, p3, p4, p5⟩ := hpx
    rw [e1] at p1 p3 p4 p5
    have h0 := (hok _ (List.getElem_mem hi')).1
    have hf : ss[i].fixed = false := by
      rcases Bool.eq_false_or_eq_true ss[i].fixed with hf | hf
      · have := p5 hf; omega
      · exact hf
    have hno : ¬ ((setOracles ss bs)[i]? ≠ some (some 0) ∨ (ss[i].2 = -1 ∧ UnbAllZero ss bs)) := by
      intro hc
      have := p3 (e2 hf hc)
      omega
    rw [not_or, not_not] at hno
    refine ⟨ss[i], ?_, by omega, hno.2⟩
    refine List.mem_iff_getElem?.2 ⟨i, ?_⟩
    rw [List.getElem?_zip_eq_some]
    exact ⟨hs, hno.1⟩
  left
  have hnn : ∀ e ∈ els, 0 ≤ e := fun e he => by
    by_contra hc
    exact hneg ⟨e, he, by omega⟩
  replace hrun := hrun hnn
  clear hneg hthrow
  have hsn : ((els.map Int.toNat).sum : Int) = els.sum := by
    clear hrun hpo hsum
    induction els with
    | nil => rfl
    | cons e els ih =>
      have h1 := hnn e (by simp)
      have h2 := ih (fun x hx => hnn x (by simp [hx]))
      simp only [List.map_cons, List.sum_cons]
      push_cast
      rw [h2]; omega
  have hle : (els.map Int.toNat).sum ≤ (bs.drop (2 * oracleCount ss)).length := by
    rw [List.length_drop]
    have : els.sum ≤ (bs.length : Int) - 2 * oracleCount ss := by
      rw [hsum]; split <;> omega
    omega
  have hcl := cutSizes_length (els.map Int.toNat) (bs.drop (2 * oracleCount ss)) hle
  have hcf := cutSizes_flatten (els.map Int.toNat) (bs.drop (2 * oracleCount ss))
  refine ⟨_, _, hrun, ?_, ?_, ?_, fv, hfd, ?_⟩
  · have := congrArg List.length hcl
    rw [List.length_map, List.length_map, ← hpo.length_eq, hlen] at this
    exact this
  · rw [List.append_assoc, ← List.drop_drop, hcf, List.take_append_drop]
  · intro i s p hs hp
    have hi : i < ss.length := (List.getElem?_eq_some_iff.1 hs).1
    have hix : i < (finRows (setRows ss bs)).length := by rw [hlen]; exact hi
    have hie : i < els.length := by rw [← hpo.length_eq]; exact hix
    have hx := List.getElem?_eq_getElem hix
    obtain ⟨e1, e2⟩ := row_get hok hl hr hs hx
    have hpx := hpo.get hix hie
    simp only [List.get_eq_getElem] at hpx
    generalize (finRows (setRows ss bs))[i] = x at e1 e2 hpx
    have hpl : p.length = els[i].toNat := by
      have h1 : ((cutSizes (els.map Int.toNat) (bs.drop (2 * oracleCount ss))).map List.length)[i]?
          = some p.length := by rw [List.getElem?_map, hp]; rfl
      rw [hcl, List.getElem?_map, List.getElem?_eq_getElem hie] at h1
      simpa using h1.symm
    have he0 := hnn els[i] (List.getElem_mem hie)
    generalize els[i] = e at hpx hpl he0
    obtain ⟨p1, _, p3, p4, p5⟩ := hpx
    rw [e1] at p1 p3 p4 p5
    refine ⟨by omega, fun hc => ?_, fun hv => ?_, fun hf => ?_⟩
    · rcases Bool.eq_false_or_eq_true s.fixed with hf | hf
      · have := p5 hf; omega
      · have := p3 (e2 hf hc); omega
    · have := p4 ((isVariated_iff s).1 hv); omega
    · have := p5 ((s.fixed_iff).2 hf); omega
  · rw [List.length_drop]
    have h2 : (2 * oracleCount ss + (els.map Int.toNat).sum : Nat) ≤ bs.length := by
      rw [List.length_drop] at hle; omega
    have h3 : ((bs.length - (2 * oracleCount ss + (els.map Int.toNat).sum) : Nat) : Int)
        = bs.length - 2 * oracleCount ss - els.sum := by omega
    rw [h3, hsum]
    split <;> omega

/-- The set galley returns. -/
theorem set_core {ss : List SizePair} {bs : Bytes} (hz : SetSizes ss) (ho : SetOraclesOk ss bs)
    (hmin : setNeed ss ≤ bs.length) (hS : bs.length ≤ 2147483646) (hn : ss.length * (bs.length + 1) ≤ 2 ^ 49) :
    ∃ (parts : List Bytes) (left : Bytes), setSplit ss (bs : ABlob) = (.ok parts, left) ∧ SetFacts ss bs parts left := by
  rcases set_core' hz ho.some_pos hmin hS hn with h | ⟨h, _⟩
  · exact h
  · exact absurd h ho.spare

end BS
