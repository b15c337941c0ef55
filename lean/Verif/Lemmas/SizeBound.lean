import Verif.Lemmas.Least

/-!
# Grammars whose size queries stay in range
-/

namespace BS
open scoped BigOperators

/-- The sizes of the leaves are at most half of `INT_MAX`, and `U` bounds every minimum, also while
pickers are under way. -/
structure SizeBound (G : Graph) (U : Id → Int) : Prop where
  small : ∃ B : Nat, B ≤ 536870912 ∧ ∀ i : Nat, B ≤ i → G i = none
  leaf : ∀ i nd, G i = some nd → nd.plainKids = [] → (∀ pool, nd ≠ .picker pool) →
    ∃ v x, HasMin G Flags.init i v ∧ HasMax G Flags.init i x ∧ 0 ≤ v ∧ v ≤ INT_MAX / 2 ∧ v ≤ U i ∧
      -1 ≤ x ∧ x ≤ INT_MAX / 2
  max : ∀ i, G i ≠ none → U i ≤ INT_MAX
  vec : ∀ i c join, G i = some (.vec c join) → U c + 4 ≤ U i
  unary : ∀ i c op, G i = some (.unary op c) → U c ≤ U i
  seq : ∀ i cs join unb, G i = some (.seq cs join unb) → (cs.map U).sum ≤ U i
  pick : ∀ i pool, G i = some (.picker pool) → INT_MAX / 2 + 1 ≤ U i

theorem freeCount_setIn {B : Nat} {fl : Flags} {i : Id} (hi : i < B) (hf : (fl i).inRec = false) :
    freeCount B (fl.setIn i true) + 1 ≤ freeCount B fl := by
  have hsub : ((Finset.range B).filter fun k => ((fl.setIn i true) k).inRec = false) ⊂
      ((Finset.range B).filter fun k => (fl k).inRec = false) := by
    rw [Finset.ssubset_iff_of_subset]
    · refine ⟨i, by simp [hi, hf], ?_⟩
      simp [Flags.setIn]
    · intro k hk
      rw [Finset.mem_filter] at hk ⊢
      refine ⟨hk.1, ?_⟩
      have := hk.2
      unfold Flags.setIn at this
      split at this
      · simp at this
      · exact this
  exact Finset.card_lt_card hsub

theorem freeCount_le (B : Nat) (fl : Flags) : freeCount B fl ≤ B := by
  unfold freeCount
  refine le_trans (Finset.card_filter_le _ _) ?_
  simp

theorem min_seq {G : Graph} {i : Id} {fl : Flags} {cs : List Id} {join : List Bytes → Bytes} {unb : Bool}
    {m : Id → Int} (hG : G i = some (.seq cs join unb)) (h : ∀ c ∈ cs, HasMin G fl c (m c) ∧ 0 ≤ m c)
    (hs : (cs.map m).sum ≤ INT_MAX) : HasMin G fl i (cs.map m).sum := by
  obtain ⟨N, hN⟩ := exists_common cs fun c hc => (h c hc).1
  have h0 : ∀ c ∈ cs, 0 ≤ m c := fun c hc => (h c hc).2
  have e1 : ∀ l : List Id, (∀ c ∈ l, c ∈ cs) → queryAll (sizeQ G N .min) l fl = (.ok (l.map m), fl) := by
    intro l
    induction l with
    | nil => intro _; rfl
    | cons c l ih =>
      intro hl
      unfold queryAll
      rw [M.bind_ok (hN N (le_refl _) c (hl c (by simp))),
        M.bind_ok (ih fun d hd => hl d (List.mem_cons_of_mem _ hd))]
      rfl
  have e2 : ∀ (l : List Id) (a : Int), (∀ c ∈ l, 0 ≤ m c) → 0 ≤ a → a + (l.map m).sum ≤ INT_MAX →
      sumInts (l.map m) a = .ok (a + (l.map m).sum) := by
    intro l
    induction l with
    | nil => intro a _ _ _; simp [sumInts]
    | cons c l ih =>
      intro a hl ha hsum
      rw [List.map_cons, List.sum_cons] at hsum ⊢
      have hc := hl c (by simp)
      have hl' : 0 ≤ (l.map m).sum := by
        apply List.sum_nonneg
        intro x hx
        obtain ⟨d, hd, rfl⟩ := List.mem_map.1 hx
        exact hl d (List.mem_cons_of_mem _ hd)
      unfold sumInts
      rw [ckInt_ok (by omega) (by omega)]
      show sumInts _ _ = _
      rw [ih _ (fun d hd => hl d (List.mem_cons_of_mem _ hd)) (by omega) (by omega)]
      congr 1; omega
  refine SizeRuns.intro (n := N + 1) ?_
  have e : sizeQ G (N + 1) .min i = (do
          let xs ← queryAll (sizeQ G N .min) cs
          M.lift (sumInts xs 0)) := by
    conv_lhs => unfold sizeQ
    rw [hG]
  rw [e, M.bind_ok (e1 cs fun _ h => h)]
  show (sumInts _ _, fl) = _
  rw [e2 cs 0 h0 (le_refl _) (by omega)]
  simp

/-- Grammars with bounded sizes are picker grammars. -/
theorem PickerGrammar.of_bound {G : Graph} {U : Id → Int} (hguard : Guarded G)
    (closed : ∀ i nd, G i = some nd → ∀ j, j ∈ nd.plainKids ∨ j ∈ nd.choices → G j ≠ none)
    (noSet : ∀ i cs join unb, G i ≠ some (.set cs join unb))
    (seqUnb : ∀ i cs join unb, G i = some (.seq cs join unb) → unb = true)
    (hU : SizeBound G U) : PickerGrammar G := by
  refine ⟨hguard, closed, noSet, seqUnb, ?_⟩
  obtain ⟨B, hB, hnone⟩ := hU.small
  have main : ∀ fl i, G i ≠ none → ∃ v x, HasMin G fl i v ∧ HasMax G fl i x ∧ 0 ≤ v ∧ v ≤ U i ∧
      -1 ≤ x ∧ x ≤ INT_MAX / 2 + 2 * freeCount B fl := by
    intro fl i
    refine hguard.induction (C := fun fl i => G i ≠ none → ∃ v x, HasMin G fl i v ∧ HasMax G fl i x ∧
      0 ≤ v ∧ v ≤ U i ∧ -1 ≤ x ∧ x ≤ INT_MAX / 2 + 2 * freeCount B fl) ?_ fl i
    clear fl i
    intro fl i hp hk hn
    rcases hG : G i with _ | nd
    · exact absurd hG hn
    by_cases hkids : nd.plainKids = []
    swap
    · cases nd with
      | vec c join =>
        have hc := closed i _ hG c (Or.inl (by simp [Node.plainKids]))
        obtain ⟨v, x, h1, h2, h3, h4, h5, h6⟩ := hp c ⟨_, hG, by simp [Node.plainKids]⟩ hc
        have hb := hU.vec i c join hG
        have hm := hU.max i hn
        refine ⟨_, _, min_vec hG h1 h2, max_vec hG, ?_⟩
        have : 0 ≤ vecMinSize v x ∧ vecMinSize v x ≤ U i := by
          unfold vecMinSize
          split
          · omega
          · split
            · rw [wrap32_of_fits (by omega) (by omega)]; omega
            · rw [wrap32_of_fits (by omega) (by omega)]; omega
        refine ⟨this.1, this.2, by omega, by omega⟩
      | unary op c =>
        have hc := closed i _ hG c (Or.inl (by simp [Node.plainKids]))
        obtain ⟨v, x, h1, h2, h3, h4, h5, h6⟩ := hp c ⟨_, hG, by simp [Node.plainKids]⟩ hc
        have hb := hU.unary i c op hG
        exact ⟨_, _, min_unary hG h1, max_unary hG, h3, by omega, by omega, by omega⟩
      | seq cs join unb =>
        obtain rfl := seqUnb i cs join unb hG
        have hex : ∀ c ∈ cs, ∃ v, HasMin G fl c v ∧ 0 ≤ v ∧ v ≤ U c := fun c hc => by
          obtain ⟨v, x, h1, h2, h3, h4, _⟩ := hp c ⟨_, hG, hc⟩ (closed i _ hG c (Or.inl hc))
          exact ⟨v, h1, h3, h4⟩
        have hm : ∀ c ∈ cs, HasMin G fl c (mnv G fl c) ∧ 0 ≤ mnv G fl c ∧ mnv G fl c ≤ U c := fun c hc => by
          obtain ⟨v, h1, h2⟩ := hex c hc
          rw [mnv_eq h1]; exact ⟨h1, h2⟩
        have hsum : (cs.map (mnv G fl)).sum ≤ (cs.map U).sum :=
          List.sum_le_sum fun c hc => (hm c hc).2.2
        have hb := hU.seq i cs join true hG
        have hx := hU.max i hn
        refine ⟨_, _, min_seq hG (fun c hc => ⟨(hm c hc).1, (hm c hc).2.1⟩) (by omega), max_seq hG, ?_,
          by omega, by omega, by omega⟩
        apply List.sum_nonneg
        intro x hx
        obtain ⟨d, hd, rfl⟩ := List.mem_map.1 hx
        exact (hm d hd).2.1
      | set cs join unb => exact absurd hG (noSet i cs join unb)
      | _ => exact absurd rfl hkids
    by_cases hpk : ∀ pool, nd ≠ .picker pool
    · obtain ⟨v, x, h1, h2, h3, h4, h5, h6, h7⟩ := hU.leaf i nd hG hkids hpk
      exact ⟨v, x, leaf_size hG hkids hpk h1 fl, leaf_size hG hkids hpk h2 fl, h3, h5, h6, by omega⟩
    obtain ⟨pool, rfl⟩ : ∃ pool, nd = .picker pool := by simpa using hpk
    have hb := hU.pick i pool hG
    by_cases hf : (fl i).inRec = true
    · exact ⟨_, _, min_picker_in hG hf, max_picker_in hG (by simp [hf]), by norm_num, by omega, by omega,
        by omega⟩
    have hf0 : (fl i).inRec = false := by simpa using hf
    have hi : i < B := by
      by_contra hc
      exact hn (hnone i (Nat.le_of_not_lt hc))
    have hfc := freeCount_setIn hi hf0
    have hfb := freeCount_le B fl
    have ih : ∀ j ∈ pool, HasMin G (fl.setIn i true) j (mnv G (fl.setIn i true) j) ∧
        HasMax G (fl.setIn i true) j (mxv G (fl.setIn i true) j) ∧ 0 ≤ mnv G (fl.setIn i true) j ∧
        mxv G (fl.setIn i true) j ≤ INT_MAX / 2 + 2 * freeCount B (fl.setIn i true) := fun j hj => by
      obtain ⟨v, x, h1, h2, h3, h4, h5, h6⟩ := hk pool hG hf0 j (closed i _ hG j (Or.inr hj))
      rw [mnv_eq h1, mxv_eq h2]; exact ⟨h1, h2, h3, h6⟩
    obtain ⟨r, h1, h2, h3, h4⟩ := min_picker hG hf0 fun j hj => (ih j hj).1
    have h0 : 0 ≤ r := by
      rcases h3 with h | ⟨j, hj, h⟩
      · rw [h]; norm_num
      · rw [h]; exact (ih j hj).2.2.1
    have hv : 0 ≤ (if r = INT_MAX / 2 then INT_MAX / 2 else wrap32 (r + 2)) ∧
        (if r = INT_MAX / 2 then INT_MAX / 2 else wrap32 (r + 2)) ≤ U i := by
      split
      · omega
      · rw [wrap32_of_fits (by omega) (by omega)]; omega
    by_cases hr : (fl i).isRec = true
    · exact ⟨_, _, h4, max_picker_in hG (by simp [hr]), hv.1, hv.2, by omega, by omega⟩
    have hr0 : (fl i).isRec = false := by simpa using hr
    rcases max_picker hG hf0 hr0 fun j hj => (ih j hj).2.1 with ⟨_, h⟩ | ⟨_, q, q1, q2, q3, q4⟩
    · exact ⟨_, _, h4, h, hv.1, hv.2, by omega, by omega⟩
    · have hq : q ≤ INT_MAX / 2 + 2 * freeCount B (fl.setIn i true) := by
        rcases q3 with h | ⟨j, hj, h⟩
        · omega
        · rw [h]; exact (ih j hj).2.2.2
      refine ⟨_, _, h4, q4, hv.1, hv.2, ?_⟩
      rw [wrap32_of_fits (by omega) (by omega)]; omega
  intro fl i hn
  obtain ⟨v, x, h1, h2, h3, h4, h5, h6⟩ := main fl i hn
  have := hU.max i hn
  have := freeCount_le B fl
  exact ⟨v, x, h1, h2, h3, by omega, h5, by omega⟩

open Classical in
/-- How many stamps a stamp is built on. -/
noncomputable def plainRank (G : Graph) (B : Nat) (i : Id) : Nat :=
  ((Finset.range B).filter fun j => Relation.TransGen (PlainEdge G) i j).card

theorem plainRank_le (G : Graph) (B : Nat) (i : Id) : plainRank G B i ≤ B := by
  classical
  unfold plainRank
  refine le_trans (Finset.card_filter_le _ _) ?_
  simp

theorem plainRank_lt {G : Graph} {B : Nat} (hB : ∀ i ≥ B, G i = none)
    (hac : ∀ i, ¬ Relation.TransGen (PlainEdge G) i i) {i c : Id} (h : PlainEdge G i c)
    (hc : G c ≠ none) : plainRank G B c + 1 ≤ plainRank G B i := by
  classical
  unfold plainRank
  apply Finset.card_lt_card
  rw [Finset.ssubset_iff_of_subset]
  · refine ⟨c, ?_, ?_⟩
    · rw [Finset.mem_filter, Finset.mem_range]
      refine ⟨?_, .single h⟩
      by_contra hge
      exact hc (hB c (Nat.le_of_not_lt hge))
    · rw [Finset.mem_filter]
      exact fun h => hac c h.2
  · intro j hj
    rw [Finset.mem_filter] at hj ⊢
    exact ⟨hj.1, .head h hj.2⟩

theorem SingleChild.grammar {G : Graph} (h : SingleChild G) : PickerGrammar G := by
  obtain ⟨B, hB, hnone⟩ := h.small
  have hrank : ∀ i c, PlainEdge G i c → (plainRank G B c : Int) + 1 ≤ plainRank G B i := by
    intro i c hic
    have := plainRank_lt hnone h.acyclic hic (by
      obtain ⟨nd, hG, hc⟩ := hic
      exact h.closed i nd hG c (Or.inl hc))
    omega
  refine PickerGrammar.of_bound (U := fun i => INT_MAX / 2 + 1 + 4 * plainRank G B i)
    ⟨⟨B, hnone⟩, h.acyclic⟩ h.closed
    (fun i cs join unb hG => (h.single i _ hG).1 cs join unb rfl)
    (fun i cs join unb hG => absurd rfl ((h.single i _ hG).2 cs join unb)) ?_
  refine ⟨⟨B, by omega, hnone⟩, ?_, ?_, ?_, ?_, ?_, ?_⟩
  · intro i nd hG hk hp
    obtain ⟨v, x, h1, h2, h3, h4, h5, h6⟩ := h.leaf i nd hG hk hp
    exact ⟨v, x, h1, h2, h3, h4, by omega, h5, h6⟩
  · intro i _
    have := plainRank_le G B i
    omega
  · intro i c join hG
    have := hrank i c ⟨_, hG, by simp [Node.plainKids]⟩
    omega
  · intro i c op hG
    have := hrank i c ⟨_, hG, by simp [Node.plainKids]⟩
    omega
  · intro i cs join unb hG
    exact absurd rfl ((h.single i _ hG).2 cs join unb)
  · intro i pool hG
    omega

end BS
