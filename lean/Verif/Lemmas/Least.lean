import Verif.Lemmas.SizeEqs
import Mathlib.Algebra.Order.BigOperators.Group.Finset

/-!
# The sizes of picker grammars are least derivation sizes
-/

namespace BS
open scoped BigOperators

open Classical in
/-- The value `minSize()` returns, if it does. -/
noncomputable def mnv (G : Graph) (fl : Flags) (i : Id) : Int :=
  if h : ∃ v, HasMin G fl i v then h.choose else 0

open Classical in
/-- The value `maxSize()` returns, if it does. -/
noncomputable def mxv (G : Graph) (fl : Flags) (i : Id) : Int :=
  if h : ∃ v, HasMax G fl i v then h.choose else 0

theorem mnv_eq {G : Graph} {fl : Flags} {i : Id} {v : Int} (h : HasMin G fl i v) : mnv G fl i = v := by
  have hex : ∃ v, HasMin G fl i v := ⟨v, h⟩
  unfold mnv
  rw [dif_pos hex]
  exact (SizeRuns.unique hex.choose_spec h).1

theorem mxv_eq {G : Graph} {fl : Flags} {i : Id} {v : Int} (h : HasMax G fl i v) : mxv G fl i = v := by
  have hex : ∃ v, HasMax G fl i v := ⟨v, h⟩
  unfold mxv
  rw [dif_pos hex]
  exact (SizeRuns.unique hex.choose_spec h).1

/-- More stamps under way. -/
def FlLe (fl fl' : Flags) : Prop :=
  ∀ i, (fl i).isRec = (fl' i).isRec ∧ ((fl i).inRec = true → (fl' i).inRec = true)

theorem FlLe.setIn {fl fl' : Flags} (h : FlLe fl fl') (i : Id) :
    FlLe (fl.setIn i true) (fl'.setIn i true) := by
  intro j
  unfold Flags.setIn
  by_cases hj : j = i
  · rw [if_pos hj, if_pos hj]; exact ⟨(h i).1, fun _ => rfl⟩
  · rw [if_neg hj, if_neg hj]; exact h j

theorem FlLe.to_setIn (fl : Flags) (i : Id) : FlLe fl (fl.setIn i true) := by
  intro j
  unfold Flags.setIn
  by_cases hj : j = i
  · rw [if_pos hj]; subst hj; exact ⟨rfl, fun _ => rfl⟩
  · rw [if_neg hj]; exact ⟨rfl, id⟩

theorem FlLe.trans {a b c : Flags} (h : FlLe a b) (h' : FlLe b c) : FlLe a c :=
  fun i => ⟨(h i).1.trans (h' i).1, fun k => (h' i).2 ((h i).2 k)⟩

namespace PickerGrammar
variable {G : Graph} (hg : PickerGrammar G)
include hg

theorem hasMin {i : Id} (h : G i ≠ none) (fl : Flags) : HasMin G fl i (mnv G fl i) := by
  obtain ⟨v, x, h1, -⟩ := hg.sizes fl i h
  rw [mnv_eq h1]; exact h1

theorem hasMax {i : Id} (h : G i ≠ none) (fl : Flags) : HasMax G fl i (mxv G fl i) := by
  obtain ⟨v, x, _, h1, -⟩ := hg.sizes fl i h
  rw [mxv_eq h1]; exact h1

theorem mn_bounds {i : Id} (h : G i ≠ none) (fl : Flags) : 0 ≤ mnv G fl i ∧ mnv G fl i ≤ INT_MAX := by
  obtain ⟨v, x, h1, h2, h3, h4, _⟩ := hg.sizes fl i h
  rw [mnv_eq h1]; exact ⟨h3, h4⟩

theorem mx_bounds {i : Id} (h : G i ≠ none) (fl : Flags) : -1 ≤ mxv G fl i ∧ mxv G fl i ≤ INT_MAX := by
  obtain ⟨v, x, h1, h2, h3, h4, h5⟩ := hg.sizes fl i h
  rw [mxv_eq h2]; exact h5

theorem leaf_indep {i : Id} {nd : Node} (hG : G i = some nd) (hk : nd.plainKids = [])
    (hp : ∀ pool, nd ≠ .picker pool) (fl fl' : Flags) :
    mnv G fl i = mnv G fl' i ∧ mxv G fl i = mxv G fl' i := by
  have hn : G i ≠ none := by rw [hG]; simp
  exact ⟨mnv_eq (leaf_size hG hk hp (hg.hasMin hn fl') fl),
    mxv_eq (leaf_size hG hk hp (hg.hasMax hn fl') fl)⟩

theorem vec_min {i c : Id} {join : List Bytes → Bytes} (hG : G i = some (.vec c join)) (fl : Flags) :
    mnv G fl i = mnv G fl c + enumOverhead (mnv G fl c) (mxv G fl c) := by
  have hn : G i ≠ none := by rw [hG]; simp
  have hc : G c ≠ none := hg.closed i _ hG c (Or.inl (by simp [Node.plainKids]))
  have h := mnv_eq (min_vec hG (hg.hasMin hc fl) (hg.hasMax hc fl))
  have hb := hg.mn_bounds hn fl
  have hcb := hg.mn_bounds hc fl
  rw [h] at hb ⊢
  unfold vecMinSize enumOverhead at *
  split
  · omega
  · next h1 =>
    rw [if_neg h1] at hb
    split
    · next h2 =>
      rw [if_pos h2] at hb
      unfold wrap32 at *; omega
    · next h2 =>
      rw [if_neg h2] at hb
      unfold wrap32 at *; omega

theorem unary_min {i c : Id} {op : Bytes} (hG : G i = some (.unary op c)) (fl : Flags) :
    mnv G fl i = mnv G fl c := by
  have hc : G c ≠ none := hg.closed i _ hG c (Or.inl (by simp [Node.plainKids]))
  exact mnv_eq (min_unary hG (hg.hasMin hc fl))

theorem seq_min {i : Id} {cs : List Id} {join : List Bytes → Bytes} {unb : Bool}
    (hG : G i = some (.seq cs join unb)) (fl : Flags) :
    mnv G fl i = ∑ t : Fin cs.length, mnv G fl cs[t] := by
  have hn : G i ≠ none := by rw [hG]; simp
  obtain ⟨vs, h1, h2⟩ := min_seq_inv hG (hg.hasMin hn fl)
  rw [h2]
  have : vs = cs.map (mnv G fl) := by
    clear h2 hG
    induction h1 with
    | nil => rfl
    | cons h _ ih => rw [List.map_cons, mnv_eq h, ← ih]
  rw [this, ← Fin.sum_univ_fun_getElem]
  rfl

theorem picker_min {i : Id} {pool : List Id} (hG : G i = some (.picker pool)) {fl : Flags}
    (hf : (fl i).inRec = false) :
    ∃ r, 0 ≤ r ∧ r ≤ INT_MAX / 2 ∧ (∀ j ∈ pool, r ≤ mnv G (fl.setIn i true) j) ∧
      (r = INT_MAX / 2 ∨ ∃ j ∈ pool, r = mnv G (fl.setIn i true) j) ∧
      mnv G fl i = if r = INT_MAX / 2 then INT_MAX / 2 else r + 2 := by
  have hc : ∀ j ∈ pool, G j ≠ none := fun j hj => hg.closed i _ hG j (Or.inr hj)
  obtain ⟨r, h1, h2, h3, h4⟩ := min_picker hG hf (fun j hj => hg.hasMin (hc j hj) (fl.setIn i true))
  have h0 : 0 ≤ r := by
    rcases h3 with h | ⟨j, hj, h⟩
    · rw [h]; norm_num
    · rw [h]; exact (hg.mn_bounds (hc j hj) _).1
  refine ⟨r, h0, h1, h2, h3, ?_⟩
  rw [mnv_eq h4, wrap32_of_fits (by omega) (by omega)]

theorem picker_max {i : Id} {pool : List Id} (hG : G i = some (.picker pool)) {fl : Flags}
    (hf : (fl i).inRec = false) (hf' : (fl i).isRec = false) :
    ((∃ j ∈ pool, mxv G (fl.setIn i true) j = -1) ∧ mxv G fl i = -1) ∨
    ((∀ j ∈ pool, mxv G (fl.setIn i true) j ≠ -1) ∧ mxv G fl i ≠ -1 ∧
      ∃ r, (∀ j ∈ pool, mxv G (fl.setIn i true) j ≤ r) ∧
        (r = 0 ∨ ∃ j ∈ pool, r = mxv G (fl.setIn i true) j) ∧ 0 ≤ r ∧ mxv G fl i = wrap32 (r + 2)) := by
  have hc : ∀ j ∈ pool, G j ≠ none := fun j hj => hg.closed i _ hG j (Or.inr hj)
  rcases max_picker hG hf hf' (fun j hj => hg.hasMax (hc j hj) (fl.setIn i true)) with ⟨h1, h2⟩ |
    ⟨h1, r, h2, h3, h4, h5⟩
  · exact Or.inl ⟨h1, mxv_eq h2⟩
  · refine Or.inr ⟨h1, ?_, r, h3, h4, h2, mxv_eq h5⟩
    rw [mxv_eq h5]
    have : r ≤ INT_MAX := by
      rcases h4 with h | ⟨j, hj, h⟩
      · omega
      · rw [h]; exact (hg.mx_bounds (hc j hj) _).2
    unfold wrap32; omega

omit hg in
theorem fold_unique {pool : List Id} {f g : Id → Int} (h : ∀ j ∈ pool, f j = g j) {T r r' : Int}
    (h1 : r ≤ T) (h2 : ∀ j ∈ pool, r ≤ f j) (h3 : r = T ∨ ∃ j ∈ pool, r = f j)
    (h1' : r' ≤ T) (h2' : ∀ j ∈ pool, r' ≤ g j) (h3' : r' = T ∨ ∃ j ∈ pool, r' = g j) : r = r' := by
  apply le_antisymm
  · rcases h3' with e | ⟨j, hj, e⟩
    · omega
    · rw [e, ← h j hj]; exact h2 j hj
  · rcases h3 with e | ⟨j, hj, e⟩
    · omega
    · rw [e, h j hj]; exact h2' j hj

omit hg in
theorem fold_unique' {pool : List Id} {f g : Id → Int} (h : ∀ j ∈ pool, f j = g j) {T r r' : Int}
    (h1 : T ≤ r) (h2 : ∀ j ∈ pool, f j ≤ r) (h3 : r = T ∨ ∃ j ∈ pool, r = f j)
    (h1' : T ≤ r') (h2' : ∀ j ∈ pool, g j ≤ r') (h3' : r' = T ∨ ∃ j ∈ pool, r' = g j) : r = r' := by
  apply le_antisymm
  · rcases h3 with e | ⟨j, hj, e⟩
    · omega
    · rw [e, h j hj]; exact h2' j hj
  · rcases h3' with e | ⟨j, hj, e⟩
    · omega
    · rw [e, ← h j hj]; exact h2 j hj

theorem not_leaf_max {i : Id} {nd : Node} (hG : G i = some nd) (hk : nd.plainKids ≠ []) (fl : Flags) :
    mxv G fl i = -1 := by
  cases nd with
  | vec c join => exact mxv_eq (max_vec hG)
  | unary op c => exact mxv_eq (max_unary hG)
  | seq cs join unb =>
    obtain rfl := hg.seqUnb i cs join unb hG
    exact mxv_eq (max_seq hG)
  | set cs join unb => exact absurd hG (hg.noSet i cs join unb)
  | _ => exact absurd rfl hk

/-- With more stamps under way a stamp looks unbounded, or the same. -/
theorem dichotomy (fl : Flags) (i : Id) : ∀ fl', FlLe fl fl' → G i ≠ none →
    mxv G fl' i = -1 ∨ (mnv G fl i = mnv G fl' i ∧ mxv G fl i = mxv G fl' i) := by
  refine hg.guarded.induction (C := fun fl i => ∀ fl', FlLe fl fl' → G i ≠ none →
    mxv G fl' i = -1 ∨ (mnv G fl i = mnv G fl' i ∧ mxv G fl i = mxv G fl' i)) ?_ fl i
  clear fl i
  intro fl i hp hk fl' hle hn
  rcases hG : G i with _ | nd
  · exact absurd hG hn
  by_cases hkids : nd.plainKids = []
  swap
  · exact Or.inl (hg.not_leaf_max hG hkids fl')
  by_cases hpk : ∀ pool, nd ≠ .picker pool
  · exact Or.inr (hg.leaf_indep hG hkids hpk fl fl')
  obtain ⟨pool, rfl⟩ : ∃ pool, nd = .picker pool := by simpa using hpk
  by_cases hf' : (fl' i).inRec = true
  · exact Or.inl (mxv_eq (max_picker_in hG (by simp [hf'])))
  have hf0 : (fl i).inRec = false := by
    by_contra hc
    exact hf' ((hle i).2 (by simpa using hc))
  have hf0' : (fl' i).inRec = false := by simpa using hf'
  by_cases hr : (fl' i).isRec = true
  · exact Or.inl (mxv_eq (max_picker_in hG (by simp [hr])))
  have hr' : (fl' i).isRec = false := by simpa using hr
  have hr0 : (fl i).isRec = false := (hle i).1.trans hr'
  rcases hg.picker_max hG hf0' hr' with ⟨_, h⟩ | ⟨hx', _, r', a1, a2, a3, a4⟩
  · exact Or.inl h
  right
  have ih : ∀ j ∈ pool, mnv G (fl.setIn i true) j = mnv G (fl'.setIn i true) j ∧
      mxv G (fl.setIn i true) j = mxv G (fl'.setIn i true) j := fun j hj =>
    (hk pool hG hf0 j (fl'.setIn i true) (hle.setIn i) (hg.closed i _ hG j (Or.inr hj))).resolve_left (hx' j hj)
  constructor
  · obtain ⟨r1, _, b1, b2, b3, b4⟩ := hg.picker_min hG hf0
    obtain ⟨r2, _, c1, c2, c3, c4⟩ := hg.picker_min hG hf0'
    rw [b4, c4, fold_unique (fun j hj => (ih j hj).1) b1 b2 b3 c1 c2 c3]
  · rcases hg.picker_max hG hf0 hr0 with ⟨⟨j, hj, e⟩, _⟩ | ⟨_, _, r, d1, d2, d3, d4⟩
    · exact absurd ((ih j hj).2.symm.trans e) (hx' j hj)
    · rw [d4, a4, fold_unique' (fun j hj => (ih j hj).2) d3 d1 d2 a3 a1 a2]

theorem max_mono {fl fl' : Flags} (hle : FlLe fl fl') {i : Id} (hn : G i ≠ none)
    (h : mxv G fl i = -1) : mxv G fl' i = -1 := by
  rcases hg.dichotomy fl i fl' hle hn with e | ⟨_, e⟩
  · exact e
  · rw [← e]; exact h

/-- If all further stamps under way are unbounded, no maximum changes. -/
theorem max_same (fl : Flags) (i : Id) : ∀ fl', FlLe fl fl' →
    (∀ p, (fl' p).inRec = true → (fl p).inRec = false → G p ≠ none → mxv G fl p = -1) → G i ≠ none →
    mxv G fl' i = mxv G fl i := by
  refine hg.guarded.induction (C := fun fl i => ∀ fl', FlLe fl fl' →
    (∀ p, (fl' p).inRec = true → (fl p).inRec = false → G p ≠ none → mxv G fl p = -1) → G i ≠ none →
    mxv G fl' i = mxv G fl i) ?_ fl i
  clear fl i
  intro fl i hp hk fl' hle hinf hn
  rcases hG : G i with _ | nd
  · exact absurd hG hn
  by_cases hkids : nd.plainKids = []
  swap
  · rw [hg.not_leaf_max hG hkids fl, hg.not_leaf_max hG hkids fl']
  by_cases hpk : ∀ pool, nd ≠ .picker pool
  · exact (hg.leaf_indep hG hkids hpk fl' fl).2
  obtain ⟨pool, rfl⟩ : ∃ pool, nd = .picker pool := by simpa using hpk
  by_cases hf : (fl i).inRec = true
  · rw [mxv_eq (max_picker_in (fl := fl) hG (by simp [hf])),
      mxv_eq (max_picker_in (fl := fl') hG (by simp [(hle i).2 hf]))]
  have hf0 : (fl i).inRec = false := by simpa using hf
  by_cases hf' : (fl' i).inRec = true
  · rw [hinf i hf' hf0 hn, mxv_eq (max_picker_in hG (by simp [hf']))]
  have hf0' : (fl' i).inRec = false := by simpa using hf'
  by_cases hr : (fl' i).isRec = true
  · rw [mxv_eq (max_picker_in (fl := fl') hG (by simp [hr])),
      mxv_eq (max_picker_in (fl := fl) hG (by simp [(hle i).1, hr]))]
  have hr' : (fl' i).isRec = false := by simpa using hr
  have hr0 : (fl i).isRec = false := (hle i).1.trans hr'
  have ih : ∀ j ∈ pool, mxv G (fl'.setIn i true) j = mxv G (fl.setIn i true) j := by
    intro j hj
    refine hk pool hG hf0 j (fl'.setIn i true) (hle.setIn i) ?_ (hg.closed i _ hG j (Or.inr hj))
    intro p hp1 hp2 hpn
    unfold Flags.setIn at hp1 hp2
    by_cases hpi : p = i
    · rw [if_pos hpi] at hp2; simp at hp2
    · rw [if_neg hpi] at hp1 hp2
      exact hg.max_mono (FlLe.to_setIn fl i) hpn (hinf p hp1 hp2 hpn)
  rcases hg.picker_max hG hf0' hr' with ⟨⟨j, hj, e⟩, h⟩ | ⟨hx', _, r', a1, a2, a3, a4⟩
  · rcases hg.picker_max hG hf0 hr0 with ⟨_, h0⟩ | ⟨hx, _⟩
    · rw [h, h0]
    · exact absurd ((ih j hj).symm.trans e) (hx j hj)
  · rcases hg.picker_max hG hf0 hr0 with ⟨⟨j, hj, e⟩, h0⟩ | ⟨hx, _, r, d1, d2, d3, d4⟩
    · exact absurd ((ih j hj).trans e) (hx' j hj)
    · rw [a4, d4, fold_unique' (fun j hj => ih j hj) a3 a1 a2 d3 d1 d2]

end PickerGrammar

/-- Derivations that avoid some pickers. -/
inductive DerivesA (G : Graph) (fl0 : Flags) (F : Flags) : Id → Int → Prop
  | leaf {i nd k} : G i = some nd → nd.plainKids = [] → (∀ pool, nd ≠ .picker pool) →
      HasMin G fl0 i k → DerivesA G fl0 F i k
  | vec {i c join mn mx k} : G i = some (.vec c join) → HasMin G fl0 c mn → HasMax G fl0 c mx →
      DerivesA G fl0 F c k → DerivesA G fl0 F i (k + enumOverhead mn mx)
  | unary {i c op k} : G i = some (.unary op c) → DerivesA G fl0 F c k → DerivesA G fl0 F i k
  | seq {i cs join unb} {ks : Fin cs.length → Int} : G i = some (.seq cs join unb) → cs ≠ [] →
      (∀ t, DerivesA G fl0 F cs[t] (ks t)) → DerivesA G fl0 F i (∑ t, ks t)
  | pick {i pool j k} : G i = some (.picker pool) → (F i).inRec = false → j ∈ pool →
      DerivesA G fl0 F j k → DerivesA G fl0 F i (k + 2)

theorem Derives.avoid {G : Graph} {fl F : Flags} (hF : Idle F) {i : Id} {k : Int}
    (h : Derives G fl i k) : DerivesA G fl F i k := by
  induction h with
  | leaf h1 h2 h3 h4 => exact .leaf h1 h2 h3 h4
  | vec h1 h2 h3 _ ih => exact .vec h1 h2 h3 ih
  | unary h1 _ ih => exact .unary h1 ih
  | seq h1 h2 _ ih => exact .seq h1 h2 ih
  | pick h1 h2 _ ih => exact .pick h1 (hF _) h2 ih

theorem enumOverhead_nonneg (a b : Int) : 0 ≤ enumOverhead a b := by
  unfold enumOverhead; split <;> [skip; split] <;> omega

theorem DerivesA.nonneg {G : Graph} (hg : PickerGrammar G) {fl F : Flags} {i : Id} {k : Int}
    (h : DerivesA G fl F i k) : 0 ≤ k := by
  induction h with
  | @leaf i nd k h1 h2 h3 h4 =>
    rw [← mnv_eq h4]
    exact (hg.mn_bounds (by rw [h1]; simp) _).1
  | @vec i c join mn mx k h1 h2 h3 _ ih =>
    have := enumOverhead_nonneg mn mx
    omega
  | unary h1 _ ih => exact ih
  | seq h1 h2 _ ih => exact Finset.sum_nonneg fun t _ => ih t
  | pick h1 h2 _ ih => omega

/-- A derivation avoids one more picker, or contains a derivation from it that is not dearer. -/
theorem DerivesA.cut {G : Graph} (hg : PickerGrammar G) {fl F : Flags} (q : Id) {i : Id} {k : Int}
    (h : DerivesA G fl F i k) :
    DerivesA G fl (F.setIn q true) i k ∨ ∃ k' ≤ k, DerivesA G fl F q k' := by
  induction h with
  | leaf h1 h2 h3 h4 => exact Or.inl (.leaf h1 h2 h3 h4)
  | @vec i c join mn mx k h1 h2 h3 _ ih =>
    rcases ih with h | ⟨k', hk, h⟩
    · exact Or.inl (.vec h1 h2 h3 h)
    · have := enumOverhead_nonneg mn mx
      exact Or.inr ⟨k', by omega, h⟩
  | unary h1 _ ih =>
    rcases ih with h | h
    · exact Or.inl (.unary h1 h)
    · exact Or.inr h
  | @seq i cs join unb ks h1 h2 hd ih =>
    by_cases hall : ∀ t, DerivesA G fl (F.setIn q true) cs[t] (ks t)
    · exact Or.inl (.seq h1 h2 hall)
    · rw [not_forall] at hall
      obtain ⟨t, ht⟩ := hall
      obtain ⟨k', hk, h⟩ := (ih t).resolve_left ht
      refine Or.inr ⟨k', le_trans hk ?_, h⟩
      exact Finset.single_le_sum (f := ks) (fun t _ => (hd t).nonneg hg) (Finset.mem_univ t)
  | @pick i pool j k h1 hF h2 hd ih =>
    by_cases hi : i = q
    · subst hi
      exact Or.inr ⟨k + 2, le_refl _, .pick h1 hF h2 hd⟩
    · rcases ih with h | ⟨k', hk, h⟩
      · refine Or.inl (.pick h1 ?_ h2 h)
        unfold Flags.setIn; rw [if_neg hi]; exact hF
      · exact Or.inr ⟨k', by omega, h⟩

namespace PickerGrammar
variable {G : Graph} (hg : PickerGrammar G)
include hg

/-- Below a stamp that is not unbounded there are only leaves and pickers. -/
theorem exact_bounded {fl0 : Flags} (fl : Flags) (i : Id) : mxv G fl i ≠ -1 → G i ≠ none →
    (mnv G fl i < INT_MAX / 2 → Derives G fl0 i (mnv G fl i)) ∧
    (∀ F k, k < INT_MAX / 2 → DerivesA G fl0 F i k → mnv G fl i ≤ k) := by
  refine hg.guarded.induction (C := fun fl i => mxv G fl i ≠ -1 → G i ≠ none →
    (mnv G fl i < INT_MAX / 2 → Derives G fl0 i (mnv G fl i)) ∧
    (∀ F k, k < INT_MAX / 2 → DerivesA G fl0 F i k → mnv G fl i ≤ k)) ?_ fl i
  clear fl i
  intro fl i hp hk hfin hn
  rcases hG : G i with _ | nd
  · exact absurd hG hn
  by_cases hkids : nd.plainKids = []
  swap
  · exact absurd (hg.not_leaf_max hG hkids fl) hfin
  by_cases hpk : ∀ pool, nd ≠ .picker pool
  · have e := (hg.leaf_indep hG hkids hpk fl fl0).1
    rw [e]
    refine ⟨fun _ => .leaf hG hkids hpk (hg.hasMin hn fl0), fun F k _ hd => ?_⟩
    cases hd with
    | leaf _ _ _ h4 => rw [mnv_eq h4]
    | vec h1 => rw [h1] at hG; cases hG; cases hkids
    | unary h1 => rw [h1] at hG; cases hG; cases hkids
    | seq h1 h2 => rw [h1] at hG; cases hG; exact absurd hkids h2
    | pick h1 => rw [h1] at hG; cases hG; exact absurd rfl (hpk _)
  obtain ⟨pool, rfl⟩ : ∃ pool, nd = .picker pool := by simpa using hpk
  have hf0 : (fl i).inRec = false := by
    by_contra hc
    exact hfin (mxv_eq (max_picker_in hG (by simp at hc; simp [hc])))
  have hr0 : (fl i).isRec = false := by
    by_contra hc
    exact hfin (mxv_eq (max_picker_in hG (by simp at hc; simp [hc])))
  rcases hg.picker_max hG hf0 hr0 with ⟨_, h⟩ | ⟨hx, _⟩
  · exact absurd h hfin
  have ih := fun j hj => hk pool hG hf0 j (hx j hj) (hg.closed i _ hG j (Or.inr hj))
  obtain ⟨r, h0, h1, h2, h3, h4⟩ := hg.picker_min hG hf0
  rw [h4]
  refine ⟨fun hlt => ?_, fun F k hk hd => ?_⟩
  · split at hlt
    · omega
    · next hr =>
      rw [if_neg hr]
      obtain ⟨j, hj, e⟩ := h3.resolve_left hr
      rw [e]
      exact .pick hG hj ((ih j hj).1 (by omega))
  · cases hd with
    | leaf h1 _ h3 => rw [h1] at hG; cases hG; exact absurd rfl (h3 _)
    | vec h1 => rw [h1] at hG; cases hG
    | unary h1 => rw [h1] at hG; cases hG
    | seq h1 h2 => rw [h1] at hG; cases hG
    | @pick _ pool' j k h1 _ hj hd =>
      rw [h1] at hG; cases hG
      have := (ih j hj).2 F k (by omega) hd
      have := h2 j hj
      rw [if_neg (by omega)]; omega

/-- Sizes asked for while unbounded pickers are under way. -/
theorem exact_general {fl0 : Flags} (fl : Flags) (i : Id) : FlLe fl0 fl →
    (∀ p, (fl p).inRec = true → (fl0 p).inRec = false → G p ≠ none → mxv G fl0 p = -1) → G i ≠ none →
    (mnv G fl i < INT_MAX / 2 → Derives G fl0 i (mnv G fl i)) ∧
    (∀ k, k < INT_MAX / 2 → DerivesA G fl0 fl i k → mnv G fl i ≤ k) := by
  refine hg.guarded.induction (C := fun fl i => FlLe fl0 fl →
    (∀ p, (fl p).inRec = true → (fl0 p).inRec = false → G p ≠ none → mxv G fl0 p = -1) → G i ≠ none →
    (mnv G fl i < INT_MAX / 2 → Derives G fl0 i (mnv G fl i)) ∧
    (∀ k, k < INT_MAX / 2 → DerivesA G fl0 fl i k → mnv G fl i ≤ k)) ?_ fl i
  clear fl i
  intro fl i hp hk hle hinf hn
  rcases hG : G i with _ | nd
  · exact absurd hG hn
  have hp' : ∀ j ∈ nd.plainKids, _ := fun j hj =>
    hp j ⟨nd, hG, hj⟩ hle hinf (hg.closed i nd hG j (Or.inl hj))
  by_cases hkids : nd.plainKids = []
  swap
  · cases nd with
    | vec c join =>
      have hc : G c ≠ none := hg.closed i _ hG c (Or.inl (by simp [Node.plainKids]))
      obtain ⟨i1, i2⟩ := hp' c (by simp [Node.plainKids])
      have hov : enumOverhead (mnv G fl c) (mxv G fl c) = enumOverhead (mnv G fl0 c) (mxv G fl0 c) := by
        have e := hg.max_same fl0 c fl hle hinf hc
        rcases hg.dichotomy fl0 c fl hle hc with d | ⟨d, _⟩
        · rw [e] at d
          have b1 := (hg.mn_bounds hc fl).1
          have b2 := (hg.mn_bounds hc fl0).1
          unfold enumOverhead
          rw [e, d, if_neg (by omega), if_pos rfl, if_neg (by omega)]
        · rw [e, d]
      have b := enumOverhead_nonneg (mnv G fl0 c) (mxv G fl0 c)
      rw [hg.vec_min hG fl, hov]
      refine ⟨fun hlt => ?_, fun k hk hd => ?_⟩
      · exact .vec hG (hg.hasMin hc fl0) (hg.hasMax hc fl0) (i1 (by omega))
      · cases hd with
        | leaf h1 h2 => rw [h1] at hG; cases hG; exact absurd h2 hkids
        | @vec _ c' join' mn mx k h1 h2 h3 hd =>
          rw [h1] at hG; cases hG
          rw [← mnv_eq h2, ← mxv_eq h3] at hk ⊢
          have := i2 k (by omega) hd
          omega
        | unary h1 => rw [h1] at hG; cases hG
        | seq h1 => rw [h1] at hG; cases hG
        | pick h1 => rw [h1] at hG; cases hG
    | unary op c =>
      obtain ⟨i1, i2⟩ := hp' c (by simp [Node.plainKids])
      rw [hg.unary_min hG fl]
      refine ⟨fun hlt => .unary hG (i1 hlt), fun k hk hd => ?_⟩
      cases hd with
      | leaf h1 h2 => rw [h1] at hG; cases hG; exact absurd h2 hkids
      | vec h1 => rw [h1] at hG; cases hG
      | unary h1 hd => rw [h1] at hG; cases hG; exact i2 k hk hd
      | seq h1 => rw [h1] at hG; cases hG
      | pick h1 => rw [h1] at hG; cases hG
    | seq cs join unb =>
      rw [hg.seq_min hG fl]
      have hcs : cs ≠ [] := hkids
      have hnn : ∀ t : Fin cs.length, 0 ≤ mnv G fl cs[t] := fun t =>
        (hg.mn_bounds (hg.closed i _ hG cs[t] (Or.inl (List.getElem_mem t.2))) fl).1
      have ih : ∀ t : Fin cs.length, _ := fun t => hp' cs[t] (List.getElem_mem t.2)
      refine ⟨fun hlt => ?_, fun k hk hd => ?_⟩
      · refine .seq hG hcs fun t => (ih t).1 ?_
        have := Finset.single_le_sum (f := fun t : Fin cs.length => mnv G fl cs[t])
          (fun t _ => hnn t) (Finset.mem_univ t)
        exact lt_of_le_of_lt this hlt
      · cases hd with
        | leaf h1 h2 => rw [h1] at hG; cases hG; exact absurd h2 hkids
        | vec h1 => rw [h1] at hG; cases hG
        | unary h1 => rw [h1] at hG; cases hG
        | @seq _ cs' join' unb' ks h1 h2 hd =>
          rw [h1] at hG; cases hG
          refine Finset.sum_le_sum fun t _ => (ih t).2 (ks t) ?_ (hd t)
          have := Finset.single_le_sum (f := ks) (fun t _ => (hd t).nonneg hg) (Finset.mem_univ t)
          omega
        | pick h1 => rw [h1] at hG; cases hG
    | set cs join unb => exact absurd hG (hg.noSet i cs join unb)
    | _ => exact absurd rfl hkids
  by_cases hpk : ∀ pool, nd ≠ .picker pool
  · have e := (hg.leaf_indep hG hkids hpk fl fl0).1
    rw [e]
    refine ⟨fun _ => .leaf hG hkids hpk (hg.hasMin hn fl0), fun k _ hd => ?_⟩
    cases hd with
    | leaf _ _ _ h4 => rw [mnv_eq h4]
    | vec h1 => rw [h1] at hG; cases hG; cases hkids
    | unary h1 => rw [h1] at hG; cases hG; cases hkids
    | seq h1 h2 => rw [h1] at hG; cases hG; exact absurd hkids h2
    | pick h1 => rw [h1] at hG; cases hG; exact absurd rfl (hpk _)
  obtain ⟨pool, rfl⟩ : ∃ pool, nd = .picker pool := by simpa using hpk
  by_cases hf : (fl i).inRec = true
  · rw [mnv_eq (min_picker_in hG hf)]
    refine ⟨fun h => by omega, fun k _ hd => ?_⟩
    cases hd with
    | leaf h1 _ h3 => rw [h1] at hG; cases hG; exact absurd rfl (h3 _)
    | vec h1 => rw [h1] at hG; cases hG
    | unary h1 => rw [h1] at hG; cases hG
    | seq h1 h2 => rw [h1] at hG; cases hG
    | pick h1 h2 => rw [hf] at h2; cases h2
  have hf0 : (fl i).inRec = false := by simpa using hf
  have hf00 : (fl0 i).inRec = false := by
    by_contra hc
    exact hf ((hle i).2 (by simpa using hc))
  -- what is known about the pool stamps, with this picker under way
  have ih : ∀ j ∈ pool, (mnv G (fl.setIn i true) j < INT_MAX / 2 →
        Derives G fl0 j (mnv G (fl.setIn i true) j)) ∧
      (∀ k, k < INT_MAX / 2 → DerivesA G fl0 (fl.setIn i true) j k → mnv G (fl.setIn i true) j ≤ k) := by
    intro j hj
    have hjn := hg.closed i _ hG j (Or.inr hj)
    by_cases hm : mxv G fl0 i = -1
    · refine hk pool hG hf0 j (hle.trans (FlLe.to_setIn fl i)) ?_ hjn
      intro p hp1 hp2 hpn
      unfold Flags.setIn at hp1
      by_cases hpi : p = i
      · rw [hpi]; exact hm
      · rw [if_neg hpi] at hp1
        exact hinf p hp1 hp2 hpn
    · rw [← hg.max_same fl0 i fl hle hinf hn] at hm
      have hr0 : (fl i).isRec = false := by
        by_contra hc
        exact hm (mxv_eq (max_picker_in hG (by simp at hc; simp [hc])))
      rcases hg.picker_max hG hf0 hr0 with ⟨_, h⟩ | ⟨hx, _⟩
      · exact absurd h hm
      · obtain ⟨e1, e2⟩ := hg.exact_bounded (fl0 := fl0) (fl.setIn i true) j (hx j hj) hjn
        exact ⟨e1, fun k => e2 _ k⟩
  obtain ⟨r, h0, h1, h2, h3, h4⟩ := hg.picker_min hG hf0
  refine ⟨fun hlt => ?_, ?_⟩
  · rw [h4] at hlt ⊢
    split at hlt
    · omega
    · next hr =>
      rw [if_neg hr]
      obtain ⟨j, hj, e⟩ := h3.resolve_left hr
      rw [e]
      exact .pick hG hj ((ih j hj).1 (by omega))
  · -- the dearest derivations first: strong induction on the cost
    have key : ∀ (b : Nat) (k : Int), k < b → k < INT_MAX / 2 → DerivesA G fl0 fl i k → mnv G fl i ≤ k := by
      intro b
      induction b with
      | zero =>
        intro k hb _ hd
        have := hd.nonneg hg
        omega
      | succ b ihb =>
        intro k hb hk hd
        cases hd with
        | leaf h1 _ h3 => rw [h1] at hG; cases hG; exact absurd rfl (h3 _)
        | vec h1 => rw [h1] at hG; cases hG
        | unary h1 => rw [h1] at hG; cases hG
        | seq h1 h2 => rw [h1] at hG; cases hG
        | @pick _ pool' j k h1 _ hj hd =>
          rw [h1] at hG; cases hG
          rcases hd.cut hg i with hd' | ⟨k', hk', hd'⟩
          · have a := (ih j hj).2 k (by omega) hd'
            have b := h2 j hj
            rw [h4, if_neg (by omega)]; omega
          · have := ihb k' (by omega) (by omega) hd'
            omega
    intro k hk hd
    have hk0 := hd.nonneg hg
    exact key (k.toNat + 1) k (by omega) hk hd

end PickerGrammar

end BS
