import Verif.Lemmas.CopySize
import Verif.Lemmas.SizeBound

/-!
# Sizes in picker grammars and their copies
-/

namespace BS
open scoped BigOperators

theorem NodeMatch.flip {R : Id → Id → Prop} {nd nd' : Node} (h : NodeMatch R nd nd') :
    NodeMatch (fun j i => R i j) nd' nd := by
  cases h with
  | single h => exact .single h
  | vec join h => exact .vec join h
  | set join unb h => exact .set join unb h.flip
  | seq join unb h => exact .seq join unb h.flip
  | unary op h => exact .unary op h
  | lottery rec4 osz smin smax h => exact .lottery rec4 osz smin smax h.flip
  | picker h => exact .picker h.flip

theorem Matched.flip {G H : Graph} {R : Id → Id → Prop} (h : Matched G H R) : Matched H G (fun j i => R i j) := by
  intro j i hij
  rcases h i j hij with ⟨h1, h2⟩ | ⟨nd, nd', h1, h2, h3⟩
  · exact .inl ⟨h2, h1⟩
  · exact .inr ⟨nd', nd, h2, h1, h3.flip⟩

theorem SameSizes.flip {G H : Graph} {fl fl' : Flags} {R : Id → Id → Prop} (h : SameSizes G fl H fl' R) :
    SameSizes H fl' G fl (fun j i => R i j) := fun j i hij sel o ho => (h i j hij sel o ho).symm

theorem Matched.some_left {G H : Graph} {R : Id → Id → Prop} (h : Matched G H R) {i j : Id} (hij : R i j) {nd : Node}
    (hG : G i = some nd) : ∃ nd', H j = some nd' ∧ NodeMatch R nd nd' := by
  rcases h i j hij with ⟨h1, _⟩ | ⟨x, nd', h1, h2, h3⟩
  · rw [hG] at h1; cases h1
  · rw [hG] at h1; cases h1; exact ⟨nd', h2, h3⟩

theorem forall₂_mem_left {R : Id → Id → Prop} {cs ds : List Id} (h : List.Forall₂ R cs ds) {c : Id} (hc : c ∈ cs) :
    ∃ d ∈ ds, R c d := by
  induction h with
  | nil => cases hc
  | cons h _ ih =>
    rcases List.mem_cons.1 hc with rfl | hc
    · exact ⟨_, List.mem_cons_self, h⟩
    · obtain ⟨d, h1, h2⟩ := ih hc
      exact ⟨d, List.mem_cons_of_mem _ h1, h2⟩

/-- Stamps of the same kind; alternatives correspond as sets, and those of lotteries need not. -/
inductive NodeLoose (R : Id → Id → Prop) : Node → Node → Prop where
  | single {nd : Node} (h : nd.single = true) : NodeLoose R nd nd
  | vec {c d : Id} (join) (h : R c d) : NodeLoose R (.vec c join) (.vec d join)
  | set {cs ds : List Id} (join unb) (h : List.Forall₂ R cs ds) : NodeLoose R (.set cs join unb) (.set ds join unb)
  | seq {cs ds : List Id} (join unb) (h : List.Forall₂ R cs ds) : NodeLoose R (.seq cs join unb) (.seq ds join unb)
  | unary {c d : Id} (op) (h : R c d) : NodeLoose R (.unary op c) (.unary op d)
  | lottery {cs ds : List Id} (rec4 osz smin smax) : NodeLoose R (.lottery rec4 cs osz smin smax) (.lottery rec4 ds osz smin smax)
  | picker {cs ds : List Id} (h : SameMembers R cs ds) : NodeLoose R (.picker cs) (.picker ds)

theorem NodeLoose.flip {R : Id → Id → Prop} {nd nd' : Node} (h : NodeLoose R nd nd') :
    NodeLoose (fun j i => R i j) nd' nd := by
  cases h with
  | single h => exact .single h
  | vec join h => exact .vec join h
  | set join unb h => exact .set join unb h.flip
  | seq join unb h => exact .seq join unb h.flip
  | unary op h => exact .unary op h
  | lottery rec4 osz smin smax => exact .lottery rec4 osz smin smax
  | picker h => exact .picker ⟨h.2, h.1⟩

/-- Corresponding objects are stamps of the same kind. -/
def Loosely (G H : Graph) (R : Id → Id → Prop) : Prop :=
  ∀ i j, R i j → (G i = none ∧ H j = none) ∨ ∃ nd nd', G i = some nd ∧ H j = some nd' ∧ NodeLoose R nd nd'

theorem Loosely.flip {G H : Graph} {R : Id → Id → Prop} (h : Loosely G H R) : Loosely H G (fun j i => R i j) := by
  intro j i hij
  rcases h i j hij with ⟨h1, h2⟩ | ⟨nd, nd', h1, h2, h3⟩
  · exact .inl ⟨h2, h1⟩
  · exact .inr ⟨nd', nd, h2, h1, h3.flip⟩

theorem NodeMatch.loose {R : Id → Id → Prop} {nd nd' : Node} (h : NodeMatch R nd nd') : NodeLoose R nd nd' := by
  cases h with
  | single h => exact .single h
  | vec join h => exact .vec join h
  | set join unb h => exact .set join unb h
  | seq join unb h => exact .seq join unb h
  | unary op h => exact .unary op h
  | lottery rec4 osz smin smax => exact .lottery rec4 osz smin smax
  | picker h => exact .picker ⟨fun _ hc => forall₂_mem_left h hc, fun _ hd => forall₂_mem_left h.flip hd⟩

theorem Matched.loosely {G H : Graph} {R : Id → Id → Prop} (h : Matched G H R) : Loosely G H R := fun i j hij =>
  (h i j hij).imp_right fun ⟨nd, nd', h1, h2, h3⟩ => ⟨nd, nd', h1, h2, h3.loose⟩

theorem Loosely.some_left {G H : Graph} {R : Id → Id → Prop} (h : Loosely G H R) {i j : Id} (hij : R i j) {nd : Node}
    (hG : G i = some nd) : ∃ nd', H j = some nd' ∧ NodeLoose R nd nd' := by
  rcases h i j hij with ⟨h1, _⟩ | ⟨x, nd', h1, h2, h3⟩
  · rw [hG] at h1; cases h1
  · rw [hG] at h1; cases h1; exact ⟨nd', h2, h3⟩

/-- A leaf and its copy say the same about their sizes. -/
theorem leaf_match {G H : Graph} {R : Id → Id → Prop} {i j : Id} {nd nd' : Node} (hG : G i = some nd) (hH : H j = some nd')
    (h : NodeLoose R nd nd') (hk : nd.plainKids = []) (hp : ∀ pool, nd ≠ .picker pool) {sel : Sel} {fl : Flags} {v : Int}
    (hv : SizeRuns G fl sel i v fl) (fl' : Flags) :
    nd'.plainKids = [] ∧ (∀ pool, nd' ≠ .picker pool) ∧ SizeRuns H fl' sel j v fl' := by
  have e : nd'.plainKids = [] ∧ (∀ pool, nd' ≠ .picker pool) ∧ ∀ n, (sizeQ H (n + 1) sel j) = sizeQ G (n + 1) sel i := by
    cases h with
    | single h =>
      refine ⟨hk, hp, fun n => ?_⟩
      unfold sizeQ
      rw [hG, hH]
      cases nd <;> first | rfl | cases h
    | vec => cases hk
    | set join unb h =>
      dsimp only [Node.plainKids] at hk
      subst hk
      cases h
      refine ⟨rfl, (fun _ hh => nomatch hh), fun n => ?_⟩
      unfold sizeQ
      rw [hG, hH]
      rfl
    | seq join unb h =>
      dsimp only [Node.plainKids] at hk
      subst hk
      cases h
      refine ⟨rfl, (fun _ hh => nomatch hh), fun n => ?_⟩
      unfold sizeQ
      rw [hG, hH]
      rfl
    | unary => cases hk
    | lottery rec4 osz smin smax =>
      refine ⟨rfl, (fun _ hh => nomatch hh), fun n => ?_⟩
      unfold sizeQ
      rw [hG, hH]
    | picker => exact absurd rfl (hp _)
  refine ⟨e.1, e.2.1, leaf_size hH e.1 e.2.1 (fl := fl) ?_ fl'⟩
  obtain ⟨N, hv⟩ := hv
  exact SizeRuns.intro (n := N + 1) (by rw [e.2.2]; exact hv _ (by omega))

theorem picker_flags {p i : Id} (h : ((Flags.init.setIn i true) p).inRec = true) : p = i := by
  unfold Flags.setIn at h
  by_contra hc
  rw [if_neg hc] at h
  cases h

section
variable {G H : Graph}

/-- A picker is unbounded only if something in its pool is. -/
theorem PickerGrammar.unbounded_pool (hg : PickerGrammar G) {i : Id} {pool : List Id} (hG : G i = some (.picker pool))
    (h : mxv G Flags.init i = -1) : ∃ j ∈ pool, mxv G Flags.init j = -1 := by
  rcases hg.picker_max hG (fl := Flags.init) rfl rfl with ⟨⟨j, hj, e⟩, _⟩ | ⟨_, h', _⟩
  · refine ⟨j, hj, ?_⟩
    rw [← e]
    refine (hg.max_same Flags.init j _ (FlLe.to_setIn _ i) ?_ (hg.closed i _ hG j (.inr hj))).symm
    intro p hp _ _
    rw [picker_flags hp]; exact h
  · exact absurd h h'

/-- The sizes of a picker that is not unbounded come from those of its pool. -/
theorem PickerGrammar.bounded_pool (hg : PickerGrammar G) {i : Id} {pool : List Id} (hG : G i = some (.picker pool))
    (h : mxv G Flags.init i ≠ -1) : (∀ j ∈ pool, mxv G Flags.init j ≠ -1) ∧
      (∃ r, (∀ j ∈ pool, mxv G Flags.init j ≤ r) ∧ (r = 0 ∨ ∃ j ∈ pool, r = mxv G Flags.init j) ∧ 0 ≤ r ∧
        mxv G Flags.init i = wrap32 (r + 2)) ∧
      ∃ r, r ≤ INT_MAX / 2 ∧ (∀ j ∈ pool, r ≤ mnv G Flags.init j) ∧
        (r = INT_MAX / 2 ∨ ∃ j ∈ pool, r = mnv G Flags.init j) ∧
        mnv G Flags.init i = if r = INT_MAX / 2 then INT_MAX / 2 else r + 2 := by
  rcases hg.picker_max hG (fl := Flags.init) rfl rfl with ⟨_, h'⟩ | ⟨h1, _, r, h2, h3, h4, h5⟩
  · exact absurd h' h
  have e : ∀ j ∈ pool, mnv G Flags.init j = mnv G (Flags.init.setIn i true) j ∧
      mxv G Flags.init j = mxv G (Flags.init.setIn i true) j := fun j hj =>
    (hg.dichotomy Flags.init j _ (FlLe.to_setIn _ i) (hg.closed i _ hG j (.inr hj))).resolve_left (h1 j hj)
  obtain ⟨q, _, g1, g2, g3, g4⟩ := hg.picker_min hG (fl := Flags.init) rfl
  refine ⟨fun j hj => by rw [(e j hj).2]; exact h1 j hj, ⟨r, fun j hj => by rw [(e j hj).2]; exact h2 j hj, ?_, h4, h5⟩,
    q, g1, fun j hj => by rw [(e j hj).1]; exact g2 j hj, ?_, g4⟩
  · rcases h3 with h3 | ⟨j, hj, h3⟩
    · exact .inl h3
    · exact .inr ⟨j, hj, by rw [(e j hj).2]; exact h3⟩
  · rcases g3 with g3 | ⟨j, hj, g3⟩
    · exact .inl g3
    · exact .inr ⟨j, hj, by rw [(e j hj).1]; exact g3⟩

/-- Pickers over pickers over leaves, none of them unbounded. -/
inductive BoundedTree (G : Graph) : Id → Prop where
  | leaf {i nd} : G i = some nd → nd.plainKids = [] → (∀ pool, nd ≠ .picker pool) → mxv G Flags.init i ≠ -1 → BoundedTree G i
  | pick {i pool} : G i = some (.picker pool) → mxv G Flags.init i ≠ -1 → (∀ j ∈ pool, BoundedTree G j) → BoundedTree G i

theorem PickerGrammar.tree (hg : PickerGrammar G) {i : Id} (hn : G i ≠ none) (h : mxv G Flags.init i ≠ -1) : BoundedTree G i := by
  have main : ∀ fl i, G i ≠ none → mxv G fl i ≠ -1 → FlLe Flags.init fl → BoundedTree G i := by
    intro fl i
    refine hg.guarded.induction (C := fun fl i => G i ≠ none → mxv G fl i ≠ -1 → FlLe Flags.init fl → BoundedTree G i) ?_ fl i
    clear fl i hn h
    intro fl i _ hk hn h hle
    rcases hG : G i with _ | nd
    · exact absurd hG hn
    have h0 : mxv G Flags.init i ≠ -1 := fun e => h (hg.max_mono hle hn e)
    by_cases hkids : nd.plainKids = []
    swap
    · exact absurd (hg.not_leaf_max hG hkids _) h
    by_cases hpk : ∀ pool, nd ≠ .picker pool
    · exact .leaf hG hkids hpk h0
    obtain ⟨pool, rfl⟩ : ∃ pool, nd = .picker pool := by simpa using hpk
    have hf0 : (fl i).inRec = false := by
      by_contra hc
      exact h (mxv_eq (max_picker_in hG (by simp at hc; simp [hc])))
    have hr0 : (fl i).isRec = false := by
      by_contra hc
      exact h (mxv_eq (max_picker_in hG (by simp at hc; simp [hc])))
    rcases hg.picker_max hG hf0 hr0 with ⟨_, h'⟩ | ⟨hx, _⟩
    · exact absurd h' h
    · exact .pick hG h0 fun j hj => hk pool hG hf0 j (hg.closed i _ hG j (.inr hj)) (hx j hj) (hle.trans (FlLe.to_setIn fl i))
  exact main Flags.init i hn h fun _ => ⟨rfl, id⟩

theorem fold_two {R : Id → Id → Prop} {cs ds : List Id} (hR : SameMembers R cs ds) {f g : Id → Int}
    (h : ∀ c ∈ cs, ∀ d ∈ ds, R c d → f c = g d) {T r r' : Int}
    (h1 : r ≤ T) (h2 : ∀ j ∈ cs, r ≤ f j) (h3 : r = T ∨ ∃ j ∈ cs, r = f j)
    (h1' : r' ≤ T) (h2' : ∀ j ∈ ds, r' ≤ g j) (h3' : r' = T ∨ ∃ j ∈ ds, r' = g j) : r = r' := by
  apply le_antisymm
  · rcases h3' with e | ⟨d, hd, e⟩
    · omega
    · obtain ⟨c, hc, hcd⟩ := hR.2 d hd
      have := h2 c hc
      have := h c hc d hd hcd
      omega
  · rcases h3 with e | ⟨c, hc, e⟩
    · omega
    · obtain ⟨d, hd, hcd⟩ := hR.1 c hc
      have := h2' d hd
      have := h c hc d hd hcd
      omega

theorem fold_two' {R : Id → Id → Prop} {cs ds : List Id} (hR : SameMembers R cs ds) {f g : Id → Int}
    (h : ∀ c ∈ cs, ∀ d ∈ ds, R c d → f c = g d) {T r r' : Int}
    (h1 : T ≤ r) (h2 : ∀ j ∈ cs, f j ≤ r) (h3 : r = T ∨ ∃ j ∈ cs, r = f j)
    (h1' : T ≤ r') (h2' : ∀ j ∈ ds, g j ≤ r') (h3' : r' = T ∨ ∃ j ∈ ds, r' = g j) : r = r' := by
  apply le_antisymm
  · rcases h3 with e | ⟨c, hc, e⟩
    · omega
    · obtain ⟨d, hd, hcd⟩ := hR.1 c hc
      have := h2' d hd
      have := h c hc d hd hcd
      omega
  · rcases h3' with e | ⟨d, hd, e⟩
    · omega
    · obtain ⟨c, hc, hcd⟩ := hR.2 d hd
      have := h2 c hc
      have := h c hc d hd hcd
      omega

variable {R : Id → Id → Prop}

theorem same_bounded (hg : PickerGrammar G) (hh : PickerGrammar H) (hM : Loosely G H R) {i : Id} (ht : BoundedTree G i) :
    ∀ j, R i j → mnv G Flags.init i = mnv H Flags.init j ∧ mxv G Flags.init i = mxv H Flags.init j := by
  induction ht with
  | @leaf i nd hG hk hp h =>
    intro j hij
    obtain ⟨nd', hH, hm⟩ := hM.some_left hij hG
    have hn : G i ≠ none := by rw [hG]; simp
    exact ⟨(mnv_eq (leaf_match hG hH hm hk hp (hg.hasMin hn _) _).2.2).symm,
      (mxv_eq (leaf_match hG hH hm hk hp (hg.hasMax hn _) _).2.2).symm⟩
  | @pick i pool hG h _ ih =>
    intro j hij
    obtain ⟨nd', hH, hm⟩ := hM.some_left hij hG
    cases hm with
    | single hs => cases hs
    | @picker _ ds hl =>
      obtain ⟨g1, ⟨r, g2, g3, g4, g5⟩, q, g6, g7, g8, g9⟩ := hg.bounded_pool hG h
      have hx : mxv H Flags.init j ≠ -1 := by
        intro e
        obtain ⟨d, hd, e'⟩ := hh.unbounded_pool hH e
        obtain ⟨c, hc, hcd⟩ := hl.2 d hd
        exact g1 c hc ((ih c hc d hcd).2.trans e')
      obtain ⟨_, ⟨r', k2, k3, k4, k5⟩, q', k6, k7, k8, k9⟩ := hh.bounded_pool hH hx
      constructor
      · rw [g9, k9, fold_two hl (fun c hc d _ hcd => (ih c hc d hcd).1) g6 g7 g8 k6 k7 k8]
      · rw [g5, k5, fold_two' hl (fun c hc d _ hcd => (ih c hc d hcd).2) g4 g2 g3 k4 k2 k3]

theorem same_max (hg : PickerGrammar G) (hh : PickerGrammar H) (hM : Loosely G H R) {i j : Id} (hij : R i j) (hn : G i ≠ none) :
    mxv G Flags.init i = mxv H Flags.init j ∧ (mxv G Flags.init i ≠ -1 → mnv G Flags.init i = mnv H Flags.init j) := by
  by_cases h : mxv G Flags.init i = -1
  · refine ⟨?_, fun h' => absurd h h'⟩
    by_cases h' : mxv H Flags.init j = -1
    · rw [h, h']
    · have hn' : H j ≠ none := by
        obtain ⟨nd, hG⟩ := Option.ne_none_iff_exists'.1 hn
        obtain ⟨nd', hH, _⟩ := hM.some_left hij hG
        rw [hH]; simp
      exact (same_bounded hh hg hM.flip (hh.tree hn' h') i hij).2.symm
  · have := same_bounded hg hh hM (hg.tree hn h) j hij
    exact ⟨this.2, fun _ => this.1⟩

theorem derives_copy (hg : PickerGrammar G) (hh : PickerGrammar H) (hM : Loosely G H R) {i : Id} {k : Int}
    (h : Derives G Flags.init i k) : ∀ j, R i j → Derives H Flags.init j k := by
  induction h with
  | @leaf i nd k hG hk hp hv =>
    intro j hij
    obtain ⟨nd', hH, hm⟩ := hM.some_left hij hG
    obtain ⟨h1, h2, h3⟩ := leaf_match hG hH hm hk hp hv Flags.init
    exact .leaf hH h1 h2 h3
  | @vec i c join mn mx k hG hmn hmx _ ih =>
    intro j hij
    obtain ⟨nd', hH, hm⟩ := hM.some_left hij hG
    cases hm with
    | single hs => cases hs
    | @vec _ d _ hcd =>
      have hc : G c ≠ none := hg.closed i _ hG c (.inl (by simp [Node.plainKids]))
      have hd : H d ≠ none := hh.closed j _ hH d (.inl (by simp [Node.plainKids]))
      obtain ⟨e1, e2⟩ := same_max hg hh hM hcd hc
      have b1 := (hg.mn_bounds hc Flags.init).1
      have b2 := (hh.mn_bounds hd Flags.init).1
      rw [mxv_eq hmx] at e1 e2
      rw [mnv_eq hmn] at e2 b1
      have : enumOverhead mn mx = enumOverhead (mnv H Flags.init d) (mxv H Flags.init d) := by
        rw [← e1]
        by_cases hx : mx = -1
        · subst hx
          unfold enumOverhead
          rw [if_neg (show ¬ mn = -1 by omega), if_neg (show ¬ mnv H Flags.init d = -1 by omega)]
        · rw [← e2 hx]
      rw [this]
      exact .vec hH (hh.hasMin hd _) (hh.hasMax hd _) (ih d hcd)
  | @unary i c op k hG _ ih =>
    intro j hij
    obtain ⟨nd', hH, hm⟩ := hM.some_left hij hG
    cases hm with
    | single hs => cases hs
    | unary _ hcd => exact .unary hH (ih _ hcd)
  | @seq i cs join unb ks hG hne _ ih =>
    intro j hij
    obtain ⟨nd', hH, hm⟩ := hM.some_left hij hG
    cases hm with
    | single hs => cases hs
    | @seq _ ds _ _ hl =>
      have hlen := hl.length_eq
      have e : ∑ t, ks t = ∑ t : Fin ds.length, ks (t.cast hlen.symm) :=
        (Fintype.sum_equiv (finCongr hlen.symm) _ _ fun t => rfl).symm
      rw [e]
      refine .seq hH (by rintro rfl; exact hne (List.length_eq_zero_iff.1 hlen)) fun t => ?_
      exact ih (t.cast hlen.symm) _ (hl.get (t.cast hlen.symm).isLt t.isLt)
  | @pick i pool c k hG hc _ ih =>
    intro j hij
    obtain ⟨nd', hH, hm⟩ := hM.some_left hij hG
    cases hm with
    | single hs => cases hs
    | picker hl =>
      obtain ⟨d, hd, hcd⟩ := hl.1 c hc
      exact .pick hH hd (ih d hcd)

theorem least_is_min (hg : PickerGrammar G) {i : Id} {k : Int} (hd : Derives G Flags.init i k) (hk : k < INT_MAX / 2) :
    IsLeast {k | Derives G Flags.init i k} (mnv G Flags.init i) := by
  have hi : Idle Flags.init := fun _ => rfl
  have hn : G i ≠ none := by cases hd <;> simp_all
  obtain ⟨h1, h2⟩ := hg.exact_general (fl0 := Flags.init) Flags.init i (fun _ => ⟨rfl, id⟩)
    (fun p hp1 hp2 _ => by rw [hp2] at hp1; cases hp1) hn
  have hle := h2 k hk (hd.avoid hi)
  refine ⟨h1 (by omega), ?_⟩
  intro k' hd'
  by_cases hk' : k' < INT_MAX / 2
  · exact h2 k' hk' (Derives.avoid hi hd')
  · omega

theorem same_min (hg : PickerGrammar G) (hh : PickerGrammar H) (hM : Loosely G H R) {i j : Id} (hij : R i j) {k : Int}
    (hd : Derives G Flags.init i k) (hk : k < INT_MAX / 2) : mnv G Flags.init i = mnv H Flags.init j := by
  have h1 := least_is_min hg hd hk
  have h2 := least_is_min hh (derives_copy hg hh hM hd j hij) hk
  exact le_antisymm (h1.2 (derives_copy hh hg hM.flip h2.1 i hij)) (h2.2 (derives_copy hg hh hM h1.1 j hij))

end

end BS
