import Verif.Lemmas.SizeBound
import Verif.Props.Picker
import Mathlib.Order.Bounds.Basic

/-!
# Recursive grammars: sizes and flags (C31 to C35)
-/

namespace BS
open scoped BigOperators

/-! ## C34: the minimum of a picker grammar -/

/-- **C34.** In a grammar of leaves, lotteries, enumerators, text joins, unary operators, hash
elements and pickers, however cyclic, `minSize()` asked from outside is the least cost of a derivation,
as soon as some derivation costs less than half of `INT_MAX`. -/
theorem C34_least_derivation {G : Graph} (hg : PickerGrammar G) {fl : Flags} (hi : Idle fl) {i : Id}
    (hex : ∃ k, Derives G fl i k ∧ k < INT_MAX / 2) :
    ∃ v, HasMin G fl i v ∧ IsLeast {k | Derives G fl i k} v := by
  obtain ⟨k, hd, hk⟩ := hex
  have hn : G i ≠ none := by cases hd <;> simp_all
  obtain ⟨h1, h2⟩ := hg.exact_general (fl0 := fl) fl i (fun _ => ⟨rfl, id⟩)
    (fun p hp1 hp2 _ => by rw [hp2] at hp1; cases hp1) hn
  have hle := h2 k hk (hd.avoid hi)
  refine ⟨mnv G fl i, hg.hasMin hn fl, h1 (by omega), ?_⟩
  intro k' hd'
  by_cases hk' : k' < INT_MAX / 2
  · exact h2 k' hk' (Derives.avoid hi hd')
  · omega

/-- **C34** for grammars of single-child stamps: their size queries need no further assumption. -/
theorem C34_single_child {G : Graph} (hg : SingleChild G) {fl : Flags} (hi : Idle fl) {i : Id}
    (hex : ∃ k, Derives G fl i k ∧ k < INT_MAX / 2) :
    ∃ v, HasMin G fl i v ∧ IsLeast {k | Derives G fl i k} v :=
  C34_least_derivation hg.grammar hi hex

/-- A minimum below half of `INT_MAX` is reached by a derivation. -/
theorem C34_converse {G : Graph} (hg : PickerGrammar G) {fl : Flags} {i : Id} {v : Int}
    (hm : HasMin G fl i v) (hv : v < INT_MAX / 2) : Derives G fl i v := by
  have hn : G i ≠ none := by
    intro h
    obtain ⟨N, hN⟩ := hm
    have := hN (N + 1) (by omega)
    unfold sizeQ at this
    rw [h] at this; cases this
  have h1 := (hg.exact_general (fl0 := fl) fl i (fun _ => ⟨rfl, id⟩)
    (fun p hp1 hp2 _ => by rw [hp2] at hp1; cases hp1) hn).1
  rw [mnv_eq hm] at h1
  exact h1 hv

/-! ## C31: pickers of picker grammars -/

theorem pool_sizes {G : Graph} (hg : PickerGrammar G) {i : Id} {pool : List Id}
    (hG : G i = some (.picker pool)) (fl : Flags) :
    PoolSizes G fl pool (mnv G fl) (mxv G fl) := by
  have hc : ∀ j ∈ pool, G j ≠ none := fun j hj => hg.closed i _ hG j (Or.inr hj)
  refine ⟨fun j hj => ⟨hg.hasMin (hc j hj) fl, hg.mn_bounds (hc j hj) fl⟩, fun j hj =>
    ⟨hg.hasMax (hc j hj) fl, ?_⟩⟩
  have := hg.mx_bounds (hc j hj) fl
  omega

/-- **C31** for picker grammars, in terms of the picker's own `minSize()`: on a blob of at least that
many bytes it hands what follows its oracle to a pool stamp that fits, and to one that can take all of
it if there is such a stamp; on a shorter blob it throws `OutOfData`. It never aborts. -/
theorem C31_picker_partial {G : Graph} (hg : PickerGrammar G) {i : Id} {pool : List Id}
    (hG : G i = some (.picker pool)) (hlen : pool.length ≤ 2 ^ 53) {fl : Flags} (hi : Idle fl)
    {mp : Int} (hmp : HasMin G fl i mp) (hsmall : mp < INT_MAX / 2) (bs : Bytes) :
    (mp ≤ bs.length → ∃ j ∈ pool, ∃ m mx, HasMin G fl j m ∧ HasMax G fl j mx ∧ m + 2 ≤ bs.length ∧
      ((∃ k ∈ pool, ∃ m' mx', HasMin G fl k m' ∧ HasMax G fl k mx' ∧ m' + 2 ≤ bs.length ∧
        (mx' = -1 ∨ (bs.length : Int) ≤ mx' + 2)) → mx = -1 ∨ (bs.length : Int) ≤ mx + 2) ∧
      Delegates G fl i bs j (bs.drop 2)) ∧
    ((bs.length : Int) < mp → ∀ b, Reachable b → Holds b bs →
      Throws G fl i b (if bs.length < 2 then bs else bs.drop 2)) := by
  have hs := pool_sizes hg hG fl
  have hd := C34_converse hg hmp hsmall
  have hle : FlLe fl fl := fun _ => ⟨rfl, id⟩
  constructor
  · intro hl
    obtain ⟨j, k, hj, hdj, e⟩ : ∃ j k, j ∈ pool ∧ Derives G fl j k ∧ mp = k + 2 := by
      cases hd with
      | leaf h1 _ h3 => rw [h1] at hG; cases hG; exact absurd rfl (h3 _)
      | vec h1 => rw [h1] at hG; cases hG
      | unary h1 => rw [h1] at hG; cases hG
      | seq h1 => rw [h1] at hG; cases hG
      | pick h1 h2 h3 => rw [h1] at hG; cases hG; exact ⟨_, _, h2, h3, rfl⟩
    have hjm : mnv G fl j ≤ k := (hg.exact_general (fl0 := fl) fl j hle
      (fun p hp1 hp2 _ => by rw [hp2] at hp1; cases hp1)
      (hg.closed i _ hG j (Or.inr hj))).2 k (by omega) (hdj.avoid hi)
    obtain ⟨j', hj', h1, h2, h3⟩ := C31_picks_fitting hG hs hlen (bs := bs) ⟨j, hj, by omega⟩
    refine ⟨j', hj', _, _, (hs.min j' hj').1, (hs.max j' hj').1, h1, ?_, h3⟩
    rintro ⟨q, hq, m', mx', q1, q2, q3, q4⟩
    exact h2 ⟨q, hq, by rw [mnv_eq q1]; exact q3, by rw [mxv_eq q2]; exact q4⟩
  · intro hl b hr hh
    refine C31_short_throws hG hs hmp (by omega) hr hh ?_ (by omega)
    intro j hj
    by_contra hc
    have hjn := hg.closed i _ hG j (Or.inr hj)
    have hdj := (hg.exact_general (fl0 := fl) fl j hle
      (fun p hp1 hp2 _ => by rw [hp2] at hp1; cases hp1) hjn).1 (by omega)
    have hle' := (hg.exact_general (fl0 := fl) fl i hle
      (fun p hp1 hp2 _ => by rw [hp2] at hp1; cases hp1) (by rw [hG]; simp)).2 _ (by omega)
      (Derives.avoid hi (.pick hG hj hdj))
    rw [mnv_eq hmp] at hle'
    omega

/-! ## C32: size queries and extractions leave no trace -/

/-- **C32.** After any history of size queries and of extractions that returned or threw `OutOfData`,
all flags are as before; so whatever a query or extraction gave before, it gives again. -/
theorem C32_no_trace {G : Graph} {fl fl' : Flags} (h : Calls G fl fl') :
    fl' = fl ∧ (∀ sel i v, SizeRuns G fl sel i v fl → SizeRuns G fl' sel i v fl') ∧
    (∀ i (b b' : Blob) o, Extracts G fl i b o fl b' → Extracts G fl' i b o fl' b') := by
  have e : fl' = fl := by
    induction h with
    | refl => rfl
    | size _ h ih => exact (SizeRuns.flags h).trans ih
    | extract _ h ih => exact (Extracts.flags h (Or.inl ⟨_, rfl⟩)).trans ih
    | throw _ h ih => exact (Extracts.flags h (Or.inr rfl)).trans ih
  rw [e]
  exact ⟨rfl, fun _ _ _ h => h, fun _ _ _ _ h => h⟩

/-- A picker over a user-written recursive stamp of two to five bytes. -/
def flagExample : Graph
  | 0 => some (.picker [1])
  | 1 => some (.user ⟨2, 5, true, fun _ => (.ok [], 2)⟩)
  | _ => none

/-- `isRecursive()`, unlike the queries of C32, does leave a trace: it changes what `maxSize()`
returns from then on. -/
theorem isRecursive_leaves_trace :
    HasMax flagExample Flags.init 0 7 ∧ IsRecRuns flagExample Flags.init 0 true (Flags.init.setRec 0) ∧
    HasMax flagExample (Flags.init.setRec 0) 0 (-1) := by
  refine ⟨SizeRuns.intro (n := 3) ?_, ⟨3, fun n hn => ?_⟩, SizeRuns.intro (n := 3) ?_⟩
  · have h : (sizeQ flagExample 3 .max 0 Flags.init).1 = .ok 7 := by decide +kernel
    exact Prod.ext h ((keeps_sizeQ flagExample 3 .max 0 Flags.init).2.2 7 _ (Prod.ext h rfl))
  · obtain ⟨k, rfl⟩ : ∃ k, n = k + 2 := ⟨n - 2, by omega⟩
    have : isRecQ flagExample (k + 2) 0 Flags.init =
        (.ok true, ((Flags.init.setIn 0 true).setRec 0).setIn 0 false) := rfl
    rw [this]
    congr 1
    funext j
    unfold Flags.setIn Flags.setRec
    by_cases hj : j = 0 <;> simp [hj, Flags.init]
  · have h : (sizeQ flagExample 3 .max 0 (Flags.init.setRec 0)).1 = .ok (-1) := by decide +kernel
    exact Prod.ext h ((keeps_sizeQ flagExample 3 .max 0 (Flags.init.setRec 0)).2.2 _ _ (Prod.ext h rfl))

/-! ## C33: size queries end -/

/-- **C33**, partial: on every finite graph whose cycles all pass through pickers or lotteries a size
query ends. What is missing is that it ends with a value: see `C33_violated`. -/
theorem C33_ends_partial {G : Graph} (h : Guarded G) (fl : Flags) (sel : Sel) (i : Id) :
    (∃ v, SizeRuns G fl sel i v fl) ∨ SizeUndefined G fl sel i := by
  obtain ⟨N, hN⟩ := h.ends fl i sel
  have hk := keeps_sizeQ G N sel i fl
  have hst : ∀ n ≥ N, sizeQ G n sel i fl = sizeQ G N sel i fl := fun n hn =>
    sizeQ_stable hn (hN N (le_refl _))
  rcases hm : sizeQ G N sel i fl with ⟨o, fl'⟩
  rw [hm] at hk
  cases o with
  | ok v =>
    obtain rfl := hk.2.2 v fl' rfl
    exact Or.inl ⟨v, N, fun n hn => by rw [hst n hn, hm]⟩
  | outOfData => exact absurd rfl hk.1
  | abort => exact absurd rfl hk.2.1
  | ub r => exact Or.inr ⟨N, r, fun n hn => by rw [hst n hn, hm]⟩
  | fuel => exact absurd (show (sizeQ G N sel i fl).1 = .fuel by rw [hm]) (hN N (le_refl _))

/-- **C33** for grammars of single-child stamps and pickers: size queries return. -/
theorem C33_single_child {G : Graph} (h : SingleChild G) (fl : Flags) (sel : Sel) {i : Id}
    (hi : G i ≠ none) : ∃ v, SizeRuns G fl sel i v fl := by
  cases sel with
  | min => exact ⟨_, h.grammar.hasMin hi fl⟩
  | max => exact ⟨_, h.grammar.hasMax hi fl⟩

/-- A picker of numbers and of sums of two lists of what the picker makes. -/
def sumGraph : Graph
  | 0 => some (.picker [1, 2])
  | 1 => some (.arith .u8)
  | 2 => some (.binary [43] 3 3)
  | 3 => some (.enumerator 0 [44] [91] [93])
  | _ => none

/-- The direct sum: a picker of numbers and of sums of two things the picker makes. -/
def sumGraph2 : Graph
  | 0 => some (.picker [1, 2])
  | 1 => some (.arith .u8)
  | 2 => some (.binary [43] 0 0)
  | _ => none

theorem acyclic_of_rank {G : Graph} (r : Id → Nat) (h : ∀ i j, PlainEdge G i j → r j < r i) (i : Id) :
    ¬ Relation.TransGen (PlainEdge G) i i := by
  have : ∀ a b, Relation.TransGen (PlainEdge G) a b → r b < r a := by
    intro a b hab
    induction hab with
    | single h' => exact h _ _ h'
    | tail _ h' ih => exact lt_trans (h _ _ h') ih
  exact fun hc => absurd (this i i hc) (lt_irrefl _)

theorem sumGraph_guarded : Guarded sumGraph := by
  refine ⟨⟨4, ?_⟩, acyclic_of_rank (fun i => if i = 2 then 2 else if i = 3 then 1 else 0) ?_⟩
  · intro i hi
    match i, hi with
    | (n + 4), _ => rfl
  · rintro i j ⟨nd, hG, hj⟩
    match i with
    | 0 => cases hG; cases hj
    | 1 => cases hG; cases hj
    | 2 => cases hG; simp [Node.binary, Node.plainKids] at hj; subst hj; simp
    | 3 => cases hG; simp [Node.enumerator, Node.plainKids] at hj; subst hj; simp
    | (n + 4) => cases hG

/-- **C33 is violated** by a binary operator over recursive lists: with the picker under way each list
asks for `INT_MAX / 2 + 4` bytes, and the sum of two such sizes overflows `int`. -/
theorem C33_violated : Guarded sumGraph ∧ SizeUndefined sumGraph Flags.init .min 0 := by
  refine ⟨sumGraph_guarded, 5, .intOverflow, fun n hn => ?_⟩
  have h5 : (sizeQ sumGraph 5 .min 0 Flags.init).1 = .ub .intOverflow := by decide +kernel
  rw [sizeQ_stable hn (by rw [h5]; simp), h5]

/-- The plain recursive sum is no better: `minSize()` of the picker is a negative number, and
`minSize()` of the sum itself overflows. -/
theorem sum_min_negative : HasMin sumGraph2 Flags.init 0 (-2147483644) ∧
    SizeUndefined sumGraph2 Flags.init .min 2 := by
  have h : (sizeQ sumGraph2 5 .min 0 Flags.init).1 = .ok (-2147483644) := by decide +kernel
  have h5 : (sizeQ sumGraph2 5 .min 2 Flags.init).1 = .ub .intOverflow := by decide +kernel
  exact ⟨SizeRuns.intro (n := 5)
    (Prod.ext h ((keeps_sizeQ sumGraph2 5 .min 0 Flags.init).2.2 _ _ (Prod.ext h rfl))),
    5, .intOverflow, fun n hn => by rw [sizeQ_stable hn (by rw [h5]; simp), h5]⟩

/-! ## The JSON grammar as an example -/

theorem jsonGraph_guarded : Guarded jsonGraph := by
  refine ⟨⟨8, ?_⟩, acyclic_of_rank (fun i => [0, 0, 0, 0, 1, 3, 2, 0].getD i 0) ?_⟩
  · intro i hi
    match i, hi with
    | (n + 8), _ => rfl
  · rintro i j ⟨nd, hG, hj⟩
    match i with
    | 0 => cases hG; cases hj
    | 1 => cases hG; cases hj
    | 2 => cases hG; cases hj
    | 3 => cases hG; cases hj
    | 4 => cases hG; simp [Node.enumerator, Node.plainKids] at hj; subst hj; simp
    | 5 => cases hG; simp [Node.enumerator, Node.plainKids] at hj; subst hj; simp
    | 6 => cases hG; simp [Node.hashEl, Node.plainKids] at hj; rcases hj with rfl | rfl <;> simp
    | 7 => cases hG; cases hj
    | (n + 8) => cases hG

theorem jsonGraph_ne {i : Nat} (h : i < 8) : jsonGraph i ≠ none := by
  match i, h with
  | 0, _ | 1, _ | 2, _ | 3, _ | 4, _ | 5, _ | 6, _ | 7, _ => simp [jsonGraph]

/-- Largest minimum sizes the JSON stamps report while the picker is under way. -/
def jsonBound (i : Id) : Int :=
  [1073741824, 8, 8, 8, 1073741828, 1073741836, 1073741832, 8].getD i 0

theorem hasSize_eval {G : Graph} {fl : Flags} {sel : Sel} {i : Id} {v : Int} (n : Nat)
    (h : (sizeQ G n sel i fl).1 = .ok v) : SizeRuns G fl sel i v fl :=
  SizeRuns.intro (n := n) (Prod.ext h ((keeps_sizeQ G n sel i fl).2.2 _ _ (Prod.ext h rfl)))

theorem jsonGraph_bound : SizeBound jsonGraph jsonBound := by
  refine ⟨⟨8, by norm_num, ?_⟩, ?_, ?_, ?_, ?_, ?_, ?_⟩
  · intro i hi
    match i, hi with
    | (n + 8), _ => rfl
  · intro i nd hG hk hp
    match i with
    | 0 => cases hG; exact absurd rfl (hp _)
    | 1 => exact ⟨8, 8, hasSize_eval 1 rfl, hasSize_eval 1 rfl, by norm_num, by norm_num, by decide, by norm_num, by norm_num⟩
    | 2 => exact ⟨8, 8, hasSize_eval 1 rfl, hasSize_eval 1 rfl, by norm_num, by norm_num, by decide, by norm_num, by norm_num⟩
    | 3 => exact ⟨8, 8, hasSize_eval 1 rfl, hasSize_eval 1 rfl, by norm_num, by norm_num, by decide, by norm_num, by norm_num⟩
    | 4 => cases hG; cases hk
    | 5 => cases hG; cases hk
    | 6 => cases hG; cases hk
    | 7 => exact ⟨8, 8, hasSize_eval 1 rfl, hasSize_eval 1 rfl, by norm_num, by norm_num, by decide, by norm_num, by norm_num⟩
    | (n + 8) => cases hG
  · intro i _
    match i with
    | 0 | 1 | 2 | 3 | 4 | 5 | 6 | 7 => decide
    | (n + 8) => exact absurd rfl ‹_›
  · intro i c join hG
    match i with
    | 0 | 1 | 2 | 3 | 6 | 7 => cases hG
    | 4 => cases hG; decide
    | 5 => cases hG; decide
    | (n + 8) => cases hG
  · intro i c op hG
    match i with
    | 0 | 1 | 2 | 3 | 4 | 5 | 6 | 7 => cases hG
    | (n + 8) => cases hG
  · intro i cs join unb hG
    match i with
    | 0 | 1 | 2 | 3 | 4 | 5 | 7 => cases hG
    | 6 => cases hG; decide
    | (n + 8) => cases hG
  · intro i pool hG
    match i with
    | 0 => decide
    | 1 | 2 | 3 | 4 | 5 | 6 | 7 => cases hG
    | (n + 8) => cases hG

theorem jsonGraph_grammar : PickerGrammar jsonGraph := by
  refine PickerGrammar.of_bound (U := jsonBound) jsonGraph_guarded ?_ ?_ ?_ jsonGraph_bound
  · intro i nd hG j hj
    match i with
    | 0 =>
      cases hG
      rcases hj with hj | hj
      · cases hj
      · simp only [Node.choices, List.mem_cons, List.not_mem_nil, or_false] at hj
        rcases hj with rfl | rfl | rfl | rfl | rfl <;> exact jsonGraph_ne (by norm_num)
    | 1 => cases hG; rcases hj with hj | hj <;> cases hj
    | 2 => cases hG; rcases hj with hj | hj <;> cases hj
    | 3 => cases hG; rcases hj with hj | hj <;> cases hj
    | 4 =>
      cases hG
      rcases hj with hj | hj
      · simp [Node.enumerator, Node.plainKids] at hj; subst hj; exact jsonGraph_ne (by norm_num)
      · cases hj
    | 5 =>
      cases hG
      rcases hj with hj | hj
      · simp [Node.enumerator, Node.plainKids] at hj; subst hj; exact jsonGraph_ne (by norm_num)
      · cases hj
    | 6 =>
      cases hG
      rcases hj with hj | hj
      · simp [Node.hashEl, Node.plainKids] at hj
        rcases hj with rfl | rfl <;> exact jsonGraph_ne (by norm_num)
      · cases hj
    | 7 => cases hG; rcases hj with hj | hj <;> cases hj
    | (n + 8) => cases hG
  · intro i cs join unb hG
    match i with
    | 0 | 1 | 2 | 3 | 4 | 5 | 6 | 7 => cases hG
    | (n + 8) => cases hG
  · intro i cs join unb hG
    match i with
    | 0 | 1 | 2 | 3 | 4 | 5 | 7 => cases hG
    | 6 => cases hG; rfl
    | (n + 8) => cases hG

theorem init_idle : Idle Flags.init := fun _ => rfl

/-- C34 and C31 apply to `StampJSON`: its minimum is 10, the cost of deriving a number. -/
example : Derives jsonGraph Flags.init 0 10 ∧ HasMin jsonGraph Flags.init 0 10 ∧
    HasMin jsonGraph Flags.init 5 22 :=
  ⟨.pick (pool := [1, 2, 3, 4, 5]) (j := 1) (k := 8) rfl (by simp)
    (.leaf (nd := .arith .i64) rfl rfl (by simp) (hasSize_eval 1 rfl)),
    hasSize_eval 9 (by decide +kernel), hasSize_eval 9 (by decide +kernel)⟩

/-! ## C35: isRecursive -/

/-- Object `q` is a picker marked as recursive or under way, or another stamp that declares itself
recursive. -/
def Marked (G : Graph) (fl : Flags) (q : Id) : Prop :=
  (∃ pool, G q = some (.picker pool) ∧ ((fl q).isRec = true ∨ (fl q).inRec = true)) ∨
    ∃ u, G q = some (.user u) ∧ u.recursive = true

theorem isRecLoop_run {q : Id → M Flags Bool} {fl : Flags} :
    ∀ {l : List Id}, (∀ i ∈ l, ∃ r fl', q i fl = (.ok r, fl') ∧ (r = false → fl' = fl)) →
      ∃ r fl', isRecLoop q l fl = (.ok r, fl') ∧ (r = false → fl' = fl) ∧
        ((∃ i ∈ l, ∃ fl', q i fl = (.ok true, fl')) ↔ r = true) ∧
        (r = true → ∃ i ∈ l, q i fl = (.ok true, fl'))
  | [], _ => ⟨false, fl, rfl, fun _ => rfl, by simp, by simp⟩
  | i :: is, h => by
    obtain ⟨r, fl', hq, hr⟩ := h i (by simp)
    cases r with
    | true =>
      refine ⟨true, fl', ?_, by simp, ⟨fun _ => rfl, fun _ => ⟨i, by simp, fl', hq⟩⟩,
        fun _ => ⟨i, by simp, hq⟩⟩
      unfold isRecLoop
      rw [M.bind_ok hq]; rfl
    | false =>
      have hr := hr rfl
      subst hr
      obtain ⟨r, fl2, hl, hr, hex, hex'⟩ := isRecLoop_run fun j hj => h j (List.mem_cons_of_mem _ hj)
      refine ⟨r, fl2, ?_, hr, ?_, ?_⟩
      · unfold isRecLoop
        rw [M.bind_ok hq]; exact hl
      · rw [← hex]
        constructor
        · rintro ⟨j, hj, f, hf⟩
          rcases List.mem_cons.1 hj with rfl | hj
          · rw [hq] at hf; simp at hf
          · exact ⟨j, hj, f, hf⟩
        · rintro ⟨j, hj, hf⟩
          exact ⟨j, List.mem_cons_of_mem _ hj, hf⟩
      · intro hr
        obtain ⟨j, hj, hf⟩ := hex' hr
        exact ⟨j, List.mem_cons_of_mem _ hj, hf⟩

theorem IsRecRuns.intro {G : Graph} {n : Nat} {i : Id} {fl fl' : Flags} {r : Bool}
    (h : isRecQ G n i fl = (.ok r, fl')) : IsRecRuns G fl i r fl' := by
  refine ⟨n, fun m hm => ?_⟩
  rcases fle_isRecQ G hm i fl with e | e
  · rw [h] at e; cases e
  · rw [← e, h]

theorem IsRecRuns.unique {G : Graph} {i : Id} {fl fl1 fl2 : Flags} {r1 r2 : Bool}
    (h1 : IsRecRuns G fl i r1 fl1) (h2 : IsRecRuns G fl i r2 fl2) : r1 = r2 ∧ fl1 = fl2 := by
  obtain ⟨N1, h1⟩ := h1
  obtain ⟨N2, h2⟩ := h2
  have := (h1 _ (le_max_left N1 N2)).symm.trans (h2 _ (le_max_right N1 N2))
  simpa using this

/-- What `isRecursive()` computes: it returns true exactly when it can get, through pickers, to a
marked stamp or to a picker that can get back to itself. -/
theorem isRec_reaches {G : Graph} {B : Nat} (hB : ∀ i ≥ B, G i = none)
    (hcl : ∀ i j, PickEdge G i j → G j ≠ none) :
    ∀ p fl, freeCount B fl = p → ∀ i, G i ≠ none →
      ∃ r fl', IsRecRuns G fl i r fl' ∧ (∀ j, (fl' j).inRec = (fl j).inRec) ∧ (r = false → fl' = fl) ∧
        ((∃ q, Relation.ReflTransGen (PickEdge G) i q ∧
          (Marked G fl q ∨ Relation.TransGen (PickEdge G) q q)) ↔ r = true) := by
  intro p
  induction p using Nat.strong_induction_on with
  | _ p ih =>
  intro fl hp i hi
  cases hG : G i with
  | none => exact absurd hG hi
  | some nd =>
    by_cases hpk : ∃ pool, nd = .picker pool
    · obtain ⟨pool, rfl⟩ := hpk
      by_cases hm : ((fl i).isRec || (fl i).inRec) = true
      · refine ⟨true, fl, .intro (n := 1) ?_, fun _ => rfl, by simp, ⟨fun _ => rfl, fun _ =>
          ⟨i, .refl, .inl (.inl ⟨pool, hG, by simpa using hm⟩)⟩⟩⟩
        unfold isRecQ
        rw [hG]
        show (if ((fl i).isRec || (fl i).inRec) = true then (pure true : M Flags Bool) else _) fl = _
        rw [if_pos hm]; rfl
      · have hm' : (fl i).isRec = false ∧ (fl i).inRec = false := by
          simpa using hm
        have hiB : i < B := by
          by_contra hc
          exact hi (hB i (Nat.le_of_not_lt hc))
        have hlt := freeCount_setIn hiB hm'.2
        have hin : ∀ j ∈ pool, _ := fun j hj =>
          ih _ (by rw [← hp]; exact hlt) (fl.setIn i true) rfl j (hcl i j ⟨pool, hG, hj⟩)
        -- one budget for the whole pool
        have hN : ∃ N, ∀ j ∈ pool, ∃ r fl', isRecQ G N j (fl.setIn i true) = (.ok r, fl') ∧
            (∀ k, (fl' k).inRec = (fl.setIn i true k).inRec) ∧ (r = false → fl' = fl.setIn i true) ∧
            ((∃ q, Relation.ReflTransGen (PickEdge G) j q ∧
              (Marked G (fl.setIn i true) q ∨ Relation.TransGen (PickEdge G) q q)) ↔ r = true) := by
          clear hG
          induction pool with
          | nil => exact ⟨0, by simp⟩
          | cons j js ihl =>
            obtain ⟨N, hN⟩ := ihl fun k hk => hin k (List.mem_cons_of_mem _ hk)
            obtain ⟨r, fl', ⟨N', hr⟩, h1, h2, h3⟩ := hin j (by simp)
            refine ⟨max N N', fun k hk => ?_⟩
            rcases List.mem_cons.1 hk with rfl | hk
            · exact ⟨r, fl', hr _ (le_max_right _ _), h1, h2, h3⟩
            · obtain ⟨r, fl', hr, h1, h2, h3⟩ := hN k hk
              refine ⟨r, fl', ?_, h1, h2, h3⟩
              rcases fle_isRecQ G (le_max_left N N') k (fl.setIn i true) with e | e
              · rw [hr] at e; cases e
              · rw [← e, hr]
        obtain ⟨N, hN⟩ := hN
        obtain ⟨r, fl', hl, hr, hex, hex'⟩ := isRecLoop_run (q := isRecQ G N) (l := pool)
          (fl := fl.setIn i true) fun j hj => by
            obtain ⟨r, fl', h, _, h2, _⟩ := hN j hj
            exact ⟨r, fl', h, h2⟩
        have hinr : ∀ k, (fl' k).inRec = (fl.setIn i true k).inRec := by
          cases r with
          | false => rw [hr rfl]; exact fun _ => rfl
          | true =>
            obtain ⟨j, hj, h⟩ := hex' rfl
            obtain ⟨r, fl'', h', h1, _, _⟩ := hN j hj
            rw [h] at h'
            simp only [Prod.mk.injEq] at h'
            rw [h'.2]; exact h1
        refine ⟨r, ((if r then fl'.setRec i else fl').setIn i false), .intro (n := N + 1) ?_, ?_, ?_, ?_⟩
        · unfold isRecQ
          rw [hG]
          show (if ((fl i).isRec || (fl i).inRec) = true then (pure true : M Flags Bool) else _) fl = _
          rw [if_neg hm]
          show (isRecLoop (isRecQ G N) pool >>= _) (fl.setIn i true) = _
          rw [M.bind_ok hl]
          cases r <;> rfl
        · intro k
          have := hinr k
          unfold Flags.setIn at this ⊢
          by_cases hk : k = i
          · subst hk; simp [hm'.2]
          · rw [if_neg hk] at this ⊢
            cases r
            · exact this
            · show (fl'.setRec i k).inRec = _
              unfold Flags.setRec; rw [if_neg hk]; exact this
        · intro h
          subst h
          rw [hr rfl]
          funext k
          show (((fl.setIn i true)).setIn i false) k = fl k
          unfold Flags.setIn
          by_cases hk : k = i
          · subst hk
            rw [if_pos rfl, if_pos rfl]
            rw [← hm'.2]
          · rw [if_neg hk, if_neg hk]
        · rw [← hex]
          constructor
          · rintro ⟨q, hiq, hq⟩
            -- the first step of the way
            have : ∃ j ∈ pool, ∃ q', Relation.ReflTransGen (PickEdge G) j q' ∧
                (Marked G (fl.setIn i true) q' ∨ Relation.TransGen (PickEdge G) q' q') := by
              have hself : Marked G (fl.setIn i true) i :=
                .inl ⟨pool, hG, .inr (by simp [Flags.setIn])⟩
              have first : ∀ {q'}, Relation.TransGen (PickEdge G) i q' →
                  ∃ j ∈ pool, Relation.ReflTransGen (PickEdge G) j q' := by
                intro q' h
                rcases Relation.TransGen.head'_iff.1 h with ⟨j, ⟨pool', hG', hj⟩, hjq⟩
                rw [hG] at hG'; cases hG'
                exact ⟨j, hj, hjq⟩
              rcases Relation.reflTransGen_iff_eq_or_transGen.1 hiq with rfl | hiq
              · rcases hq with hq | hq
                · exfalso
                  rcases hq with ⟨_, _, h⟩ | ⟨u, h, _⟩
                  · rcases h with h | h
                    · rw [hm'.1] at h; cases h
                    · rw [hm'.2] at h; cases h
                  · rw [hG] at h; cases h
                · obtain ⟨j, hj, hjq⟩ := first hq
                  exact ⟨j, hj, _, hjq, .inl hself⟩
              · obtain ⟨j, hj, hjq⟩ := first hiq
                refine ⟨j, hj, q, hjq, ?_⟩
                rcases hq with hq | hq
                · left
                  rcases hq with ⟨pl, h1, h2⟩ | h
                  · refine .inl ⟨pl, h1, ?_⟩
                    unfold Flags.setIn
                    split
                    · right; rfl
                    · exact h2
                  · exact .inr h
                · exact .inr hq
            obtain ⟨j, hj, hq⟩ := this
            obtain ⟨r, fl'', h', _, _, h3⟩ := hN j hj
            have := h3.1 hq
            subst this
            exact ⟨j, hj, fl'', h'⟩
          · rintro ⟨j, hj, fl'', h⟩
            obtain ⟨r, fl3, h', _, _, h3⟩ := hN j hj
            rw [h] at h'
            simp only [Prod.mk.injEq, Out.ok.injEq] at h'
            obtain ⟨q, hjq, hq⟩ := h3.2 h'.1.symm
            have hij : PickEdge G i j := ⟨pool, hG, hj⟩
            rcases hq with hq | hq
            · rcases hq with ⟨pl, h1, h2⟩ | hq
              · by_cases hqi : q = i
                · subst hqi
                  exact ⟨q, .refl, .inr (Relation.TransGen.head' hij hjq)⟩
                · refine ⟨q, hjq.head hij, .inl (.inl ⟨pl, h1, ?_⟩)⟩
                  unfold Flags.setIn at h2
                  rw [if_neg hqi] at h2
                  exact h2
              · exact ⟨q, hjq.head hij, .inl (.inr hq)⟩
            · exact ⟨q, hjq.head hij, .inr hq⟩
    · have hne : ∀ {q}, Relation.ReflTransGen (PickEdge G) i q → q = i := by
        intro q h
        rcases Relation.reflTransGen_iff_eq_or_transGen.1 h with h | h
        · exact h
        · rcases Relation.TransGen.head'_iff.1 h with ⟨j, ⟨pool', hG', hj⟩, _⟩
          rw [hG] at hG'
          exact absurd ⟨pool', by simpa using hG'⟩ hpk
      have hnt : ¬ Relation.TransGen (PickEdge G) i i := by
        intro h
        rcases Relation.TransGen.head'_iff.1 h with ⟨j, ⟨pool', hG', hj⟩, _⟩
        rw [hG] at hG'
        exact absurd ⟨pool', by simpa using hG'⟩ hpk
      by_cases hu : ∃ u, nd = .user u
      · obtain ⟨u, rfl⟩ := hu
        refine ⟨u.recursive, fl, .intro (n := 1) ?_, fun _ => rfl, fun _ => rfl, ?_, ?_⟩
        · unfold isRecQ; rw [hG]; rfl
        · rintro ⟨q, hq, h⟩
          rw [hne hq] at h
          rcases h with (⟨_, h, _⟩ | ⟨u', h, hr⟩) | h
          · rw [hG] at h; cases h
          · rw [hG] at h; cases h; exact hr
          · exact absurd h hnt
        · intro h
          exact ⟨i, .refl, .inl (.inr ⟨u, hG, h⟩)⟩
      · refine ⟨false, fl, .intro (n := 1) ?_, fun _ => rfl, fun _ => rfl, ?_, by simp⟩
        · unfold isRecQ; rw [hG]
          cases nd with
          | picker pool => exact absurd ⟨pool, rfl⟩ hpk
          | user u => exact absurd ⟨u, rfl⟩ hu
          | _ => rfl
        · rintro ⟨q, hq, h⟩
          rw [hne hq] at h
          rcases h with (⟨pl, h, _⟩ | ⟨u', h, hr⟩) | h
          · rw [hG] at h; exact absurd ⟨pl, by simpa using h⟩ hpk
          · rw [hG] at h; exact absurd ⟨u', by simpa using h⟩ hu
          · exact absurd h hnt

/-- C35, partial: a picker that can reach itself through pickers reports that it is recursive, for
every finite graph without dangling pool entries and whatever was found out before. Missing: stamps
that reach themselves through a galley or an operator, see `C35_violated`. -/
theorem C35_recognised_partial {G : Graph} (hfin : ∃ B, ∀ i ≥ B, G i = none)
    (hcl : ∀ i j, PickEdge G i j → G j ≠ none) {i : Id} {fl : Flags}
    (h : Relation.TransGen (PickEdge G) i i) : ∃ fl', IsRecRuns G fl i true fl' := by
  obtain ⟨B, hB⟩ := hfin
  have hi : G i ≠ none := by
    rcases Relation.TransGen.head'_iff.1 h with ⟨j, ⟨pool', hG', hj⟩, _⟩
    rw [hG']; simp
  obtain ⟨r, fl', hr, _, _, hiff⟩ := isRec_reaches hB hcl _ fl rfl i hi
  have := hiff.1 ⟨i, .refl, .inr h⟩
  subst this
  exact ⟨fl', hr⟩

/-- On fresh stamps `isRecursive()` returns true only for a stamp that reaches, through pickers, one
that reaches itself, or a client's stamp that says it is recursive. -/
theorem C35_only_recursive {G : Graph} (hfin : ∃ B, ∀ i ≥ B, G i = none)
    (hcl : ∀ i j, PickEdge G i j → G j ≠ none) {i : Id} {fl' : Flags}
    (h : IsRecRuns G Flags.init i true fl') :
    ∃ q, Relation.ReflTransGen (PickEdge G) i q ∧
      (Relation.TransGen (PickEdge G) q q ∨ ∃ u, G q = some (.user u) ∧ u.recursive = true) := by
  obtain ⟨B, hB⟩ := hfin
  have hi : G i ≠ none := by
    intro hc
    obtain ⟨N, hN⟩ := h
    have := hN (N + 1) (by omega)
    unfold isRecQ at this
    rw [hc] at this
    cases this
  obtain ⟨r, fl'', hr, _, _, hiff⟩ := isRec_reaches hB hcl _ Flags.init rfl i hi
  have := (h.unique hr).1
  subst this
  obtain ⟨q, hq, h⟩ := hiff.2 rfl
  refine ⟨q, hq, ?_⟩
  rcases h with (⟨_, _, h⟩ | h) | h
  · simp [Flags.init] at h
  · exact .inr h
  · exact .inl h

/-- C35 as stated is violated: `StampJSON` reaches itself through its enumerators, and
`isRecursive()` returns false for it (stamp.h 46: galleys answer false without asking). -/
theorem C35_violated : Relation.TransGen (Edge jsonGraph) 0 0 ∧
    IsRecRuns jsonGraph Flags.init 0 false Flags.init := by
  constructor
  · refine .tail (.single (b := 4) ?_) ?_
    · exact ⟨.picker [1, 2, 3, 4, 5], rfl, .inr (by simp [Node.choices])⟩
    · exact ⟨.enumerator 0 [44, 32] [91] [93], rfl,
        .inl (by simp [Node.enumerator, Node.plainKids])⟩
  · refine .intro (n := 3) ?_
    have h : (isRecQ jsonGraph 3 0 Flags.init).1 = .ok false := by decide +kernel
    obtain ⟨r, fl', hr, _, hf, _⟩ := isRec_reaches (G := jsonGraph) (B := 8)
      (fun i hi => by match i, hi with | (n + 8), _ => rfl)
      (fun i j ⟨pool, hG, hj⟩ => jsonGraph_grammar.closed i _ hG j (.inr hj)) _ Flags.init rfl 0
      (jsonGraph_ne (by norm_num))
    have h' := IsRecRuns.intro (G := jsonGraph) (n := 3) (i := 0) (fl := Flags.init)
      (fl' := (isRecQ jsonGraph 3 0 Flags.init).2) (Prod.ext h rfl)
    have e := h'.unique hr
    rw [← e.1] at hf
    exact Prod.ext h (e.2.trans (hf rfl))

/-- A picker over a picker over the first one: recognised. -/
def loopGraph : Graph
  | 0 => some (.picker [2, 1])
  | 1 => some (.picker [2, 0])
  | 2 => some (.arith .u8)
  | _ => none

example : Relation.TransGen (PickEdge loopGraph) 0 0 ∧
    (isRecQ loopGraph 3 0 Flags.init).1 = .ok true := by
  refine ⟨.tail (.single (b := 1) ⟨_, rfl, by simp⟩) ⟨_, rfl, by simp⟩, by decide +kernel⟩

/-- C31 on `StampJSON`: nine bytes are too few, on ten the number is picked. -/
example : (extract jsonGraph 9 0 (Flags.init, ([0, 0, 65, 66, 67, 68, 0, 0, 0] : ABlob))).1 = .outOfData ∧
    (extract jsonGraph 9 0 (Flags.init, ([0, 0, 7, 1, 0, 0, 0, 0, 0, 0] : ABlob))).1 =
      .ok [50, 54, 51] := by decide +kernel

/-- C32: a history with a failed extraction in it. -/
example : Calls smallPool Flags.init Flags.init :=
  .throw (i := 0) (b := Blob.mk' (.at [9] 0) 1) (b' := Blob.mk' (.at [9] 0) 1)
    (.size (sel := .min) (i := 0) (v := 3) (.refl _) (hasSize_eval 5 (by decide +kernel)))
    (.intro (n := 5) (by rfl) (by simp))

end BS
