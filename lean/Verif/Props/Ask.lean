import Verif.Lemmas.Ask
import Verif.Props.Recursion

/-!
# C85: asking about recursion changes nothing
-/

namespace BS

theorem talk_knows {G : Graph} {fl fl' : Flags} (hi : Idle fl) (hs : Sound G fl) (h : Talk G fl fl') : Knows G fl fl' := by
  induction h with
  | refl => exact .refl _ _
  | calls h1 h2 ih =>
    rw [(C32_no_trace h2).1]; exact ih
  | asks h1 h2 ih =>
    obtain ⟨N, h2⟩ := h2
    refine ih.trans (isRecQ_knows N _ _ _ _ (hs.knows ih) ?_ (h2 N (le_refl _))).1
    intro k hk
    rw [(ih k).1, hi k] at hk
    cases hk

theorem sound_init (G : Graph) : Sound G Flags.init := by intro k hk; cases hk

theorem idle_init : Idle Flags.init := fun _ => rfl

/-- **C85**, the part that holds: after any history of calls of `isRecursive()`, `minSize()`, `maxSize()` and
extractions on freshly built stamps, whatever a size query or an extraction returned or threw at the outset, it
does again. Missing: user stamps that call themselves recursive and report a maximum (`C85_violated`), and calls that were
undefined at the outset (`C85_violated_undefined`). -/
theorem C85_asking_partial {G : Graph} (hu : HonestUsers G) {fl : Flags} (h : Talk G Flags.init fl) :
    (∀ sel i v, SizeRuns G Flags.init sel i v Flags.init → SizeRuns G fl sel i v fl) ∧
    (∀ i b s left, Returns G Flags.init i b s left → Returns G fl i b s left) ∧
    (∀ i b left, Throws G Flags.init i b left → Throws G fl i b left) := by
  have hk := talk_knows idle_init (sound_init G) h
  have hx : ∀ i (b : Blob) (o : Out Bytes) b', ((∃ s, o = .ok s) ∨ o = .outOfData) →
      Extracts G Flags.init i b o Flags.init b' → Extracts G fl i b o fl b' := by
    intro i b o b' ho ⟨N, h⟩
    have := h N (le_refl _)
    obtain ⟨s1, h1, h2⟩ := follows_extract (β := Blob) (K := 0) (R := Knows G)
      (fun n sel j => by rw [Nat.zero_add]; exact follows_sizeQ hu n sel j) N i (Flags.init, b) (fl, b) ⟨hk, rfl⟩ _ _ this ho
    rw [Nat.zero_add] at h1
    have e := keeps_extract G N i (fl, b)
    rw [h1] at e
    obtain ⟨f1, b1⟩ := s1
    obtain rfl : f1 = fl := e ho
    obtain rfl : b' = b1 := h2.2
    exact .intro h1 (by rcases ho with ⟨s, rfl⟩ | rfl <;> simp)
  refine ⟨fun sel i v ⟨N, h⟩ => ?_, fun i b s left ⟨b', h1, h2⟩ => ⟨b', hx _ _ _ _ (.inl ⟨s, rfl⟩) h1, h2⟩,
    fun i b left ⟨b', h1, h2⟩ => ⟨b', hx _ _ _ _ (.inr rfl) h1, h2⟩⟩
  obtain ⟨s1, h1, -⟩ := follows_sizeQ hu N sel i Flags.init fl hk _ _ (h N (le_refl _)) (.inl ⟨v, rfl⟩)
  obtain rfl := (keeps_sizeQ G N sel i fl).2.2 _ _ h1
  exact .intro h1

/-- **C85**, both ways: in a finite grammar all of whose stamps report their sizes at the outset, later calls
return and throw exactly what they would have at the outset. -/
theorem C85_same {G : Graph} (hu : HonestUsers G) (hfin : ∃ B, ∀ i ≥ B, G i = none)
    (hd : ∀ sel i, G i ≠ none → ∃ v, SizeRuns G Flags.init sel i v Flags.init) {fl : Flags} (h : Talk G Flags.init fl) :
    (∀ sel i v, SizeRuns G Flags.init sel i v Flags.init ↔ SizeRuns G fl sel i v fl) ∧
    (∀ i b s left, Returns G Flags.init i b s left ↔ Returns G fl i b s left) ∧
    (∀ i b left, Throws G Flags.init i b left ↔ Throws G fl i b left) := by
  obtain ⟨p1, p2, p3⟩ := C85_asking_partial hu h
  -- one budget for all queries
  have hK : ∃ K, ∀ sel i, G i ≠ none → ∃ v, sizeQ G K sel i Flags.init = (.ok v, Flags.init) ∧
      sizeQ G K sel i fl = (.ok v, fl) := by
    obtain ⟨B, hB⟩ := hfin
    have : ∀ n : Nat, ∃ K, ∀ sel (i : Nat), i < n → G i ≠ none → ∃ v, sizeQ G K sel i Flags.init = (.ok v, Flags.init) ∧
        sizeQ G K sel i fl = (.ok v, fl) := by
      intro n
      induction n with
      | zero => exact ⟨0, fun _ i hi => absurd hi (by omega)⟩
      | succ n ih =>
        obtain ⟨K, hK⟩ := ih
        have lift : ∀ {K' sel i}, K ≤ K' → i < n → G i ≠ none → ∃ v, sizeQ G K' sel i Flags.init = (.ok v, Flags.init) ∧
            sizeQ G K' sel i fl = (.ok v, fl) := by
          intro K' sel i hle hi hG
          obtain ⟨v, e1, e2⟩ := hK sel i hi hG
          exact ⟨v, by rw [sizeQ_stable hle (by rw [e1]; simp), e1], by rw [sizeQ_stable hle (by rw [e2]; simp), e2]⟩
        by_cases hn : G n = none
        · exact ⟨K, fun sel i hi hG => lift (le_refl _) (by
            rcases Nat.lt_succ_iff_lt_or_eq.1 hi with h | h
            · exact h
            · subst h; exact absurd hn hG) hG⟩
        · have one : ∀ sel, ∃ N v, ∀ m ≥ N, sizeQ G m sel n Flags.init = (.ok v, Flags.init) ∧
              sizeQ G m sel n fl = (.ok v, fl) := by
            intro sel
            obtain ⟨v, hv⟩ := hd sel n hn
            obtain ⟨N1, h1⟩ := p1 _ _ _ hv
            obtain ⟨N2, h2⟩ := hv
            exact ⟨max N1 N2, v, fun m hm => ⟨h2 m (by omega), h1 m (by omega)⟩⟩
          obtain ⟨N1, v1, h1⟩ := one .min
          obtain ⟨N2, v2, h2⟩ := one .max
          refine ⟨K + N1 + N2, fun sel i hi hG => ?_⟩
          rcases Nat.lt_succ_iff_lt_or_eq.1 hi with h | h
          · exact lift (by omega) h hG
          · subst h
            cases sel
            · exact ⟨v1, h1 _ (by omega)⟩
            · exact ⟨v2, h2 _ (by omega)⟩
    obtain ⟨K, hK⟩ := this B
    exact ⟨K, fun sel i hG => hK sel i (by
      by_contra hc
      exact hG (hB i (not_lt.1 hc))) hG⟩
  obtain ⟨K, hK⟩ := hK
  have hq : ∀ n sel j, Follows (fun a b => a = fl ∧ b = Flags.init) (sizeQ G n sel j) (sizeQ G (K + n) sel j) := by
    rintro n sel j _ _ ⟨rfl, rfl⟩ o s1 e ho
    by_cases hG : G j = none
    · exfalso
      cases n with
      | zero => cases e; rcases ho with ⟨a, h⟩ | h <;> cases h
      | succ n =>
        unfold sizeQ at e
        rw [hG] at e
        cases e
        rcases ho with ⟨a, h⟩ | h <;> cases h
    · obtain ⟨v, e1, e2⟩ := hK sel j hG
      rcases ho with ⟨a, rfl⟩ | rfl
      · obtain rfl := (keeps_sizeQ G n sel j _).2.2 _ _ e
        have h1 := sizeQ_stable (Nat.le_add_left n K) (by rw [e]; simp)
        have h2 := sizeQ_stable (Nat.le_add_right K n) (by rw [e2]; simp)
        have : a = v := by
          rw [h1, e, e2] at h2
          simpa using (Prod.mk.inj h2).1
        subst this
        exact ⟨Flags.init, by rw [sizeQ_stable (Nat.le_add_right K n) (by rw [e1]; simp), e1], rfl, rfl⟩
      · exact absurd (congrArg Prod.fst e) (keeps_sizeQ G n sel j _).1
  have hx : ∀ i (b : Blob) (o : Out Bytes) b', ((∃ s, o = .ok s) ∨ o = .outOfData) →
      Extracts G fl i b o fl b' → Extracts G Flags.init i b o Flags.init b' := by
    intro i b o b' ho ⟨N, h⟩
    obtain ⟨⟨f1, b1⟩, h1, ⟨-, h2⟩, h3⟩ := follows_extract (β := Blob) hq N i (fl, b) (Flags.init, b) ⟨⟨rfl, rfl⟩, rfl⟩ _ _
      (h N (le_refl _)) ho
    obtain rfl : f1 = Flags.init := h2
    obtain rfl : b' = b1 := h3
    exact .intro h1 (by rcases ho with ⟨s, rfl⟩ | rfl <;> simp)
  refine ⟨fun sel i v => ⟨p1 sel i v, fun hv => ?_⟩, fun i b s left => ⟨p2 i b s left, ?_⟩, fun i b left => ⟨p3 i b left, ?_⟩⟩
  · have hG : G i ≠ none := by
      intro hc
      obtain ⟨N, hN⟩ := hv
      have := hN (N + 1) (by omega)
      unfold sizeQ at this
      rw [hc] at this
      cases this
    obtain ⟨w, hw⟩ := hd sel i hG
    obtain ⟨N1, h1⟩ := p1 _ _ _ hw
    obtain ⟨N2, h2⟩ := hv
    have := (h1 (max N1 N2) (by omega)).symm.trans (h2 (max N1 N2) (by omega))
    have : w = v := by simpa using (Prod.mk.inj this).1
    exact this ▸ hw
  · rintro ⟨b', h1, h2⟩; exact ⟨b', hx _ _ _ _ (.inl ⟨s, rfl⟩) h1, h2⟩
  · rintro ⟨b', h1, h2⟩; exact ⟨b', hx _ _ _ _ (.inr rfl) h1, h2⟩

/-- **C85**, the answers: asked again, and whatever has been asked in between, `isRecursive()` gives the same answer, in
every finite grammar without dangling pool entries. -/
theorem C85_same_answer {G : Graph} (hfin : ∃ B, ∀ i ≥ B, G i = none) (hcl : ∀ i j, PickEdge G i j → G j ≠ none)
    {fl : Flags} (h : Talk G Flags.init fl) {i : Id} {r : Bool} {fl1 : Flags} (hr : IsRecRuns G Flags.init i r fl1) :
    ∃ fl2, IsRecRuns G fl i r fl2 := by
  have hk := talk_knows idle_init (sound_init G) h
  obtain ⟨B, hB⟩ := hfin
  have hi : G i ≠ none := by
    intro hc
    obtain ⟨N, hN⟩ := hr
    have := hN (N + 1) (by omega)
    unfold isRecQ at this
    rw [hc] at this
    cases this
  obtain ⟨r1, f1, a1, -, -, a2⟩ := isRec_reaches hB hcl _ Flags.init rfl i hi
  obtain ⟨r2, f2, b1, -, -, b2⟩ := isRec_reaches hB hcl _ fl rfl i hi
  have : r1 = r := by
    obtain ⟨N1, h1⟩ := a1
    obtain ⟨N2, h2⟩ := hr
    have := (h1 (max N1 N2) (by omega)).symm.trans (h2 (max N1 N2) (by omega))
    simpa using (Prod.mk.inj this).1
  subst this
  have : r1 = true ↔ r2 = true := by
    rw [← a2, ← b2]
    constructor
    · rintro ⟨q, h1, h2⟩
      refine ⟨q, h1, h2.imp ?_ id⟩
      rintro (⟨pool, e, hm | hm⟩ | hm)
      · cases hm
      · cases hm
      · exact .inr hm
    · rintro ⟨q, h1, h2⟩
      rcases h2 with (⟨pool, e, hm | hm⟩ | hm) | h2
      · rcases (hk q).2.2 hm with hc | ⟨q', c1, c2⟩
        · cases hc
        · refine ⟨q', h1.trans c1, ?_⟩
          rcases c2 with c2 | c2
          · exact .inr c2
          · exact .inl (.inr c2)
      · rw [(hk q).1] at hm; cases hm
      · exact ⟨q, h1, .inl (.inr hm)⟩
      · exact ⟨q, h1, .inr h2⟩
  have : r2 = r1 := by cases r1 <;> cases r2 <;> simp_all
  subst this
  exact ⟨f2, b1⟩

/-! ## Witnesses -/

/-- A picker of numbers and of a picker of itself and numbers; a list of what it makes. -/
def ringGraph : Graph
  | 0 => some (.picker [1, 2])
  | 1 => some (.arith .u8)
  | 2 => some (.picker [0, 1])
  | 3 => some (.enumerator 0 [44] [91] [93])
  | _ => none

/-- What is known after `isRecursive()` of object 0. -/
def ringFlags : Flags := (isRecQ ringGraph 9 0 Flags.init).2

theorem ring_asked : IsRecRuns ringGraph Flags.init 0 true ringFlags :=
  .intro (n := 9) (Prod.ext (by decide +kernel) rfl)

theorem ring_honest : HonestUsers ringGraph := by
  intro i u h
  rcases i with _ | _ | _ | _ | i <;> cases h

theorem ring_sizes : ∀ sel i, ringGraph i ≠ none → ∃ v, SizeRuns ringGraph Flags.init sel i v Flags.init := by
  intro sel i h
  rcases i with _ | _ | _ | _ | i
  · cases sel
    · exact ⟨_, hasSize_eval (v := 3) 9 (by decide +kernel)⟩
    · exact ⟨_, hasSize_eval (v := -1) 9 (by decide +kernel)⟩
  · cases sel
    · exact ⟨_, hasSize_eval (v := 1) 9 (by decide +kernel)⟩
    · exact ⟨_, hasSize_eval (v := 1) 9 (by decide +kernel)⟩
  · cases sel
    · exact ⟨_, hasSize_eval (v := 3) 9 (by decide +kernel)⟩
    · exact ⟨_, hasSize_eval (v := -1) 9 (by decide +kernel)⟩
  · cases sel
    · exact ⟨_, hasSize_eval (v := 7) 9 (by decide +kernel)⟩
    · exact ⟨_, hasSize_eval (v := -1) 9 (by decide +kernel)⟩
  · exact absurd rfl h

/-- The hypotheses hold of `ringGraph`, where asking does leave a mark. -/
example : (ringFlags 0).isRec = true ∧ ∀ b s left, Returns ringGraph Flags.init 3 b s left ↔ Returns ringGraph ringFlags 3 b s left :=
  ⟨by decide +kernel, (C85_same ring_honest ⟨4, fun i hi => by
    match i, hi with
    | i + 4, _ => rfl⟩ ring_sizes (.asks (.refl _) ring_asked)).2.1 3⟩

/-- A user stamp of one byte that writes `x`, in a picker, in a list. The stamp calls itself recursive. -/
def markGraph : Graph
  | 0 => some (.enumerator 1 [44] [] [])
  | 1 => some (.picker [2])
  | 2 => some (.user ⟨1, 1, true, fun _ => (.ok [120], 1)⟩)
  | _ => none

/-- **C85 is violated** by a user stamp that calls itself recursive and has a greatest size: asking the picker over it
whether it is recursive changes the picker's `maxSize()` from 3 to unbounded, and with it what a list of such
stamps makes of nine zero bytes. -/
theorem C85_violated : ∃ fl, IsRecRuns markGraph Flags.init 1 true fl ∧ HasMax markGraph Flags.init 1 3 ∧
    HasMax markGraph fl 1 (-1) ∧ Gives markGraph Flags.init 0 (List.replicate 9 0) (str "x,x,x") ∧
    Gives markGraph fl 0 (List.replicate 9 0) (str "x") := by
  refine ⟨(isRecQ markGraph 9 1 Flags.init).2, .intro (n := 9) (Prod.ext (by decide +kernel) rfl),
    hasSize_eval 9 (by decide +kernel), hasSize_eval 9 (by decide +kernel), ?_, ?_⟩
  · exact Gives.intro (n := 20) (left := []) (extract_eval (by decide +kernel) (by decide +kernel))
  · exact Gives.intro (n := 20) (left := []) (extract_eval (by decide +kernel) (by decide +kernel))

/-- A picker of itself and of a set of two stamps whose sizes add up to more than an `int`. -/
def bigGraph : Graph
  | 0 => some (.picker [1, 0])
  | 1 => some (.set [2, 2] (fun _ => []) false)
  | 2 => some (.user ⟨1500000000, 1500000000, false, fun _ => (.ok [120], 1500000000)⟩)
  | _ => none

/-- **C85 is violated**, second way: `maxSize()` is undefined at the outset and -1 once `isRecursive()` has been called. -/
theorem C85_violated_undefined : ∃ fl, IsRecRuns bigGraph Flags.init 0 true fl ∧ SizeUndefined bigGraph Flags.init .max 0 ∧
    HasMax bigGraph fl 0 (-1) := by
  refine ⟨(isRecQ bigGraph 9 0 Flags.init).2, .intro (n := 9) (Prod.ext (by decide +kernel) rfl),
    ⟨9, .intOverflow, fun n hn => ?_⟩, hasSize_eval 9 (by decide +kernel)⟩
  have h : (sizeQ bigGraph 9 .max 0 Flags.init).1 = .ub .intOverflow := by decide +kernel
  rw [sizeQ_stable hn (by rw [h]; simp), h]

end BS
