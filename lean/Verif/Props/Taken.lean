import Verif.Props.Tidy

/-!
# What lists and sets have taken when they throw (C60)

`Verif/Props/Tidy.lean` settles lists and sets over stamps of fixed size. Here the sizes are arbitrary: exactly when a
throw leaves the blob as it was.
-/

namespace BS
open BlobLike

variable {G : Graph} {fl : Flags}

/-! ## Lists -/

theorem Tri.oracle' {γ : Type} {a : ABlob} {R : ABlob → Prop} {f : Nat → M ABlob γ} {P : γ → ABlob → Prop}
    (hl : 2 ≤ a.length) (h : ∀ o, Tri (f o) (a.drop 2) R P) : Tri (oracle >>= f) a R P := by
  have e := oracle_abs a
  rw [if_neg (by omega)] at e
  have h := h (leNat (a.take 2))
  unfold Tri at h ⊢
  rw [M.bind_ok e]
  exact h

theorem Tri.left {α : Type} {m : M ABlob α} {a a' a0 : ABlob} {o : Out α} (t : Tri m a (Suf a0) (fun _ _ => True))
    (e : m a = (o, a')) : a' <:+ a0 := by
  have := t.1
  rw [e] at this
  exact this

theorem vecUnbounded_taken {a : ABlob} (mn : Int) (hl : 2 ≤ a.length)
    (hd : toSz ((toSz mn : Int) + 2) ≠ 0) :
    Tri (vecUnbounded mn : M ABlob (List ABlob)) a (Suf (a.drop 2)) (fun _ _ => True) := by
  unfold vecUnbounded
  refine .get' ?_
  dsimp only
  refine .ite (fun h => absurd h hd) fun _ => ?_
  refine .oracle' hl fun co => ?_
  refine .bind (tri_sizeOracles _ _ (List.suffix_refl _)) fun r a2 hR2 hr => ?_
  refine .get' ?_
  refine .lift' (ckInt_safe _) hR2 fun fs _ => .lift' (ckInt_safe _) hR2 fun v _ => ?_
  exact (tri_unbChopLoop _ _ _ _ _ hR2).mono (fun _ h => h) fun l a3 h3 => trivial

theorem variatedLoop_taken {a : ABlob} (n : Nat) (mn mx : Int) {o : Out (List ABlob)} {a' : ABlob}
    (h : variatedLoop n mn mx a = (o, a')) (ho : o ≠ .ok [])
    (h1 : o = .outOfData ∨ ∃ l, o = .ok l) (h0 : 0 ≤ mn) : 2 ≤ a.length ∧ a' <:+ a.drop 2 := by
  cases n with
  | zero => cases h; rcases h1 with h1 | ⟨l, h1⟩ <;> cases h1
  | succ n =>
    unfold variatedLoop at h
    rcases ckInt_cases (mn + 2) with e | e
    · rw [e, M.bind_ok (show (M.lift (.ok (mn + 2)) : M ABlob Int) a = (.ok (mn + 2), a) from rfl),
        M.bind_ok (M.get_apply _), size_abs] at h
      split at h
      · cases h; exact absurd rfl ho
      · rename_i hl
        have hb := (ckInt_eq e).2.2
        rw [toSz_of_nonneg (by omega) (by omega)] at hl
        have hl : 2 ≤ a.length := by omega
        refine ⟨hl, Tri.left ?_ h⟩
        refine .oracle' hl fun co => ?_
        have hR : a.drop 2 <:+ a.drop 2 := List.suffix_refl _
        refine .lift' ?_ hR fun sz _ => .get' ?_
        · unfold oracleProportion
          exact .bind (toIntRange_safe _ _ _) fun _ => .ok _
        dsimp only
        refine .bind (tri_chop _ hR) fun c a2 hR2 ⟨_, h3, _⟩ => ?_
        exact .bind (tri_variatedLoop _ _ _ hR2) fun r a3 hR3 hr => .pure hR3 trivial
    · rw [e] at h
      cases h
      rcases h1 with h1 | ⟨l, h1⟩ <;> cases h1

theorem fixedLoop_not_ood (n : Nat) (mn : Int) (a a' : ABlob) : fixedLoop n mn a ≠ (.outOfData, a') := by
  induction n generalizing a with
  | zero => intro h; cases h
  | succ n ih =>
    intro h
    unfold fixedLoop at h
    rw [M.bind_ok (M.get_apply _), size_abs] at h
    split at h
    · rename_i hl
      have e : (chop (toSz mn) : M ABlob ABlob) a = (.ok (a.take (toSz mn)), a.drop (toSz mn)) := by
        rw [chop_abs, if_neg (by omega)]
      rw [M.bind_ok e] at h
      rcases M.bind_eq_ood.1 h with h | ⟨x, s, -, h⟩
      · exact ih _ h
      · cases h
    · cases h

theorem fixedLoop_taken {n : Nat} {mn : Int} {a a' : ABlob} {l : List ABlob} (h : fixedLoop n mn a = (.ok l, a'))
    (hl : l ≠ []) : toSz mn ≤ a.length ∧ a' <:+ a.drop (toSz mn) := by
  cases n with
  | zero => cases h
  | succ n =>
    unfold fixedLoop at h
    rw [M.bind_ok (M.get_apply _), size_abs] at h
    split at h
    · rename_i hs
      refine ⟨hs, Tri.left ?_ h⟩
      have e : (chop (toSz mn) : M ABlob ABlob) a = (.ok (a.take (toSz mn)), a.drop (toSz mn)) := by
        rw [chop_abs, if_neg (by omega)]
      have t : Tri (fixedLoop n mn >>= fun r => pure (a.take (toSz mn) :: r)) (a.drop (toSz mn)) (Suf (a.drop (toSz mn)))
          (fun _ _ => True) := .bind (tri_fixedLoop _ _ (List.suffix_refl _)) fun r a3 hR3 hr => .pure hR3 trivial
      unfold Tri at t ⊢
      rw [M.bind_ok e]
      exact t
    · cases h; exact absurd rfl hl

/-- A split that throws, or returns a piece, has taken nothing only if there was less than the minimum, or, over an
unbounded stamp, not even the two bytes that count the pieces. -/
theorem vecSplit_taken {n : Nat} {mn mx : Int} (h0 : 0 ≤ mn) (hm : mn ≤ INT_MAX) (hfix : mn = mx → 1 ≤ mn)
    {a a' : ABlob} {o : Out (List ABlob)} (h : vecSplit n mn mx a = (o, a')) (hs : a.length < 9223372036854775808)
    (ho : o = .outOfData ∨ ∃ l, o = .ok l ∧ l ≠ []) :
    a' = a ↔ (a.length : Int) < mn ∨ (mx = -1 ∧ a.length < 2) := by
  have hz : toSz mn = mn.toNat := toSz_of_nonneg h0 (by omega)
  have lose : ∀ {k : Nat}, 1 ≤ k → k ≤ a.length → a' <:+ a.drop k → a' ≠ a := fun {k} h1 h2 h3 e => by
    have := h3.length_le
    rw [List.length_drop, e] at this
    omega
  unfold vecSplit at h
  rw [M.bind_ok (M.get_apply _), size_abs, hz] at h
  split at h
  · cases h
    exact ⟨fun _ => .inl (by omega), fun _ => rfl⟩
  rename_i hl
  split at h
  · rename_i he
    subst he
    have hx : ¬ (mn = -1) := by omega
    rcases ho with rfl | ⟨l, rfl, hn⟩
    · exact absurd h (fixedLoop_not_ood _ _ _ _)
    · obtain ⟨h1, h2⟩ := fixedLoop_taken h hn
      have := hfix rfl
      rw [hz] at h1 h2
      exact ⟨fun e => absurd e (lose (by omega) h1 h2), fun e => by omega⟩
  split at h
  · rename_i hmx
    by_cases h2 : a.length < 2
    · have e := oracle_abs a
      rw [if_pos h2] at e
      unfold vecUnbounded at h
      rw [M.bind_ok (M.get_apply _)] at h
      dsimp only at h
      rw [hz, toSz_of_nonneg (by omega) (by omega), if_neg (by omega), M.bind_ood e] at h
      cases h
      exact ⟨fun _ => .inr ⟨hmx, h2⟩, fun _ => rfl⟩
    · have := Tri.left (vecUnbounded_taken mn (by omega) (by
        rw [hz, toSz_of_nonneg (by omega) (by omega)]; omega)) h
      exact ⟨fun e => absurd e (lose (k := 2) (by omega) (by omega) this), fun e => by omega⟩
  · rename_i hmx
    rcases ckInt_cases (mx - mn) with e | e
    · rw [e, M.bind_ok (show (M.lift (.ok (mx - mn)) : M ABlob Int) a = (.ok (mx - mn), a) from rfl)] at h
      obtain ⟨h1, h2⟩ := variatedLoop_taken n mn mx h
        (by rcases ho with rfl | ⟨l, rfl, hn⟩ <;> simp_all) (by rcases ho with rfl | ⟨l, rfl, hn⟩ <;> simp) h0
      exact ⟨fun e => absurd e (lose (k := 2) (by omega) h1 h2), fun e => by omega⟩
    · rw [e] at h
      cases h
      rcases ho with h1 | ⟨l, h1, -⟩ <;> cases h1

/-- **C60**, lists over any stamp: a list that throws has taken nothing exactly if there was less than the element
asks for, or, over an unbounded element, not even the two bytes that count the pieces. -/
theorem C60_list_any {i c : Id} {join : List Bytes → Bytes} (hG : G i = some (.vec c join)) {mn mx : Int}
    (h1 : HasMin G fl c mn) (h2 : HasMax G fl c mx) (h0 : 0 ≤ mn) (hm : mn ≤ INT_MAX) (hfix : mn = mx → 1 ≤ mn)
    {b : Blob} {bs left : Bytes} (hr : Reachable b) (hh : Holds b bs) (ht : Throws G fl i b left) :
    left = bs ↔ (bs.length : Int) < mn ∨ (mx = -1 ∧ bs.length < 2) := by
  obtain ⟨mn', mx', q1, q2, h⟩ := (list_ood_iff hG).1 ((throws_iff hr hh).1 ht)
  obtain rfl := (SizeRuns.unique q1 h1).1
  obtain rfl := (SizeRuns.unique q2 h2).1
  have hs := holds_length_lt hr.valid hh
  rcases h with ⟨n, h⟩ | ⟨pre, p, post, xs, ⟨n, h⟩, -, -, -⟩
  · exact vecSplit_taken h0 hm hfix h hs (.inl rfl)
  · exact vecSplit_taken h0 hm hfix h hs (.inr ⟨_, rfl, by simp⟩)

/-! ## Sets -/

theorem Tri.ok' {σ α γ : Type} {x : α} {s : σ} {R : σ → Prop} {f : α → M σ γ} {P : γ → σ → Prop}
    (h : Tri (f x) s R P) : Tri (M.lift (.ok x) >>= f) s R P := h

theorem Tri.pure' {σ α γ : Type} {x : α} {s : σ} {R : σ → Prop} {f : α → M σ γ} {P : γ → σ → Prop}
    (h : Tri (f x) s R P) : Tri ((Pure.pure x : M σ α) >>= f) s R P := h

theorem setModLoop_taken {nUnb : Nat} (ss : List SizePair) (p u : FV) {a : ABlob} (hl : 2 ≤ a.length)
    (hs : ∃ s ∈ ss, ¬ s.fixed = true ∧ (s.unb = true → 1 < nUnb)) :
    Tri (setModLoop nUnb ss p u : M ABlob SetMods) a (Suf (a.drop 2)) (fun _ _ => True) := by
  have hR : a.drop 2 <:+ a.drop 2 := List.suffix_refl _
  induction ss generalizing p u with
  | nil => obtain ⟨s, hs, -⟩ := hs; cases hs
  | cons s ss ih =>
    unfold setModLoop
    refine .ite (fun hf => ?_) fun hf => .ite (fun hu => .ite (fun hn => ?_) fun hn => ?_) fun hu => ?_
    · refine .bind (ih _ _ ?_) fun r a1 hR hr => .pure hR trivial
      obtain ⟨x, hx, h1, h2⟩ := hs
      rcases List.mem_cons.1 hx with rfl | hx
      · exact absurd hf h1
      · exact ⟨x, hx, h1, h2⟩
    · refine .bind (ih _ _ ?_) fun r a1 hR hr => .pure hR trivial
      obtain ⟨x, hx, h1, h2⟩ := hs
      rcases List.mem_cons.1 hx with rfl | hx
      · exact absurd (h2 hu) (by omega)
      · exact ⟨x, hx, h1, h2⟩
    · refine .oracle' hl fun o => ?_
      exact .bind (tri_setModLoop _ _ _ _ hR) fun r a2 hR hr => .pure hR trivial
    · refine .oracle' hl fun o => ?_
      refine .lift' (ckInt_safe _) hR fun d _ => ?_
      exact .bind (tri_setModLoop _ _ _ _ hR) fun r a2 hR hr => .pure hR trivial

/-- A set with an oracle to read, given its minimum, has taken at least the first oracle whatever happens next. -/
theorem setSplit_taken {ss : List SizePair} (hz : SetSizes ss)
    (ho : (∃ s ∈ ss, IsVariated s) ∨ 2 ≤ (ss.filter fun s => decide (s.2 = -1)).length) {a : ABlob}
    (hmin : setNeeds ss ≤ a.length) :
    2 ≤ a.length ∧ Tri (setSplit ss : M ABlob (List ABlob)) a (Suf (a.drop 2)) (fun _ _ => True) := by
  have hok := hz.ok
  have m0 := minSum_nonneg hok
  have d0 := dSum_nonneg hok
  have hd : dSum ss ≤ INT_MAX := by rw [← slack_sum hok]; exact hz.widths
  obtain ⟨n0, n1⟩ := setNeed_le hz
  have hne := setNeed_eq hok
  have htot := setTotals_ok hok ⟨0, 0, 0, 0⟩ (le_refl _) (by dsimp only; omega) (le_refl _)
    (by dsimp only; omega)
  simp only [zero_add] at htot
  have hfix : setFixed ⟨minSum ss, dSum ss, ss.countP SizePair.unb, ss.countP SizePair.var⟩ = setNeed ss :=
    setFixed_eq (m := minSum ss) (d := dSum ss) (u := ss.countP SizePair.unb)
      (v := ss.countP SizePair.var) m0 n1
  rw [setNeeds_eq] at hmin
  have hu : ss.countP SizePair.unb = (ss.filter fun s => decide (s.2 = -1)).length := by
    rw [List.countP_eq_length_filter]
    congr 2
  have hone : ∃ s ∈ ss, ¬ s.fixed = true ∧ (s.unb = true → 1 < ss.countP SizePair.unb) := by
    rcases ho with ⟨s, hs, h1, h2⟩ | h
    · exact ⟨s, hs, by rw [SizePair.fixed, beq_iff_eq]; exact h1, fun h => absurd (s.unb_iff.1 h) h2⟩
    · obtain ⟨s, hs⟩ := List.exists_mem_of_length_pos (show 0 < (ss.filter fun s => decide (s.2 = -1)).length by omega)
      obtain ⟨hs, he⟩ := List.mem_filter.1 hs
      have he : s.2 = -1 := of_decide_eq_true he
      exact ⟨s, hs, by rw [SizePair.fixed, beq_iff_eq]; have := (hz.sizes s hs).1; omega, fun _ => by omega⟩
  have hl : 2 ≤ a.length := by
    unfold setNeed at hmin
    rcases ho with ⟨s, hs, hv⟩ | h
    · have : 0 < ss.countP SizePair.var := List.countP_pos_iff.2 ⟨s, hs, (isVariated_iff s).1 hv⟩
      split at hmin <;> split at hmin <;> omega
    · rw [if_pos (show 1 < ss.countP SizePair.unb by omega)] at hmin
      split at hmin <;> omega
  refine ⟨hl, ?_⟩
  unfold setSplit
  rw [htot]
  refine .ok' (.get' ?_)
  dsimp only
  rw [hfix]
  refine .ite (fun h => ?_) fun _ => ?_
  · rw [size_abs, toSz_of_nonneg n0 (by omega)] at h
    omega
  have hR : a.drop 2 <:+ a.drop 2 := List.suffix_refl _
  unfold setLimit
  dsimp only
  split
  · refine .bind (Q := fun _ _ => True) ?_ fun lim a1 hR1 _ => ?_
    · refine .oracle' hl fun o => ?_
      exact .lift' (toIntRange_safe _ _ _) hR fun p _ => .pure hR trivial
    refine .bind (tri_setModLoop _ _ _ _ hR1) fun r a2 hR2 h2 => ?_
    refine .lift' ?_ hR2 fun fv _ => .lift' (ckInt_safe _) hR2 fun fu _ => ?_
    · split
      · exact toIntRange_safe _ _ _
      · exact .ok _
    exact (tri_setChopLoop _ _ _ _ _ _ hR2).mono (fun _ h => h) fun l a3 h3 => trivial
  · refine .pure' ?_
    refine .bind (setModLoop_taken _ _ _ hl hone) fun r a2 hR2 h2 => ?_
    refine .lift' ?_ hR2 fun fv _ => .lift' (ckInt_safe _) hR2 fun fu _ => ?_
    · generalize (if wrap32 _ < dSum ss then _ else _ : Int) = lim
      split
      · exact toIntRange_safe _ _ _
      · exact .ok _
    exact (tri_setChopLoop _ _ _ _ _ _ hR2).mono (fun _ h => h) fun l a3 h3 => trivial

theorem HaveSizes.unique {cs : List Id} {ss ss' : List SizePair} (h : HaveSizes G fl cs ss)
    (h' : HaveSizes G fl cs ss') : ss = ss' := by
  unfold HaveSizes at h h'
  induction h generalizing ss' with
  | nil => cases h'; rfl
  | cons x _ ih =>
    cases h' with
    | cons y h' => rw [ih h', Prod.ext (SizeRuns.unique x.1 y.1).1 (SizeRuns.unique x.2 y.2).1]

/-- **C60**, sets over stamps of varying size: a set that reads an oracle (some stamp is variated, or two are
unbounded) and throws has taken nothing exactly if there was less than its own minimum. -/
theorem C60_set_any {i : Id} {cs : List Id} {join : List Bytes → Bytes} {unb : Bool} {ss : List SizePair}
    (hG : G i = some (.set cs join unb)) (hs : HaveSizes G fl cs ss) (hz : SetSizes ss)
    (ho : (∃ s ∈ ss, IsVariated s) ∨ 2 ≤ (ss.filter fun s => decide (s.2 = -1)).length)
    {b : Blob} {bs left : Bytes} (hr : Reachable b) (hh : Holds b bs) (ht : Throws G fl i b left) :
    left = bs ↔ (bs.length : Int) < setNeeds ss := by
  obtain ⟨ss', hs', h⟩ := (set_ood_iff hG).1 ((throws_iff hr hh).1 ht)
  obtain rfl := HaveSizes.unique hs' hs
  by_cases hl : (bs.length : Int) < setNeeds ss'
  · refine ⟨fun _ => hl, fun _ => ?_⟩
    have e := setSplit_short hz (setMinSize_needs hz) hl
    rcases h with h | ⟨parts, pre, q, post, xs, h, -⟩
    · rw [e] at h; cases h; rfl
    · rw [e] at h; cases h
  · refine ⟨fun e => ?_, fun h => absurd h hl⟩
    obtain ⟨h2, t⟩ := setSplit_taken hz ho (a := bs) (by omega)
    have hd : left <:+ bs.drop 2 := by
      rcases h with h | ⟨parts, pre, q, post, xs, h, -⟩ <;> exact Tri.left t h
    have := hd.length_le
    rw [List.length_drop, e] at this
    omega

theorem stampOracles_bare {ss : List SizePair} (h : ∀ s ∈ ss, s.1 = s.2 ∨ s.2 = -1) (bs : Bytes) (o : Nat) :
    some o ∉ stampOracles false ss bs := by
  induction ss with
  | nil => unfold stampOracles; simp
  | cons s ss ih =>
    unfold stampOracles
    rw [if_pos (by have := h s (by simp); simpa using this)]
    rw [List.mem_cons]
    rintro (hc | hc)
    · cases hc
    · exact ih (fun x hx => h x (by simp [hx])) hc

/-- **C60**, sets of stamps of fixed size and one unbounded stamp: nothing is taken if there was less than the sizes add
up to; otherwise everything. -/
theorem C60_set_rest {i : Id} {cs : List Id} {join : List Bytes → Bytes} {unb : Bool} {ss : List SizePair}
    (hG : G i = some (.set cs join unb)) (hs : HaveSizes G fl cs ss) (hz : SetSizes ss)
    (hv : ∀ s ∈ ss, s.1 = s.2 ∨ s.2 = -1) (ho : ss.countP (fun s => s.2 = -1) = 1)
    {b : Blob} {bs left : Bytes} (hr : Reachable b) (hh : Holds b bs) (hS : bs.length ≤ 2147483646)
    (hn : ss.length * (bs.length + 1) ≤ 2 ^ 49) (ht : Throws G fl i b left) :
    left = if (bs.length : Int) < (ss.map Prod.fst).sum then bs else [] := by
  have hvar : ¬ ∃ s ∈ ss, IsVariated s := by
    rintro ⟨s, h1, h2, h3⟩
    rcases hv s h1 with h | h
    · exact h2 h
    · exact h3 h
  have hneed : setNeeds ss = (ss.map Prod.fst).sum := by
    unfold setNeeds
    have e1 : ss.filter (fun s => decide (IsVariated s)) = [] := by
      rw [List.filter_eq_nil_iff]
      exact fun s h1 h2 => hvar ⟨s, h1, of_decide_eq_true h2⟩
    rw [e1, if_neg (by rw [← List.countP_eq_length_filter, ho]; omega), if_neg (fun h => hvar h.1)]
    simp
  obtain ⟨ss', hs', h⟩ := (set_ood_iff hG).1 ((throws_iff hr hh).1 ht)
  obtain rfl := HaveSizes.unique hs' hs
  split
  · rename_i hl
    have e := setSplit_short hz (setMinSize_needs hz) (by rw [hneed]; exact hl)
    rcases h with h | ⟨parts, pre, q, post, xs, h, -⟩
    · rw [e] at h; cases h; rfl
    · rw [e] at h; cases h
  · rename_i hl
    have hso : SetOraclesOk ss' bs := by
      refine ⟨fun h => absurd h hvar, ?_⟩
      rintro ⟨s, hm, -⟩
      have hm := (List.of_mem_zip hm).2
      unfold setOracles at hm
      rw [ho] at hm
      exact stampOracles_bare hv _ _ hm
    obtain ⟨parts, l, e, hf⟩ := set_core hz hso (by rw [← setNeeds_eq, hneed]; omega) hS hn
    have hl0 : l = [] := by
      obtain ⟨fv, -, h2⟩ := hf.used
      rw [if_pos (by rw [← countP_unb, ho]; omega)] at h2
      exact List.eq_nil_of_length_eq_zero (by omega)
    subst hl0
    rcases h with h | ⟨parts, pre, q, post, xs, h, -⟩ <;> (rw [e] at h; cases h; try rfl)

/-! ## Examples -/

/-- A list over a record of a string and a number read in turn, and a list and a set over a stamp of one to three bytes
that always throws. -/
def takenG : Graph
  | 0 => some (.vec 1 (enumJoin [44] [91] [93]))
  | 1 => some (.seq [2, 3] (enumJoin [58] [] []) true)
  | 2 => some .latin1
  | 3 => some (.arith .u8)
  | 4 => some (.vec 5 (enumJoin [44] [91] [93]))
  | 5 => some (.user ⟨1, 3, false, fun _ => (.outOfData, 0)⟩)
  | 6 => some (.set [3, 5] (enumJoin [58] [] []) false)
  | 7 => some (.set [3, 1] (enumJoin [58] [] []) true)
  | _ => none

/-- On one byte the list of records throws and takes nothing. On six bytes it throws as well (the string leaves nothing
for the number), and everything is gone; whatever it throws on, nothing is taken exactly if there were fewer than two
bytes. The other list throws on three bytes and has taken them; the set throws on three bytes and takes nothing, and on
five and has taken some. A set of a number and a record takes nothing of one byte and all of five. -/
example {b b' b3 b5 : Blob} {left : Bytes} (hr : Reachable b) (hh : Holds b [7]) (hr' : Reachable b')
    (hh' : Holds b' [0, 0, 0, 0, 7, 8]) (hr3 : Reachable b3) (hh3 : Holds b3 [0, 0, 5]) (hr5 : Reachable b5)
    (hh5 : Holds b5 [0, 128, 5, 6, 7]) :
    Throws takenG Flags.init 0 b [7] ∧ Throws takenG Flags.init 0 b' [] ∧ Throws takenG Flags.init 4 b3 [] ∧
    Throws takenG Flags.init 6 b3 [0, 0, 5] ∧
    (∀ {c : Blob} {cs : Bytes}, Reachable c → Holds c cs → Throws takenG Flags.init 0 c left →
      (left = cs ↔ cs.length < 2)) ∧
    (Throws takenG Flags.init 4 b3 left → left ≠ [0, 0, 5]) ∧
    (Throws takenG Flags.init 6 b5 left → left ≠ [0, 128, 5, 6, 7]) ∧ Throws takenG Flags.init 7 b5 [] ∧
    (Throws takenG Flags.init 7 b left → left = [7]) ∧ (Throws takenG Flags.init 7 b5 left → left = []) := by
  have m1 : HasMin takenG Flags.init 1 2 := hasSize_eval 3 (by decide +kernel)
  have x1 : HasMax takenG Flags.init 1 (-1) := hasSize_eval 3 (by decide +kernel)
  have m5 : HasMin takenG Flags.init 5 1 := hasSize_eval 2 (by decide +kernel)
  have x5 : HasMax takenG Flags.init 5 3 := hasSize_eval 2 (by decide +kernel)
  have m3 : HasMin takenG Flags.init 3 1 := hasSize_eval 2 (by decide +kernel)
  have x3 : HasMax takenG Flags.init 3 1 := hasSize_eval 2 (by decide +kernel)
  have hz : SetSizes [((1, 1) : SizePair), (1, 3)] := ⟨by decide, by decide, by decide⟩
  have hz7 : SetSizes [((1, 1) : SizePair), (2, -1)] := ⟨by decide, by decide, by decide⟩
  have hs7 : HaveSizes takenG Flags.init [3, 1] [(1, 1), (2, -1)] := .cons ⟨m3, x3⟩ (.cons ⟨m1, x1⟩ .nil)
  refine ⟨Throws.intro hr.valid hh (Extracts.intro (n := 5) (throw_eval (by decide +kernel) (by decide +kernel)) (by simp)),
    Throws.intro hr'.valid hh' (Extracts.intro (n := 5) (throw_eval (by decide +kernel) (by decide +kernel)) (by simp)),
    Throws.intro hr3.valid hh3 (Extracts.intro (n := 5) (throw_eval (by decide +kernel) (by decide +kernel)) (by simp)),
    Throws.intro hr3.valid hh3 (Extracts.intro (n := 5) (throw_eval (by decide +kernel) (by decide +kernel)) (by simp)),
    fun hc hcs ht => ?_, fun ht e => ?_, fun ht e => ?_,
    Throws.intro hr5.valid hh5 (Extracts.intro (n := 5) (throw_eval (by decide +kernel) (by decide +kernel)) (by simp)),
    fun ht => C60_set_rest (i := 7) rfl hs7 hz7 (by decide) (by decide) hr hh (by decide) (by decide) ht,
    fun ht => C60_set_rest (i := 7) rfl hs7 hz7 (by decide) (by decide) hr5 hh5 (by decide) (by decide) ht⟩
  · have := C60_list_any (i := 0) rfl m1 x1 (by decide) (by decide) (by decide) hc hcs ht
    exact this.trans ⟨fun h => by omega, fun h => .inl (by omega)⟩
  · have := (C60_list_any (i := 4) rfl m5 x5 (by decide) (by decide) (by decide) hr3 hh3 ht).1 e
    exact absurd this (by decide)
  · have := (C60_set_any (i := 6) rfl (.cons ⟨m3, x3⟩ (.cons ⟨m5, x5⟩ .nil)) hz (.inl ⟨(1, 3), by decide, by decide⟩)
      hr5 hh5 ht).1 e
    exact absurd this (by decide)

end BS
