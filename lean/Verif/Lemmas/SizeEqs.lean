import Verif.Lemmas.Sizes

/-!
# Equations for size queries, without budgets
-/

namespace BS

theorem leaf_sizeQ {G : Graph} {i : Id} {nd : Node} (hG : G i = some nd) (hk : nd.plainKids = [])
    (hp : ∀ pool, nd ≠ .picker pool) (sel : Sel) :
    ∃ o : Out Int, ∀ n fl, sizeQ G (n + 1) sel i fl = (o, fl) := by
  have key : ∀ {q : Nat → M Flags Int} {o : Out Int}, (∀ n fl, q n fl = (o, fl)) →
      (∀ n, sizeQ G (n + 1) sel i = q n) → ∃ o : Out Int, ∀ n fl, sizeQ G (n + 1) sel i fl = (o, fl) :=
    fun {q o} h e => ⟨o, fun n fl => by rw [e, h]⟩
  have leaf : ∀ v : Int, (∀ n, sizeQ G (n + 1) sel i = pure v) →
      ∃ o : Out Int, ∀ n fl, sizeQ G (n + 1) sel i fl = (o, fl) :=
    fun v e => key (q := fun _ => pure v) (o := .ok v) (fun _ _ => rfl) e
  cases nd with
  | arith t => exact leaf _ fun n => by conv_lhs => unfold sizeQ
                                        rw [hG]
  | dict ws => exact leaf _ fun n => by conv_lhs => unfold sizeQ
                                        rw [hG]
  | jsonStr => exact leaf _ fun n => by conv_lhs => unfold sizeQ
                                        rw [hG]
  | latin1 => exact leaf _ fun n => by conv_lhs => unfold sizeQ
                                       rw [hG]
  | ascii => exact leaf _ fun n => by conv_lhs => unfold sizeQ
                                      rw [hG]
  | user u => exact leaf _ fun n => by conv_lhs => unfold sizeQ
                                       rw [hG]
  | vec c join => cases hk
  | unary op c => cases hk
  | picker pool => exact absurd rfl (hp pool)
  | lottery rec4 stamps osz smin smax =>
    cases sel with
    | min =>
      refine key (q := fun _ => M.lift (ckInt (smin + osz))) (fun _ _ => rfl) fun n => ?_
      conv_lhs => unfold sizeQ
      rw [hG]
    | max =>
      by_cases hs : smax = -1
      · refine leaf (-1) fun n => ?_
        conv_lhs => unfold sizeQ
        rw [hG]; dsimp only; rw [if_pos hs]
      · refine key (q := fun _ => M.lift (ckInt (smax + osz))) (fun _ _ => rfl) fun n => ?_
        conv_lhs => unfold sizeQ
        rw [hG]; dsimp only; rw [if_neg hs]
  | set cs join unb =>
    obtain rfl : cs = [] := hk
    cases sel with
    | max =>
      cases unb with
      | true => exact leaf _ fun n => by conv_lhs => unfold sizeQ
                                         rw [hG]
      | false => exact leaf 0 fun n => by conv_lhs => unfold sizeQ
                                          rw [hG]
                                          rfl
    | min => exact leaf 0 fun n => by conv_lhs => unfold sizeQ
                                      rw [hG]
                                      rfl
  | seq cs join unb =>
    obtain rfl : cs = [] := hk
    cases sel with
    | max =>
      cases unb with
      | true => exact leaf _ fun n => by conv_lhs => unfold sizeQ
                                         rw [hG]
      | false => exact leaf 0 fun n => by conv_lhs => unfold sizeQ
                                          rw [hG]
                                          rfl
    | min => exact leaf 0 fun n => by conv_lhs => unfold sizeQ
                                      rw [hG]
                                      rfl

theorem leaf_size {G : Graph} {i : Id} {nd : Node} (hG : G i = some nd) (hk : nd.plainKids = [])
    (hp : ∀ pool, nd ≠ .picker pool) {sel : Sel} {fl : Flags} {v : Int}
    (h : SizeRuns G fl sel i v fl) (fl' : Flags) : SizeRuns G fl' sel i v fl' := by
  obtain ⟨o, ho⟩ := leaf_sizeQ hG hk hp sel
  obtain ⟨N, h⟩ := h
  have e := h (N + 1) (by omega)
  rw [ho] at e
  obtain ⟨rfl, -⟩ := Prod.mk.inj e
  exact SizeRuns.intro (n := 1) (ho 0 fl')

section
variable {G : Graph} {i : Id} {fl : Flags}

theorem min_vec {c : Id} {join : List Bytes → Bytes} {mn mx : Int} (hG : G i = some (.vec c join))
    (h1 : HasMin G fl c mn) (h2 : HasMax G fl c mx) : HasMin G fl i (vecMinSize mn mx) := by
  obtain ⟨N1, h1⟩ := h1
  obtain ⟨N2, h2⟩ := h2
  refine SizeRuns.intro (n := max N1 N2 + 1) ?_
  unfold sizeQ
  rw [hG]
  dsimp only
  rw [M.bind_ok (h1 _ (by omega)), M.bind_ok (h2 _ (by omega))]
  rfl

theorem max_vec {c : Id} {join : List Bytes → Bytes} (hG : G i = some (.vec c join)) :
    HasMax G fl i (-1) := by
  refine SizeRuns.intro (n := 1) ?_
  unfold sizeQ
  rw [hG]; rfl

theorem max_unary {c : Id} {op : Bytes} (hG : G i = some (.unary op c)) : HasMax G fl i (-1) := by
  refine SizeRuns.intro (n := 1) ?_
  unfold sizeQ
  rw [hG]; rfl

theorem max_seq {cs : List Id} {join : List Bytes → Bytes} (hG : G i = some (.seq cs join true)) :
    HasMax G fl i (-1) := by
  refine SizeRuns.intro (n := 1) ?_
  unfold sizeQ
  rw [hG]; rfl

theorem min_unary {c : Id} {op : Bytes} {v : Int} (hG : G i = some (.unary op c))
    (h : HasMin G fl c v) : HasMin G fl i v := by
  obtain ⟨N, h⟩ := h
  refine SizeRuns.intro (n := N + 1) ?_
  unfold sizeQ
  rw [hG]; exact h _ (le_refl _)

theorem sumInts_ok {l : List Int} {a v : Int} (h : sumInts l a = .ok v) : v = a + l.sum := by
  induction l generalizing a with
  | nil => cases h; simp
  | cons x l ih =>
    unfold sumInts at h
    rcases ckInt_cases (a + x) with e | e
    · rw [e] at h
      have := ih h
      rw [this, List.sum_cons]; omega
    · rw [e] at h; cases h

theorem min_seq_inv {cs : List Id} {join : List Bytes → Bytes} {unb : Bool} {v : Int}
    (hG : G i = some (.seq cs join unb)) (h : HasMin G fl i v) :
    ∃ vs, List.Forall₂ (fun c x => HasMin G fl c x) cs vs ∧ v = vs.sum := by
  obtain ⟨N, h⟩ := h
  have e := h (N + 1) (by omega)
  have e1 : sizeQ G (N + 1) .min i = (do
          let xs ← queryAll (sizeQ G N .min) cs
          M.lift (sumInts xs 0)) := by
    conv_lhs => unfold sizeQ
    rw [hG]
  rw [e1] at e
  obtain ⟨vs, fl1, h1, e⟩ := M.bind_eq_ok.1 e
  obtain ⟨rfl, hf⟩ := queryAll_ok (fun j => keeps_sizeQ _ _ _ j) h1
  refine ⟨vs, hf.imp fun c x hx => SizeRuns.intro hx, ?_⟩
  have := sumInts_ok (Prod.mk.inj e).1
  omega

theorem pickMinLoop_run {q : Id → M Flags Int} {fl : Flags} {m : Id → Int} {l : List Id}
    (h : ∀ j ∈ l, q j fl = (.ok (m j), fl)) (r : Int) :
    ∃ res, pickMinLoop q l r fl = (.ok res, fl) ∧ res ≤ r ∧ (∀ j ∈ l, res ≤ m j) ∧
      (res = r ∨ ∃ j ∈ l, res = m j) := by
  induction l generalizing r with
  | nil => exact ⟨r, rfl, le_refl _, by simp, Or.inl rfl⟩
  | cons i l ih =>
    obtain ⟨res, h1, h2, h3, h4⟩ := ih (fun j hj => h j (List.mem_cons_of_mem _ hj))
      (if m i < r then m i else r)
    refine ⟨res, ?_, ?_, ?_, ?_⟩
    · unfold pickMinLoop
      rw [M.bind_ok (h i (by simp))]; exact h1
    · split at h2 <;> omega
    · intro j hj
      rcases List.mem_cons.1 hj with rfl | hj
      · split at h2 <;> omega
      · exact h3 j hj
    · rcases h4 with h4 | ⟨j, hj, e⟩
      · split at h4
        · exact Or.inr ⟨i, by simp, h4⟩
        · exact Or.inl h4
      · exact Or.inr ⟨j, List.mem_cons_of_mem _ hj, e⟩

theorem pickMaxLoop_run {q : Id → M Flags Int} {fl : Flags} {m : Id → Int} {l : List Id}
    (h : ∀ j ∈ l, q j fl = (.ok (m j), fl)) (r : Int) :
    ((∃ j ∈ l, m j = -1) ∧ pickMaxLoop q l r fl = (.ok none, fl)) ∨
    ((∀ j ∈ l, m j ≠ -1) ∧ ∃ res, pickMaxLoop q l r fl = (.ok (some res), fl) ∧ r ≤ res ∧
      (∀ j ∈ l, m j ≤ res) ∧ (res = r ∨ ∃ j ∈ l, res = m j)) := by
  induction l generalizing r with
  | nil => exact Or.inr ⟨by simp, r, rfl, le_refl _, by simp, Or.inl rfl⟩
  | cons i l ih =>
    have hstep : pickMaxLoop q (i :: l) r fl = (if m i = -1 then pure none
        else pickMaxLoop q l (if r < m i then m i else r)) fl := by
      conv_lhs => unfold pickMaxLoop
      rw [M.bind_ok (h i (by simp))]
    by_cases hm : m i = -1
    · exact Or.inl ⟨⟨i, by simp, hm⟩, by rw [hstep, if_pos hm]; rfl⟩
    · rw [hstep, if_neg hm]
      rcases ih (fun j hj => h j (List.mem_cons_of_mem _ hj)) (if r < m i then m i else r) with
        ⟨⟨j, hj, hj1⟩, e⟩ | ⟨hn, res, e, h2, h3, h4⟩
      · exact Or.inl ⟨⟨j, List.mem_cons_of_mem _ hj, hj1⟩, e⟩
      · refine Or.inr ⟨?_, res, e, ?_, ?_, ?_⟩
        · intro j hj
          rcases List.mem_cons.1 hj with rfl | hj
          · exact hm
          · exact hn j hj
        · split at h2 <;> omega
        · intro j hj
          rcases List.mem_cons.1 hj with rfl | hj
          · split at h2 <;> omega
          · exact h3 j hj
        · rcases h4 with h4 | ⟨j, hj, e⟩
          · split at h4
            · exact Or.inr ⟨i, by simp, h4⟩
            · exact Or.inl h4
          · exact Or.inr ⟨j, List.mem_cons_of_mem _ hj, e⟩

theorem min_picker_in {pool : List Id} (hG : G i = some (.picker pool)) (hf : (fl i).inRec = true) :
    HasMin G fl i (INT_MAX / 2) := by
  refine SizeRuns.intro (n := 1) ?_
  unfold sizeQ
  rw [hG]
  dsimp only
  rw [M.bind_ok (M.get_apply fl), if_pos hf]; rfl

theorem max_picker_in {pool : List Id} (hG : G i = some (.picker pool))
    (hf : ((fl i).isRec || (fl i).inRec) = true) : HasMax G fl i (-1) := by
  refine SizeRuns.intro (n := 1) ?_
  unfold sizeQ
  rw [hG]
  dsimp only
  rw [M.bind_ok (M.get_apply fl), if_pos hf]; rfl

theorem min_picker {pool : List Id} (hG : G i = some (.picker pool)) (hf : (fl i).inRec = false)
    {m : Id → Int} (h : ∀ j ∈ pool, HasMin G (fl.setIn i true) j (m j)) :
    ∃ r, r ≤ INT_MAX / 2 ∧ (∀ j ∈ pool, r ≤ m j) ∧ (r = INT_MAX / 2 ∨ ∃ j ∈ pool, r = m j) ∧
      HasMin G fl i (if r = INT_MAX / 2 then INT_MAX / 2 else wrap32 (r + 2)) := by
  obtain ⟨N, hN⟩ := exists_common pool h
  obtain ⟨r, h1, h2, h3, h4⟩ := pickMinLoop_run (hN N (le_refl _)) (INT_MAX / 2)
  refine ⟨r, h2, h3, h4, SizeRuns.intro (n := N + 1) ?_⟩
  unfold sizeQ
  rw [hG]
  dsimp only
  rw [M.bind_ok (M.get_apply fl), if_neg (by simp [hf])]
  have e1 : modFlags (·.setIn i true) fl = (.ok (), fl.setIn i true) := rfl
  have e2 : modFlags (·.setIn i false) (fl.setIn i true) = (.ok (), fl) := by
    show (Out.ok (), (fl.setIn i true).setIn i false) = _
    rw [Flags.setIn_setIn fl i hf]
  rw [M.bind_ok e1, M.bind_ok h1, M.bind_ok e2]
  split <;> rfl

theorem max_picker {pool : List Id} (hG : G i = some (.picker pool)) (hf : (fl i).inRec = false)
    (hf' : (fl i).isRec = false)
    {m : Id → Int} (h : ∀ j ∈ pool, HasMax G (fl.setIn i true) j (m j)) :
    ((∃ j ∈ pool, m j = -1) ∧ HasMax G fl i (-1)) ∨
    ((∀ j ∈ pool, m j ≠ -1) ∧ ∃ r, 0 ≤ r ∧ (∀ j ∈ pool, m j ≤ r) ∧ (r = 0 ∨ ∃ j ∈ pool, r = m j) ∧
      HasMax G fl i (wrap32 (r + 2))) := by
  obtain ⟨N, hN⟩ := exists_common pool h
  have e1 : modFlags (·.setIn i true) fl = (.ok (), fl.setIn i true) := rfl
  have e2 : modFlags (·.setIn i false) (fl.setIn i true) = (.ok (), fl) := by
    show (Out.ok (), (fl.setIn i true).setIn i false) = _
    rw [Flags.setIn_setIn fl i hf]
  have e3 : sizeQ G (N + 1) .max i fl = (do
            modFlags (·.setIn i true)
            let r ← pickMaxLoop (sizeQ G N .max) pool 0
            modFlags (·.setIn i false)
            match r with
            | none => pure (-1)
            | some res => pure (wrap32 (res + 2)) : M Flags Int) fl := by
    conv_lhs => unfold sizeQ
    rw [hG]
    dsimp only
    rw [M.bind_ok (M.get_apply fl), if_neg (by simp [hf, hf'])]
    rfl
  rcases pickMaxLoop_run (hN N (le_refl _)) 0 with ⟨hx, h1⟩ | ⟨hx, r, h1, h2, h3, h4⟩
  · refine Or.inl ⟨hx, SizeRuns.intro (n := N + 1) ?_⟩
    rw [e3, M.bind_ok e1, M.bind_ok h1, M.bind_ok e2]; rfl
  · refine Or.inr ⟨hx, r, h2, h3, h4, SizeRuns.intro (n := N + 1) ?_⟩
    rw [e3, M.bind_ok e1, M.bind_ok h1, M.bind_ok e2]; rfl

end

end BS
