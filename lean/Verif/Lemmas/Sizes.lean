import Verif.Spec.Wiring
import Verif.Lemmas.Invert
import Verif.Lemmas.Returns
import Mathlib.Order.WellFounded
import Mathlib.Data.Fintype.Card
import Mathlib.Data.Finset.Card
import Mathlib.Data.Finset.Range
import Mathlib.Order.RelIso.Basic
import Mathlib.Data.Fintype.EquivFin

/-!
# Size queries end
-/

namespace BS

theorem Guarded.wf {G : Graph} (h : Guarded G) : WellFounded (fun j i => PlainEdge G i j) := by
  obtain ⟨B, hB⟩ := h.finite
  -- predecessors are below B, so a chain can be followed inside `Fin B`
  have hlt : ∀ i j, PlainEdge G i j → i < B := by
    rintro i j ⟨nd, hnd, _⟩
    by_contra hc
    rw [hB i (Nat.le_of_not_lt hc)] at hnd
    cases hnd
  let r : Fin B → Fin B → Prop := fun a b => Relation.TransGen (PlainEdge G) b.val a.val
  have hirr : Std.Irrefl r := ⟨fun a => h.acyclic a.val⟩
  have htr : IsTrans (Fin B) r := ⟨fun a b c hab hbc => hbc.trans hab⟩
  have hwf : WellFounded r := Finite.wellFounded_of_trans_of_irrefl r
  have hacc : ∀ a : Fin B, Acc (fun j i => PlainEdge G i j) a.val := by
    intro a
    induction a using hwf.induction with
    | _ a ih =>
      refine ⟨_, fun j hj => ?_⟩
      by_cases hjB : j < B
      · exact ih ⟨j, hjB⟩ (.single hj)
      · refine ⟨_, fun k hk => absurd (hlt _ _ hk) hjB⟩
  refine ⟨fun i => ?_⟩
  by_cases hi : i < B
  · exact hacc ⟨i, hi⟩
  · exact ⟨_, fun k hk => absurd (hlt _ _ hk) hi⟩

/-- How many of the first `B` objects are not under way. -/
def freeCount (B : Nat) (fl : Flags) : Nat := ((Finset.range B).filter fun i => (fl i).inRec = false).card

/-- Induction over a guarded graph and the flags: down the plain edges with the same flags, and below
a picker with its flag set. -/
theorem Guarded.induction {G : Graph} (h : Guarded G) {C : Flags → Id → Prop}
    (step : ∀ fl i, (∀ j, PlainEdge G i j → C fl j) →
      (∀ pool, G i = some (.picker pool) → (fl i).inRec = false → ∀ j, C (fl.setIn i true) j) →
      C fl i) : ∀ fl i, C fl i := by
  obtain ⟨B, hB⟩ := h.finite
  have hwf := h.wf
  have key : ∀ p fl, freeCount B fl ≤ p →
      ∀ i, C fl i := by
    intro p
    induction p with
    | zero =>
      intro fl hp i
      induction i using hwf.induction with
      | _ i ih =>
        refine step fl i (fun j hj => ih j hj) fun pool hG hf => ?_
        exfalso
        have hi : i < B := by
          by_contra hc
          rw [hB i (Nat.le_of_not_lt hc)] at hG; cases hG
        have : i ∈ (Finset.range B).filter fun i => (fl i).inRec = false := by
          simp [hi, hf]
        have : 0 < freeCount B fl := Finset.card_pos.2 ⟨i, this⟩
        exact absurd hp (Nat.not_le.2 this)
    | succ p ihp =>
      intro fl hp i
      induction i using hwf.induction with
      | _ i ih =>
        refine step fl i (fun j hj => ih j hj) fun pool hG hf => ?_
        apply ihp
        have hi : i < B := by
          by_contra hc
          rw [hB i (Nat.le_of_not_lt hc)] at hG; cases hG
        have hsub : ((Finset.range B).filter fun k => ((fl.setIn i true) k).inRec = false) ⊂
            ((Finset.range B).filter fun k => (fl k).inRec = false) := by
          rw [Finset.ssubset_iff_of_subset]
          · refine ⟨i, by simp [hi, hf], ?_⟩
            simp [Flags.setIn]
          · intro k hk
            rw [Finset.mem_filter] at hk ⊢
            refine ⟨hk.1, ?_⟩
            have := hk.2
            unfold Flags.setIn at this
            split at this
            · simp at this
            · exact this
        have : freeCount B (fl.setIn i true) < freeCount B fl := Finset.card_lt_card hsub
        exact Nat.le_of_lt_succ (Nat.lt_of_lt_of_le this hp)
  exact fun fl i => key _ fl (le_refl _) i

/-! ## Termination -/

theorem sizeQ_stable {G : Graph} {n m : Nat} {sel : Sel} {i : Id} {fl : Flags} (h : n ≤ m)
    (hn : (sizeQ G n sel i fl).1 ≠ .fuel) : sizeQ G m sel i fl = sizeQ G n sel i fl := by
  rcases fle_sizeQ G h sel i fl with e | e
  · exact absurd e hn
  · exact e.symm

/-- A query ends, with a value or undefined, for every large budget. -/
def Ends {α : Type} (q : Nat → M Flags α) (fl : Flags) : Prop :=
  ∃ N, ∀ n ≥ N, (q n fl).1 ≠ .fuel

theorem Ends.pure {α : Type} (a : Nat → α) (fl : Flags) : Ends (fun n => (Pure.pure (a n) : M Flags α)) fl :=
  ⟨0, fun _ _ => by simp⟩

theorem Ends.okUb {α : Type} {o : Nat → Out α} (h : ∀ n, (o n).OkUb) (fl : Flags) :
    Ends (fun n => (M.lift (o n) : M Flags α)) fl := by
  refine ⟨0, fun n _ => ?_⟩
  show o n ≠ _
  rcases h n with ⟨a, e⟩ | ⟨r, e⟩ <;> rw [e] <;> simp

/-- Queries whose answer no longer changes with the budget. -/
def Stable {α : Type} (q : Nat → M Flags α) : Prop := ∀ n m, n ≤ m → FLe (q n) (q m)

theorem Ends.bind {α γ : Type} {q : Nat → M Flags α} {f : Nat → α → M Flags γ} {fl : Flags}
    (hq : Stable q) (hk : ∀ n, KeepsF (q n)) (h : Ends q fl) (hf : ∀ a, Ends (fun n => f n a) fl) :
    Ends (fun n => q n >>= f n) fl := by
  obtain ⟨N, hN⟩ := h
  rcases hm : q N fl with ⟨o, fl'⟩
  have hst : ∀ n ≥ N, q n fl = (o, fl') := by
    intro n hn
    rcases hq N n hn fl with e | e
    · exact absurd e (hN N (le_refl _))
    · rw [← e, hm]
  cases o with
  | ok a =>
    obtain rfl := (hk N fl).2.2 a fl' hm
    obtain ⟨N', h'⟩ := hf a
    refine ⟨max N N', fun n hn => ?_⟩
    dsimp only
    rw [M.bind_ok (hst n (by omega))]
    exact h' n (by omega)
  | outOfData => exact absurd (by rw [hm]) (hk N fl).1
  | abort => exact absurd (by rw [hm]) (hk N fl).2.1
  | ub r => exact ⟨N, fun n hn => by dsimp only; rw [M.bind_ub (hst n hn)]; simp⟩
  | fuel => exact absurd (by rw [hm]) (hN N (le_refl _))

theorem Stable.sizeQ (G : Graph) (sel : Sel) (i : Id) : Stable (fun n => sizeQ G n sel i) :=
  fun _ _ h => fle_sizeQ G h sel i

theorem Stable.queryAll (G : Graph) (sel : Sel) (l : List Id) :
    Stable (fun n => queryAll (BS.sizeQ G n sel) l) :=
  fun _ _ h => fle_queryAll (fun i => fle_sizeQ G h sel i) l

theorem Stable.pickMinLoop (G : Graph) (sel : Sel) (l : List Id) (r : Int) :
    Stable (fun n => pickMinLoop (BS.sizeQ G n sel) l r) :=
  fun _ _ h => fle_pickMinLoop (fun i => fle_sizeQ G h sel i) l r

theorem Stable.pickMaxLoop (G : Graph) (sel : Sel) (l : List Id) (r : Int) :
    Stable (fun n => pickMaxLoop (BS.sizeQ G n sel) l r) :=
  fun _ _ h => fle_pickMaxLoop (fun i => fle_sizeQ G h sel i) l r

theorem Ends.queryAll {G : Graph} {sel : Sel} {l : List Id} {fl : Flags}
    (h : ∀ j ∈ l, Ends (fun n => BS.sizeQ G n sel j) fl) : Ends (fun n => queryAll (BS.sizeQ G n sel) l) fl := by
  induction l with
  | nil => exact .pure (fun _ => []) fl
  | cons i l ih =>
    refine Ends.bind (f := fun n c => BS.queryAll (BS.sizeQ G n sel) l >>= fun r => Pure.pure (c :: r))
      (Stable.sizeQ G sel i) (fun n => keeps_sizeQ _ _ _ _) (h i (by simp)) fun a => ?_
    exact Ends.bind (Stable.queryAll G sel l) (fun n => keeps_queryAll (fun j => keeps_sizeQ _ _ _ j) _)
      (ih fun j hj => h j (List.mem_cons_of_mem _ hj)) fun b => .pure (fun _ => a :: b) fl

theorem Ends.pickMinLoop {G : Graph} {sel : Sel} {l : List Id} {fl : Flags} (r : Int)
    (h : ∀ j ∈ l, Ends (fun n => BS.sizeQ G n sel j) fl) :
    Ends (fun n => pickMinLoop (BS.sizeQ G n sel) l r) fl := by
  induction l generalizing r with
  | nil => exact .pure (fun _ => r) fl
  | cons i l ih =>
    exact Ends.bind (f := fun n c => BS.pickMinLoop (BS.sizeQ G n sel) l (if c < r then c else r))
      (Stable.sizeQ G sel i) (fun n => keeps_sizeQ _ _ _ _) (h i (by simp))
      fun a => ih _ fun j hj => h j (List.mem_cons_of_mem _ hj)

theorem Ends.pickMaxLoop {G : Graph} {sel : Sel} {l : List Id} {fl : Flags} (r : Int)
    (h : ∀ j ∈ l, Ends (fun n => BS.sizeQ G n sel j) fl) :
    Ends (fun n => pickMaxLoop (BS.sizeQ G n sel) l r) fl := by
  induction l generalizing r with
  | nil => exact .pure (fun _ => some r) fl
  | cons i l ih =>
    refine Ends.bind (f := fun n c => if c = -1 then Pure.pure none
      else BS.pickMaxLoop (BS.sizeQ G n sel) l (if r < c then c else r))
      (Stable.sizeQ G sel i) (fun n => keeps_sizeQ _ _ _ _) (h i (by simp)) fun a => ?_
    by_cases hc : a = -1
    · simp only [if_pos hc]; exact .pure (fun _ => none) fl
    · simp only [if_neg hc]; exact ih _ fun j hj => h j (List.mem_cons_of_mem _ hj)

theorem Ends.succ {G : Graph} {sel : Sel} {i : Id} {fl : Flags}
    (h : Ends (fun n => BS.sizeQ G (n + 1) sel i) fl) : Ends (fun n => BS.sizeQ G n sel i) fl := by
  obtain ⟨N, hN⟩ := h
  refine ⟨N + 1, fun n hn => ?_⟩
  obtain ⟨k, rfl⟩ : ∃ k, n = k + 1 := ⟨n - 1, by omega⟩
  exact hN k (by omega)

theorem Guarded.ends {G : Graph} (h : Guarded G) (fl : Flags) (i : Id) (sel : Sel) :
    Ends (fun n => sizeQ G n sel i) fl := by
  revert sel
  refine h.induction (C := fun fl i => ∀ sel, Ends (fun n => sizeQ G n sel i) fl) ?_ fl i
  intro fl i hp hk sel
  apply Ends.succ
  rcases hG : G i with _ | nd
  · refine ⟨0, fun n _ => ?_⟩
    unfold sizeQ; rw [hG]; simp
  have hp' : ∀ j ∈ nd.plainKids, ∀ sel, Ends (fun n => sizeQ G n sel j) fl :=
    fun j hj => hp j ⟨nd, hG, hj⟩
  have leaf : ∀ v : Int, (∀ n, sizeQ G (n + 1) sel i = pure v) →
      Ends (fun n => sizeQ G (n + 1) sel i) fl :=
    fun v e => by simp only [e]; exact .pure (fun _ => v) fl
  cases nd with
  | arith t => exact leaf _ fun n => by conv_lhs => unfold sizeQ
                                        rw [hG]
  | dict ws => exact leaf _ fun n => by conv_lhs => unfold sizeQ
                                        rw [hG]
  | jsonStr => exact leaf _ fun n => by conv_lhs => unfold sizeQ
                                        rw [hG]
  | latin1 => exact leaf _ fun n => by conv_lhs => unfold sizeQ
                                       rw [hG]
  | ascii => exact leaf _ fun n => by conv_lhs => unfold sizeQ
                                      rw [hG]
  | user u => exact leaf _ fun n => by conv_lhs => unfold sizeQ
                                       rw [hG]
  | vec c join =>
    cases sel with
    | max => exact leaf _ fun n => by conv_lhs => unfold sizeQ
                                      rw [hG]
    | min =>
      have e : ∀ n, sizeQ G (n + 1) .min i = (do
          let mn ← sizeQ G n .min c
          let mx ← sizeQ G n .max c
          pure (vecMinSize mn mx)) := fun n => by conv_lhs => unfold sizeQ
                                                  rw [hG]
      simp only [e]
      exact Ends.bind (Stable.sizeQ G _ _) (fun n => keeps_sizeQ _ _ _ _) (hp' c (by simp [Node.plainKids]) _) fun a =>
        Ends.bind (f := fun _ b => pure (vecMinSize a b)) (Stable.sizeQ G _ _)
          (fun n => keeps_sizeQ _ _ _ _) (hp' c (by simp [Node.plainKids]) _)
          fun b => .pure (fun _ => vecMinSize a b) fl
  | unary op c =>
    cases sel with
    | max => exact leaf _ fun n => by conv_lhs => unfold sizeQ
                                      rw [hG]
    | min =>
      have e : ∀ n, sizeQ G (n + 1) .min i = sizeQ G n .min c := fun n => by
        conv_lhs => unfold sizeQ
        rw [hG]
      simp only [e]
      exact hp' c (by simp [Node.plainKids]) _
  | set cs join unb =>
    have hc : ∀ sel, Ends (fun n => queryAll (sizeQ G n sel) cs) fl := fun sel =>
      Ends.queryAll fun j hj => hp' j hj sel
    cases sel with
    | max =>
      cases unb with
      | true => exact leaf _ fun n => by conv_lhs => unfold sizeQ
                                         rw [hG]
      | false =>
        have e : ∀ n, sizeQ G (n + 1) .max i = (do
            let mns ← queryAll (sizeQ G n .min) cs
            let mxs ← queryAll (sizeQ G n .max) cs
            M.lift (setMaxSize (mns.zip mxs) 0)) := fun n => by conv_lhs => unfold sizeQ
                                                                rw [hG]
        simp only [e]
        exact Ends.bind (Stable.queryAll G _ _) (fun n => keeps_queryAll (fun j => keeps_sizeQ _ _ _ j) _)
          (hc _) fun a => Ends.bind (f := fun _ b => M.lift (setMaxSize (a.zip b) 0)) (Stable.queryAll G _ _)
          (fun n => keeps_queryAll (fun j => keeps_sizeQ _ _ _ j) _)
          (hc _) fun b => .okUb (fun _ => setMaxSize_okUb _ _) fl
    | min =>
      have e : ∀ n, sizeQ G (n + 1) .min i = (do
          let mns ← queryAll (sizeQ G n .min) cs
          let mxs ← queryAll (sizeQ G n .max) cs
          M.lift (setMinSize (mns.zip mxs))) := fun n => by conv_lhs => unfold sizeQ
                                                            rw [hG]
      simp only [e]
      exact Ends.bind (Stable.queryAll G _ _) (fun n => keeps_queryAll (fun j => keeps_sizeQ _ _ _ j) _)
        (hc _) fun a => Ends.bind (f := fun _ b => M.lift (setMinSize (a.zip b))) (Stable.queryAll G _ _)
        (fun n => keeps_queryAll (fun j => keeps_sizeQ _ _ _ j) _)
        (hc _) fun b => .okUb (fun _ => setMinSize_okUb _) fl
  | seq cs join unb =>
    have hc : ∀ sel, Ends (fun n => queryAll (sizeQ G n sel) cs) fl := fun sel =>
      Ends.queryAll fun j hj => hp' j hj sel
    have gen : (∀ n, sizeQ G (n + 1) sel i = (do
          let xs ← queryAll (sizeQ G n sel) cs
          M.lift (sumInts xs 0))) → Ends (fun n => sizeQ G (n + 1) sel i) fl := by
      intro e
      simp only [e]
      exact Ends.bind (f := fun _ b => M.lift (sumInts b 0)) (Stable.queryAll G _ _)
        (fun n => keeps_queryAll (fun j => keeps_sizeQ _ _ _ j) _)
        (hc _) fun a => .okUb (fun _ => sumInts_okUb _ _) fl
    cases sel with
    | max =>
      cases unb with
      | true => exact leaf _ fun n => by conv_lhs => unfold sizeQ
                                         rw [hG]
      | false => exact gen fun n => by conv_lhs => unfold sizeQ
                                       rw [hG]
    | min => exact gen fun n => by conv_lhs => unfold sizeQ
                                   rw [hG]
  | lottery rec4 stamps osz smin smax =>
    cases sel with
    | min =>
      have e : ∀ n, sizeQ G (n + 1) .min i = M.lift (ckInt (smin + osz)) := fun n => by
        conv_lhs => unfold sizeQ
        rw [hG]
      simp only [e]
      exact .okUb (fun _ => ckInt_okUb _) fl
    | max =>
      have e : ∀ n, sizeQ G (n + 1) .max i = if smax = -1 then pure (-1) else M.lift (ckInt (smax + osz)) :=
        fun n => by conv_lhs => unfold sizeQ
                    rw [hG]
      simp only [e]
      by_cases hs : smax = -1
      · simp only [if_pos hs]; exact .pure (fun _ => -1) fl
      · simp only [if_neg hs]; exact .okUb (fun _ => ckInt_okUb _) fl
  | picker pool =>
    have guard : ∀ {α : Type} (q : Nat → M Flags α) (f : Nat → α → M Flags Int),
        (∀ n, KeepsF (q n)) → Stable q → Ends q (fl.setIn i true) → (fl i).inRec = false →
        (∀ a, Ends (fun n => f n a) fl) →
        Ends (fun n => modFlags (·.setIn i true) >>= fun _ => q n >>= fun a =>
          modFlags (·.setIn i false) >>= fun _ => f n a) fl := by
      intro α q f hq hst ⟨N, hN⟩ hfl hf
      have : Ends (fun n => q n >>= fun a => modFlags (·.setIn i false) >>= fun _ => f n a)
          (fl.setIn i true) := by
        refine Ends.bind hst hq ⟨N, hN⟩ fun a => ?_
        obtain ⟨N', h'⟩ := hf a
        refine ⟨N', fun n hn => ?_⟩
        show (f n a ((fl.setIn i true).setIn i false)).1 ≠ _
        rw [Flags.setIn_setIn fl i hfl]
        exact h' n hn
      exact this
    cases sel with
    | min =>
      by_cases hfl : (fl i).inRec = true
      · refine ⟨0, fun n _ => ?_⟩
        unfold sizeQ
        rw [hG]
        dsimp only
        rw [M.bind_ok (M.get_apply fl), if_pos hfl]; simp
      · have hfl' : (fl i).inRec = false := by simpa using hfl
        obtain ⟨N, hN⟩ := guard (fun n => pickMinLoop (sizeQ G n .min) pool (INT_MAX / 2))
          (fun n res => if res = INT_MAX / 2 then pure (INT_MAX / 2) else pure (wrap32 (res + 2)))
          (fun n => keeps_pickMinLoop (fun j => keeps_sizeQ _ _ _ j) _ _) (Stable.pickMinLoop G _ _ _)
          (Ends.pickMinLoop _ fun j _ => hk pool hG hfl' j _) hfl'
          (fun a => ⟨0, fun n _ => by dsimp only; split <;> simp⟩)
        refine ⟨N, fun n hn => ?_⟩
        unfold sizeQ
        rw [hG]
        dsimp only
        rw [M.bind_ok (M.get_apply fl), if_neg hfl]
        exact hN n hn
    | max =>
      by_cases hfl : ((fl i).isRec || (fl i).inRec) = true
      · refine ⟨0, fun n _ => ?_⟩
        unfold sizeQ
        rw [hG]
        dsimp only
        rw [M.bind_ok (M.get_apply fl), if_pos hfl]; simp
      · have hfl' : (fl i).inRec = false := by simp at hfl; exact hfl.2
        obtain ⟨N, hN⟩ := guard (fun n => pickMaxLoop (sizeQ G n .max) pool 0)
          (fun n r => match r with | none => pure (-1) | some res => pure (wrap32 (res + 2)))
          (fun n => keeps_pickMaxLoop (fun j => keeps_sizeQ _ _ _ j) _ _) (Stable.pickMaxLoop G _ _ _)
          (Ends.pickMaxLoop _ fun j _ => hk pool hG hfl' j _) hfl'
          (fun a => ⟨0, fun n _ => by cases a <;> simp⟩)
        refine ⟨N, fun n hn => ?_⟩
        unfold sizeQ
        rw [hG]
        dsimp only
        rw [M.bind_ok (M.get_apply fl), if_neg hfl]
        exact hN n hn

end BS
