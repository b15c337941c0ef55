import Verif.Lifetime
import Verif.Spec.Lifetime
import Verif.Props.JsonOut

/-!
# C55, C56: what a stamp depends on; copies of `StampJSON`
-/

namespace BS

/-! ## C55 -/

section
variable {G G' : Graph}

theorem M.bind_congr_ok {σ α γ : Type} {m : M σ α} {f g : α → M σ γ} {s : σ}
    (h : ∀ x s', m s = (.ok x, s') → f x s' = g x s') : (m >>= f) s = (m >>= g) s := by
  cases hm : m s with
  | mk o s' =>
    cases o with
    | ok x => rw [M.bind_ok hm, M.bind_ok hm]; exact h x s' hm
    | outOfData => rw [M.bind_ood hm, M.bind_ood hm]
    | ub r => rw [M.bind_ub hm, M.bind_ub hm]
    | abort => rw [M.bind_abort hm, M.bind_abort hm]
    | fuel => rw [M.bind_fuel hm, M.bind_fuel hm]

theorem queryAll_congr {q q' : Id → M Flags Int} {l : List Id} (h : ∀ i ∈ l, q i = q' i) :
    queryAll q l = queryAll q' l := by
  induction l with
  | nil => rfl
  | cons i l ih =>
    unfold queryAll
    rw [h i (by simp), ih fun j hj => h j (by simp [hj])]

theorem pickMinLoop_congr {q q' : Id → M Flags Int} {l : List Id} (h : ∀ i ∈ l, q i = q' i) (r : Int) :
    pickMinLoop q l r = pickMinLoop q' l r := by
  induction l generalizing r with
  | nil => rfl
  | cons i l ih =>
    unfold pickMinLoop
    rw [h i (by simp)]
    simp only [ih fun j hj => h j (by simp [hj])]

theorem pickMaxLoop_congr {q q' : Id → M Flags Int} {l : List Id} (h : ∀ i ∈ l, q i = q' i) (r : Int) :
    pickMaxLoop q l r = pickMaxLoop q' l r := by
  induction l generalizing r with
  | nil => rfl
  | cons i l ih =>
    unfold pickMaxLoop
    rw [h i (by simp)]
    simp only [ih fun j hj => h j (by simp [hj])]

theorem isRecLoop_congr {q q' : Id → M Flags Bool} {l : List Id} (h : ∀ i ∈ l, q i = q' i) :
    isRecLoop q l = isRecLoop q' l := by
  induction l with
  | nil => rfl
  | cons i l ih =>
    unfold isRecLoop
    rw [h i (by simp), ih fun j hj => h j (by simp [hj])]

theorem pickFilter_congr {β : Type} [BlobLike β] {q q' r r' : Id → M Flags Int} {l : List Id} (h : ∀ i ∈ l, q i = q' i)
    (h' : ∀ i ∈ l, r i = r' i) : (pickFilter q r l : XM β _) = pickFilter q' r' l := by
  induction l with
  | nil => rfl
  | cons i l ih =>
    unfold pickFilter
    rw [h i (by simp), h' i (by simp), ih (fun j hj => h j (by simp [hj])) fun j hj => h' j (by simp [hj])]

theorem softFilter_congr {q q' r r' : Id → M Flags Int} {i : Id} (rec4 : Bool) (h : q i = q' i) (h' : r i = r' i)
    (d : Int) : softFilter rec4 q r i d = softFilter rec4 q' r' i d := by
  unfold softFilter
  rw [h, h']

theorem lotFilter_congr {β : Type} [BlobLike β] {q q' r r' : Id → M Flags Int} {l : List Id} (rec4 : Bool)
    (h : ∀ i ∈ l, q i = q' i) (h' : ∀ i ∈ l, r i = r' i) :
    (lotFilter rec4 q r l : XM β _) = lotFilter rec4 q' r' l := by
  induction l with
  | nil => rfl
  | cons i l ih =>
    unfold lotFilter
    rw [h i (by simp), ih (fun j hj => h j (by simp [hj])) fun j hj => h' j (by simp [hj])]
    simp only [softFilter_congr rec4 (h i (by simp)) (h' i (by simp))]

theorem extractSeq_congr {β : Type} [BlobLike β] {e e' : Id → XM β Bytes} {l : List Id} (h : ∀ i ∈ l, e i = e' i) :
    extractSeq e l = extractSeq e' l := by
  induction l with
  | nil => rfl
  | cons i l ih =>
    unfold extractSeq
    rw [h i (by simp), ih fun j hj => h j (by simp [hj])]

theorem extractEach_congr {β : Type} [BlobLike β] {e e' : Id → XM β Bytes} {l : List (Id × β)}
    (h : ∀ p ∈ l, e p.1 = e' p.1) (k : Int) : extractEach e k l = extractEach e' k l := by
  induction l generalizing k with
  | nil => rfl
  | cons p l ih =>
    obtain ⟨i, c⟩ := p
    unfold extractEach
    rw [h (i, c) (by simp)]
    simp only [ih fun j hj => h j (by simp [hj])]

theorem SameBelow.kid {i j : Id} {nd : Node} (h : SameBelow G G' i) (hG : G i = some nd)
    (hj : j ∈ nd.plainKids ∨ j ∈ nd.choices) : SameBelow G G' j :=
  fun k hk => h k (.head ⟨nd, hG, hj⟩ hk)

theorem sizeQ_local (n : Nat) : ∀ (sel : Sel) (i : Id), SameBelow G G' i → sizeQ G' n sel i = sizeQ G n sel i := by
  induction n with
  | zero => intros; rfl
  | succ n ih =>
    intro sel i h
    unfold sizeQ
    rw [h i .refl]
    cases hG : G i with
    | none => rfl
    | some nd =>
      have hk : ∀ sel j, j ∈ nd.plainKids ∨ j ∈ nd.choices → sizeQ G' n sel j = sizeQ G n sel j :=
        fun sel j hj => ih sel j (h.kid hG hj)
      cases nd with
      | vec c join => dsimp only; rw [hk .min c (by simp [Node.plainKids]), hk .max c (by simp [Node.plainKids])]
      | set cs join unb =>
        dsimp only
        rw [queryAll_congr (l := cs) fun j hj => hk .min j (.inl hj), queryAll_congr (l := cs) fun j hj => hk .max j (.inl hj)]
      | seq cs join unb => dsimp only; rw [queryAll_congr (l := cs) fun j hj => hk sel j (.inl hj)]
      | unary op c => dsimp only; rw [hk .min c (by simp [Node.plainKids])]
      | picker pool =>
        dsimp only
        simp only [pickMinLoop_congr (l := pool) fun j hj => hk .min j (.inr hj), pickMaxLoop_congr (l := pool) fun j hj => hk .max j (.inr hj)]
      | _ => rfl

theorem isRecQ_local (n : Nat) : ∀ (i : Id), SameBelow G G' i → isRecQ G' n i = isRecQ G n i := by
  induction n with
  | zero => intros; rfl
  | succ n ih =>
    intro i h
    unfold isRecQ
    rw [h i .refl]
    cases hG : G i with
    | none => rfl
    | some nd =>
      cases nd with
      | picker pool =>
        dsimp only
        rw [isRecLoop_congr (l := pool) fun j hj => ih j (h.kid hG (.inr hj))]
      | _ => rfl

theorem extract_local {β : Type} [BlobLike β] (n : Nat) : ∀ (i : Id), SameBelow G G' i →
    (extract G' n i : XM β Bytes) = extract G n i := by
  induction n with
  | zero => intros; rfl
  | succ n ih =>
    intro i h
    have hmin := sizeQ_local (n + 1) .min i h
    unfold extract
    rw [h i .refl]
    cases hG : G i with
    | none => rfl
    | some nd =>
      have hk : ∀ sel j, j ∈ nd.plainKids ∨ j ∈ nd.choices → sizeQ G' n sel j = sizeQ G n sel j :=
        fun sel j hj => sizeQ_local n sel j (h.kid hG hj)
      have he : ∀ j, j ∈ nd.plainKids ∨ j ∈ nd.choices → (extract G' n j : XM β Bytes) = extract G n j :=
        fun j hj => ih j (h.kid hG hj)
      cases nd with
      | vec c join =>
        dsimp only
        rw [hk .min c (by simp [Node.plainKids]), hk .max c (by simp [Node.plainKids])]
        congr 1; funext mn
        congr 1; funext mx
        congr 1; funext blobs
        rw [extractEach_congr]
        intro p hp
        obtain ⟨b, _, rfl⟩ := List.mem_map.1 hp
        exact he c (by simp [Node.plainKids])
      | set cs join unb =>
        dsimp only
        rw [queryAll_congr (l := cs) fun j hj => hk .min j (.inl hj), queryAll_congr (l := cs) fun j hj => hk .max j (.inl hj)]
        congr 1; funext mns
        congr 1; funext mxs
        congr 1; funext blobs
        rw [extractEach_congr]
        intro p hp
        exact he p.1 (.inl (List.of_mem_zip hp).1)
      | seq cs join unb => dsimp only; rw [extractSeq_congr (l := cs) fun j hj => he j (.inl hj)]
      | unary op c => dsimp only; rw [he c (by simp [Node.plainKids])]
      | lottery rec4 l osz smin smax =>
        dsimp only
        rw [lotFilter_congr (l := l) rec4 (fun j hj => hk .min j (.inr hj)) fun j hj => hk .max j (.inr hj),
          lotFilter_congr (l := l) false (fun j hj => hk .min j (.inr hj)) fun j hj => hk .max j (.inr hj)]
        congr 1; funext o
        funext s
        refine M.bind_congr_ok fun l1 s1 h1 => ?_
        obtain ⟨rfl, m1, _⟩ := lotFilter_ok (fun j => keeps_sizeQ _ _ _ j) (fun j => keeps_sizeQ _ _ _ j) h1
        refine M.bind_congr_ok fun l2 s2 h2 => ?_
        have hsub : ∀ j ∈ l2, j ∈ l := by
          split at h2
          · obtain ⟨rfl, m2, _⟩ := lotFilter_ok (fun j => keeps_sizeQ _ _ _ j) (fun j => keeps_sizeQ _ _ _ j) h2
            exact fun j hj => (m2 j hj).1
          · cases h2; exact fun j hj => (m1 j hj).1
        split
        · rfl
        · refine M.bind_congr_ok fun k s3 h3 => ?_
          refine M.bind_congr_ok fun j s4 h4 => ?_
          rw [he j (.inr (hsub j (vecGet_ok (Prod.mk.inj h4).1)))]
      | picker pool =>
        dsimp only
        rw [pickFilter_congr (l := pool) (fun j hj => hk .min j (.inr hj)) fun j hj => hk .max j (.inr hj), hmin]
        congr 1; funext o
        funext s
        refine M.bind_congr_ok fun r s1 h1 => ?_
        obtain ⟨rfl, k1, k2, _, _⟩ := pickFilter_ok (fun j => keeps_sizeQ _ _ _ j) (fun j => keeps_sizeQ _ _ _ j) h1
        have hsub : ∀ j ∈ (if r.2.isEmpty then r.1 else r.2), j ∈ pool := by
          intro j hj
          split at hj
          · exact ((k1 j).1 hj).1
          · exact ((k2 j).1 hj).1
        generalize (if r.2.isEmpty then r.1 else r.2) = l at hsub ⊢
        by_cases hl : l.isEmpty = true
        · rw [if_pos hl, if_pos hl]
        · rw [if_neg hl, if_neg hl]
          refine M.bind_congr_ok fun k s3 h3 => ?_
          refine M.bind_congr_ok fun j s4 h4 => ?_
          rw [he j (.inr (hsub j (vecGet_ok (Prod.mk.inj h4).1)))]
      | _ => rfl

/-- **C55.** Sizes and extraction of a stamp depend only on the objects that can be reached from it:
whatever else there is, or is added or destroyed, makes no difference. -/
theorem C55_local {i : Id} (h : SameBelow G G' i) :
    (∀ fl sel v fl', SizeRuns G' fl sel i v fl' ↔ SizeRuns G fl sel i v fl') ∧
    (∀ n fl, isRecQ G' n i fl = isRecQ G n i fl) ∧
    (∀ fl (b : Blob) o fl' b', Extracts G' fl i b o fl' b' ↔ Extracts G fl i b o fl' b') := by
  refine ⟨fun fl sel v fl' => ?_, fun n fl => ?_, fun fl b o fl' b' => ?_⟩
  · unfold SizeRuns; simp only [sizeQ_local _ sel i h]
  · rw [isRecQ_local n i h]
  · unfold Extracts; simp only [extract_local _ i h]

end

/-- The hash element's name stamp does not depend on the rest of the JSON stamp. -/
example : SameBelow jsonGraph (jsonGraph.destroy 0) 7 := by
  intro j hj
  rcases Relation.ReflTransGen.cases_head hj with rfl | ⟨k, ⟨nd, h, hk⟩, _⟩
  · rfl
  · cases h; rcases hk with hk | hk <;> cases hk

/-! ## C56 -/

/-- A `StampJSON` (object 0) and a copy of it (object 8). -/
def jsonCopy : Graph := jsonGraph.copyObject 0 8

/-- Nothing a `StampJSON` reaches is above number 7. -/
theorem jsonCopy_same {i : Id} (hi : i ≤ 7) : SameBelow jsonGraph jsonCopy i := by
  have key : ∀ j, Relation.ReflTransGen (Edge jsonGraph) i j → j ≤ 7 := by
    intro j hj
    induction hj with
    | refl => exact hi
    | tail _ e ih =>
      obtain ⟨nd, h1, h2⟩ := e
      rename_i b c _
      rcases b with _ | _ | _ | _ | _ | _ | _ | _ | b <;> cases h1 <;>
        rcases h2 with h2 | h2 <;>
        first
          | cases h2; done
          | (simp only [Node.plainKids, Node.choices, Node.enumerator, Node.hashEl, List.mem_cons, List.not_mem_nil,
              or_false] at h2
             first | (subst h2; decide) | (rcases h2 with h2 | h2 | h2 | h2 | h2 <;> subst h2 <;> decide) |
               (rcases h2 with h2 | h2 <;> subst h2 <;> decide))
  intro j hj
  have := key j hj
  show (if j = 8 then jsonGraph 0 else jsonGraph j) = _
  rw [if_neg]
  intro e
  rw [e] at this
  exact absurd this (by decide)

theorem jsonCopy_pool : PoolSizes jsonCopy Flags.init [1, 2, 3, 4, 5] jsonKindMin jsonKindMax where
  min := by
    intro j hj
    simp only [List.mem_cons, List.not_mem_nil, or_false] at hj
    rcases hj with rfl | rfl | rfl | rfl | rfl <;>
      exact ⟨hasSize_eval 9 (by decide +kernel), by decide, by decide⟩
  max := by
    intro j hj
    simp only [List.mem_cons, List.not_mem_nil, or_false] at hj
    rcases hj with rfl | rfl | rfl | rfl | rfl <;>
      exact ⟨hasSize_eval 9 (by decide +kernel), by decide⟩

theorem jsonCopy_min : HasMin jsonCopy Flags.init 8 10 := hasSize_eval 9 (by decide +kernel)

/-- **C56**, while the original lives: a copy of a `StampJSON` does the same as the original, on every
blob. Missing: afterwards (`C56_violated`). -/
theorem C56_copy_partial {b : Blob} (hr : Reachable b) :
    (∀ s left, Returns jsonCopy Flags.init 8 b s left ↔ Returns jsonGraph Flags.init 0 b s left) ∧
    (∀ left, Throws jsonCopy Flags.init 8 b left ↔ Throws jsonGraph Flags.init 0 b left) := by
  have hh : Holds b b.abs := (holds_iff hr.valid _).2 rfl
  generalize hbs : b.abs = bs at hh
  have hne : ∀ (G : Graph) i s left left', Returns G Flags.init i b s left → Throws G Flags.init i b left' → False := by
    rintro G i s left left' ⟨b1, ⟨N1, h1⟩, _⟩ ⟨b2, ⟨N2, h2⟩, _⟩
    have := (h1 (max N1 N2) (by omega)).symm.trans (h2 (max N1 N2) (by omega))
    cases this
  have hun : ∀ (G : Graph) i left left', Throws G Flags.init i b left → Throws G Flags.init i b left' → left = left' := by
    rintro G i left left' h1 h2
    obtain ⟨n1, k1⟩ := Throws.inv hr hh h1
    obtain ⟨n2, k2⟩ := Throws.inv hr hh h2
    have := (k1 (max n1 n2) (by omega)).symm.trans (k2 (max n1 n2) (by omega))
    exact (Prod.mk.inj (Prod.mk.inj this).2).2
  by_cases h8 : bs.length < 10
  · have hno : ∀ j ∈ [1, 2, 3, 4, 5], (bs.length : Int) < jsonKindMin j + 2 := by
      intro j hj
      have : 8 ≤ jsonKindMin j := by revert j; decide
      omega
    have t1 := C31_short_throws (G := jsonCopy) (i := 8) rfl jsonCopy_pool jsonCopy_min (by norm_num) hr hh hno (by omega)
    have t2 := C31_short_throws (G := jsonGraph) (i := 0) rfl jsonPool_sizes jsonGraph_sizes.1.1 (by norm_num) hr hh hno
      (by omega)
    refine ⟨fun s left => ⟨fun h => (hne _ _ _ _ _ h t1).elim, fun h => (hne _ _ _ _ _ h t2).elim⟩, fun left => ⟨fun h => ?_, fun h => ?_⟩⟩
    · rw [hun _ _ _ _ h t1]; exact t2
    · rw [hun _ _ _ _ h t2]; exact t1
  · rcases bs with _ | ⟨x, _ | ⟨y, rest⟩⟩
    · simp at h8
    · simp at h8
    have hl : 8 ≤ rest.length := by simp at h8; omega
    obtain ⟨j, e1, d1⟩ := C53_picker_exact (G := jsonCopy) (i := 8) (x := x) (y := y) (rest := rest) rfl jsonCopy_pool
      (by simp) ⟨1, by simp, by show (8 : Int) ≤ _; omega⟩
    obtain ⟨j', e2, d2⟩ := C53_picker_exact (G := jsonGraph) (i := 0) (x := x) (y := y) (rest := rest) rfl jsonPool_sizes
      (by simp) ⟨1, by simp, by show (8 : Int) ≤ _; omega⟩
    have : j' = j := by rw [e1] at e2; exact (Option.some.inj e2).symm
    subst this
    have hj : j' ∈ ([1, 2, 3, 4, 5] : List Id) := (pickCandidates_mem (List.mem_of_getElem? e1)).1
    have hj7 : j' ≤ 7 := by
      revert hj; generalize j' = q; revert q; decide
    obtain ⟨_, _, hx⟩ := C55_local (jsonCopy_same hj7)
    obtain ⟨p, b1, bs', e, hb, _, _, _, hb1, _⟩ := (C02_chop_exact hr 2).2 (by
      rw [← hr.valid.abs_length, hbs]; simp)
    have hbs' : bs' = x :: y :: rest := Out.ok.inj (hb.symm.trans hh)
    subst hbs'
    have hr1 : Reachable b1 := .rest (c := .one 2) hr e
    obtain ⟨r1, t1⟩ := d1 b b1 hr hh hr1 hb1
    obtain ⟨r2, t2⟩ := d2 b b1 hr hh hr1 hb1
    refine ⟨fun s left => ?_, fun left => ?_⟩
    · rw [r1, r2]; unfold Returns; simp only [hx]
    · rw [t1, t2]; unfold Throws; simp only [hx]

/-- **C56**, recursion: once `isRecursive()` of a pool picker has returned true, a copy of the picker knows it,
too: its `isRecursive()` returns true and its `maxSize()` -1 at once, changing nothing, whatever became of the stamps
in the pool. -/
theorem C56_known {G G' : Graph} {fl fl' : Flags} {i new : Id} {pool : List Id} (hG : G i = some (.picker pool))
    (h : IsRecRuns G fl i true fl') (hG' : G' new = G.copyObject i new new) :
    IsRecRuns G' (fl'.copyObject i new) new true (fl'.copyObject i new) ∧
    HasMax G' (fl'.copyObject i new) new (-1) := by
  have hn : G' new = some (.picker pool) := by
    rw [hG']; unfold Graph.copyObject; rw [if_pos rfl, hG]
  have hk : ((fl' i).isRec || (fl' i).inRec) = true := by
    obtain ⟨N, h⟩ := h
    have h := h (N + 1) (by omega)
    unfold isRecQ at h
    rw [hG] at h
    dsimp only at h
    rw [M.bind_ok (show (M.get : M Flags Flags) fl = (.ok fl, fl) from rfl)] at h
    split at h
    · next hc => cases h; exact hc
    · obtain ⟨_, f1, h1, h2⟩ := M.bind_eq_ok.1 h
      obtain ⟨r, f2, h3, h4⟩ := M.bind_eq_ok.1 h2
      have hr : r = true := by
        cases r with
        | true => rfl
        | false =>
          rw [if_neg (by simp)] at h4
          obtain ⟨_, f4, _, h8⟩ := M.bind_eq_ok.1 h4
          cases h8
      rw [if_pos hr] at h4
      obtain ⟨_, f3, h5, h6⟩ := M.bind_eq_ok.1 h4
      obtain ⟨_, f4, h7, h8⟩ := M.bind_eq_ok.1 h6
      cases h8
      have e5 : f3 = f2.setRec i := (Prod.mk.inj h5).2.symm
      have e7 : fl' = f3.setIn i false := (Prod.mk.inj h7).2.symm
      subst e7 e5
      simp [Flags.setIn, Flags.setRec]
  have hk' : ((fl'.copyObject i new new).isRec || (fl'.copyObject i new new).inRec) = true := by
    unfold Flags.copyObject; rw [if_pos rfl]; exact hk
  constructor
  · refine ⟨1, fun n hn1 => ?_⟩
    obtain ⟨n, rfl⟩ : ∃ m, n = m + 1 := ⟨n - 1, by omega⟩
    unfold isRecQ
    rw [hn]
    dsimp only
    rw [M.bind_ok (show (M.get : M Flags Flags) (fl'.copyObject i new) = (.ok _, _) from rfl), if_pos hk']
    rfl
  · refine ⟨1, fun n hn1 => ?_⟩
    obtain ⟨n, rfl⟩ : ∃ m, n = m + 1 := ⟨n - 1, by omega⟩
    unfold sizeQ
    rw [hn]
    dsimp only
    rw [M.bind_ok (show (M.get : M Flags Flags) (fl'.copyObject i new) = (.ok _, _) from rfl), if_pos hk']
    rfl

/-- A picker over a stamp of a user that says it is recursive. -/
example : ∃ fl', IsRecRuns (fun | 0 => some (.picker [1]) | 1 => some (.user ⟨1, 1, true, fun _ => (.ok [], 1)⟩) | _ => none)
      Flags.init 0 true fl' ∧ (fl'.copyObject 0 2 2).isRec = true := by
  refine ⟨((Flags.init.setIn 0 true).setRec 0).setIn 0 false, ⟨3, fun n hn => ?_⟩, rfl⟩
  obtain ⟨n, rfl⟩ : ∃ m, n = m + 3 := ⟨n - 3, by omega⟩
  rfl

/-- The copy after the original is gone. -/
def jsonOrphan : Graph := jsonCopy.destroy 0

theorem pickFilter_ub {q r : Id → M Flags Int} {fl fl' : Flags} {u : UB} {j : Id} {l1 l2 : List Id}
    (h1 : ∀ i ∈ l1, (∃ v, q i fl = (.ok v, fl)) ∧ ∃ v, r i fl = (.ok v, fl)) (h2 : q j fl = (.ub u, fl')) (a : ABlob) :
    pickFilter q r (l1 ++ j :: l2) (fl, a) = (.ub u, (fl', a)) := by
  induction l1 with
  | nil =>
    show pickFilter q r (j :: l2) (fl, a) = _
    unfold pickFilter
    rw [M.bind_ub (show (liftF (q j) : XM ABlob Int) (fl, a) = (.ub u, (fl', a)) by unfold liftF; rw [h2])]
  | cons i l1 ih =>
    have ih := ih fun k hk => h1 k (by simp [hk])
    obtain ⟨⟨v, hv⟩, w, hw⟩ := h1 i (by simp)
    show pickFilter q r (i :: (l1 ++ j :: l2)) (fl, a) = _
    unfold pickFilter
    rw [M.bind_ok (show (liftF (q i) : XM ABlob Int) (fl, a) = (.ok v, (fl, a)) by unfold liftF; rw [hv]),
      M.bind_ok (show (curSize : XM ABlob Nat) (fl, a) = (.ok a.length, (fl, a)) from rfl)]
    split
    · rw [M.bind_ok (show (liftF (r i) : XM ABlob Int) (fl, a) = (.ok w, (fl, a)) by unfold liftF; rw [hw]), M.bind_ub ih]
    · exact ih

/-- **C56 is violated** once the original is gone: the copy's array and hash stamps still point to it.
`minSize()` of the copy and its `ExtractStr` on every blob of two bytes or more are undefined. -/
theorem C56_violated :
    SizeUndefined jsonOrphan Flags.init .min 8 ∧
    ∀ b bs, Reachable b → Holds b bs → 2 ≤ bs.length → ExtractUndefined jsonOrphan Flags.init 8 b := by
  constructor
  · refine ⟨9, .nullDeref, fun n hn => ?_⟩
    have h9 : (sizeQ jsonOrphan 9 .min 8 Flags.init).1 = .ub .nullDeref := by decide +kernel
    rw [sizeQ_stable hn (by rw [h9]; simp), h9]
  · intro b bs hr hh hl
    rw [holds_iff hr.valid] at hh
    subst hh
    have key : ∀ n ≥ 9, extract jsonOrphan (n + 1) 8 (Flags.init, (b.abs : ABlob)) =
        (.ub .nullDeref, (Flags.init, b.abs.drop 2)) := by
      intro n hn
      unfold extract
      rw [show jsonOrphan 8 = some (.picker [1, 2, 3, 4, 5]) from rfl]
      dsimp only
      have e1 : liftB oracle (Flags.init, (b.abs : ABlob)) = (.ok (leNat (b.abs.take 2)), (Flags.init, b.abs.drop 2)) := by
        unfold liftB
        dsimp only
        rw [oracle_abs, if_neg (by omega)]
      rw [M.bind_ok e1]
      obtain ⟨k, rfl⟩ : ∃ k, n = k + 9 := ⟨n - 9, by omega⟩
      have e2 : pickFilter (sizeQ jsonOrphan (k + 9) .min) (sizeQ jsonOrphan (k + 9) .max) [1, 2, 3, 4, 5]
          (Flags.init, (b.abs.drop 2 : ABlob)) = (.ub .nullDeref, (Flags.init, b.abs.drop 2)) := by
        refine pickFilter_ub (l1 := [1, 2, 3]) (l2 := [5]) (j := 4) ?_ rfl _
        intro i hi
        simp only [List.mem_cons, List.not_mem_nil, or_false] at hi
        rcases hi with rfl | rfl | rfl <;> exact ⟨⟨_, rfl⟩, _, rfl⟩
      rw [M.bind_ub e2]
    obtain ⟨b', h1, _, _⟩ := Extracts.conc (o := .ub .nullDeref) hr.valid (by simp) ⟨10, fun n hn => by
      obtain ⟨k, rfl⟩ : ∃ k, n = k + 1 := ⟨n - 1, by omega⟩
      exact key k (by omega)⟩
    exact ⟨_, _, _, h1⟩

/-- The same ten bytes, before and after. -/
example : (extract jsonCopy 9 8 (Flags.init, ([0, 0, 1, 0, 0, 0, 0, 0, 0, 0] : ABlob))).1 = .ok (str "1") ∧
    (extract jsonOrphan 9 8 (Flags.init, ([0, 0, 1, 0, 0, 0, 0, 0, 0, 0] : ABlob))).1 = .ub .nullDeref := by
  constructor <;> decide +kernel

/-! ## C57 -/

theorem Alive.same {G G' : Graph} {roots : List Id} {holds : Id → List Id} (h : Survivors G roots holds G')
    {i : Id} (hi : i ∈ roots) (hs : ∀ j k, Relation.ReflTransGen (Edge G) i j → Edge G j k → k ∈ holds j) :
    SameBelow G G' i := by
  intro j hj
  refine (h j).1 ⟨i, hi, ?_⟩
  induction hj with
  | refl => exact .refl
  | tail h1 h2 ih => exact ih.tail (hs _ _ h1 h2)

/-- **C57**, stamps given to constructors: if every stamp that can be reached from `i` holds shared
pointers to the stamps it is built on, then `i` works as long as the program keeps `i` itself, whatever
else it lets go. Missing: stamps added to a picker by `add_weak` (`C57_violated`). -/
theorem C57_owned_partial {G G' : Graph} {roots : List Id} {holds : Id → List Id} (h : Survivors G roots holds G')
    {i : Id} (hi : i ∈ roots) (hs : ∀ j k, Relation.ReflTransGen (Edge G) i j → Edge G j k → k ∈ holds j) :
    (∀ fl sel v fl', SizeRuns G' fl sel i v fl' ↔ SizeRuns G fl sel i v fl') ∧
    (∀ fl (b : Blob) o fl' b', Extracts G' fl i b o fl' b' ↔ Extracts G fl i b o fl' b') :=
  have := C55_local (Alive.same h hi hs)
  ⟨this.1, this.2.2⟩

/-- **C57**, pickers: every picker was built from parts all of which were given to its constructor, and holds
what such a picker holds; every other stamp holds the stamps it is built on. Then a stamp works as long as the
program keeps it. Missing: `add_weak` (`C57_violated`). -/
theorem C57_pickers_partial {G G' : Graph} {roots : List Id} {holds : Id → List Id} {parts : Id → PickerParts}
    (h : Survivors G roots holds G')
    (hp : ∀ j pool, G j = some (.picker pool) →
      G j = some (parts j).node ∧ (parts j).added = [] ∧ holds j = (parts j).holds)
    (ho : ∀ j k, (∀ pool, G j ≠ some (.picker pool)) → Edge G j k → k ∈ holds j) {i : Id} (hi : i ∈ roots) :
    (∀ fl sel v fl', SizeRuns G' fl sel i v fl' ↔ SizeRuns G fl sel i v fl') ∧
    (∀ fl (b : Blob) o fl' b', Extracts G' fl i b o fl' b' ↔ Extracts G fl i b o fl' b') := by
  refine C57_owned_partial h hi fun j k _ e => ?_
  by_cases hj : ∃ pool, G j = some (.picker pool)
  · obtain ⟨pool, hj⟩ := hj
    obtain ⟨g1, g2, g3⟩ := hp j pool hj
    rw [g3]
    obtain ⟨nd, e1, e2⟩ := e
    rw [g1] at e1
    cases e1
    rcases e2 with e2 | e2
    · cases e2
    · have e2 : k ∈ (parts j).given ++ (parts j).added := e2
      rw [g2, List.append_nil] at e2
      exact e2
  · exact ho j k (fun pool hp => hj ⟨pool, hp⟩) e

/-- A picker over one stamp, given to its constructor or added later. -/
def weakParts (weak : Bool) : PickerParts := if weak then ⟨[], [1]⟩ else ⟨[1], []⟩

/-- Object 0: the picker; object 1: an integer stamp. -/
def weakGraph (weak : Bool) : Graph
  | 0 => some (weakParts weak).node
  | 1 => some (.arith .u16)
  | _ => none

/-- Who holds whom. -/
def weakHolds (weak : Bool) : Id → List Id
  | 0 => (weakParts weak).holds
  | _ => []

theorem weakGraph_holds (j k : Id) (h : Edge (weakGraph false) j k) : k ∈ weakHolds false j := by
  obtain ⟨nd, h1, h2⟩ := h
  rcases j with _ | _ | j <;> cases h1
  · rcases h2 with h2 | h2
    · cases h2
    · exact h2
  · rcases h2 with h2 | h2 <;> cases h2

/-- The stamp given to the constructor lives on. -/
example {G' : Graph} (h : Survivors (weakGraph false) [0] (weakHolds false) G') {b : Blob} (hr : Reachable b)
    (hh : Holds b [0, 0, 7, 0]) : Returns G' Flags.init 0 b (str "7") [] := by
  have hx := (C57_pickers_partial h (parts := fun _ => weakParts false) (i := 0) (fun j pool hj => by
    rcases j with _ | _ | j <;> cases hj
    exact ⟨rfl, rfl, rfl⟩) (fun j k _ e => weakGraph_holds j k e) (by simp)).2
  unfold Returns
  simp only [hx]
  exact Returns.intro hr.valid hh (Extracts.intro (n := 9) (extract_eval (by decide +kernel) (by decide +kernel)) (by simp))

theorem weak_dead {G' : Graph} (h : Survivors (weakGraph true) [0] (weakHolds true) G') :
    G' 0 = some (.picker [1]) ∧ G' 1 = none := by
  refine ⟨(h 0).1 ⟨0, by simp, .refl⟩, (h 1).2 ?_⟩
  rintro ⟨r, hr, hp⟩
  simp only [List.mem_cons, List.not_mem_nil, or_false] at hr
  subst hr
  rcases Relation.ReflTransGen.cases_head hp with e | ⟨k, hk, _⟩
  · cases e
  · cases hk

/-- **C57 is violated** by `add_weak`: if the program keeps the picker but not the stamp it added,
`minSize()` and `ExtractStr` on every blob of two bytes or more are undefined. -/
theorem C57_violated {G' : Graph} (h : Survivors (weakGraph true) [0] (weakHolds true) G') :
    SizeUndefined G' Flags.init .min 0 ∧
    ∀ b bs, Reachable b → Holds b bs → 2 ≤ bs.length → ExtractUndefined G' Flags.init 0 b := by
  obtain ⟨h0, h1⟩ := weak_dead h
  have hq : ∀ n fl sel, sizeQ G' (n + 1) sel 1 fl = (.ub .nullDeref, fl) := by
    intro n fl sel
    unfold sizeQ
    rw [h1]
    rfl
  constructor
  · refine ⟨2, .nullDeref, fun n hn => ?_⟩
    obtain ⟨k, rfl⟩ : ∃ k, n = k + 1 + 1 := ⟨n - 2, by omega⟩
    unfold sizeQ
    rw [h0]
    dsimp only
    rw [M.bind_ok (M.get_apply _), if_neg (by decide), M.bind_ok (show modFlags _ _ = (.ok (), _) from rfl)]
    unfold pickMinLoop
    rw [M.bind_ub (M.bind_ub (hq k _ .min))]
  · intro b bs hr hh hl
    rw [holds_iff hr.valid] at hh
    subst hh
    have key : ∀ n ≥ 1, extract G' (n + 1) 0 (Flags.init, (b.abs : ABlob)) =
        (.ub .nullDeref, (Flags.init, b.abs.drop 2)) := by
      intro n hn
      obtain ⟨k, rfl⟩ : ∃ k, n = k + 1 := ⟨n - 1, by omega⟩
      unfold extract
      rw [h0]
      dsimp only
      have e1 : liftB oracle (Flags.init, (b.abs : ABlob)) = (.ok (leNat (b.abs.take 2)), (Flags.init, b.abs.drop 2)) := by
        unfold liftB
        dsimp only
        rw [oracle_abs, if_neg (by omega)]
      have e2 : pickFilter (sizeQ G' (k + 1) .min) (sizeQ G' (k + 1) .max) [1] (Flags.init, (b.abs.drop 2 : ABlob)) =
          (.ub .nullDeref, (Flags.init, b.abs.drop 2)) :=
        pickFilter_ub (l1 := []) (l2 := []) (by simp) (hq k _ .min) _
      rw [M.bind_ok e1, M.bind_ub e2]
    obtain ⟨b', h1, _, _⟩ := Extracts.conc (o := .ub .nullDeref) hr.valid (by simp) ⟨2, fun n hn => by
      obtain ⟨k, rfl⟩ : ∃ k, n = k + 1 := ⟨n - 1, by omega⟩
      exact key k (by omega)⟩
    exact ⟨_, _, _, h1⟩

/-- A graph of survivors exists. -/
example : Survivors (weakGraph true) [0] (weakHolds true) ((weakGraph true).destroy 1) := by
  intro j
  have hk : KeptAlive [0] (weakHolds true) j ↔ j = 0 := by
    constructor
    · rintro ⟨r, hr, hp⟩
      simp only [List.mem_cons, List.not_mem_nil, or_false] at hr
      subst hr
      rcases Relation.ReflTransGen.cases_head hp with e | ⟨k, hk, _⟩
      · exact e.symm
      · cases hk
    · rintro rfl; exact ⟨0, by simp, .refl⟩
  rw [hk]
  refine ⟨fun e => by subst e; rfl, fun e => ?_⟩
  rcases j with _ | _ | j
  · exact absurd rfl e
  · rfl
  · rfl

end BS
