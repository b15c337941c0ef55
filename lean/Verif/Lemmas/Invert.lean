import Verif.Lemmas.Keep
import Verif.Lemmas.GalleyVec

/-!
# What a successful extraction did, node by node
-/

namespace BS

theorem liftB_ok {β α : Type} {m : M β α} {s s' : Flags × β} {x : α}
    (h : liftB m s = (.ok x, s')) : m s.2 = (.ok x, s'.2) ∧ s'.1 = s.1 := by
  unfold liftB at h
  obtain ⟨h1, h2⟩ := Prod.mk.inj h
  subst h2
  exact ⟨Prod.ext h1 rfl, rfl⟩

theorem liftF_ok {β α : Type} {m : M Flags α} (hk : KeepsF m) {s s' : Flags × β} {x : α}
    (h : liftF m s = (.ok x, s')) : m s.1 = (.ok x, s.1) ∧ s' = s := by
  unfold liftF at h
  obtain ⟨h1, h2⟩ := Prod.mk.inj h
  have e := (hk s.1).2.2 x (m s.1).2 (Prod.ext h1 rfl)
  rw [e] at h2
  exact ⟨Prod.ext h1 e, h2.symm⟩

theorem onBlob_ok {β α : Type} {c : β} {m : XM β α} {s s' : Flags × β} {x : α}
    (h : onBlob c m s = (.ok x, s')) : ∃ left, m (s.1, c) = (.ok x, (s'.1, left)) ∧ s'.2 = s.2 := by
  unfold onBlob at h
  obtain ⟨h1, h2⟩ := Prod.mk.inj h
  subst h2
  exact ⟨(m (s.1, c)).2.2, Prod.ext h1 rfl, rfl⟩

section
variable {β : Type}

theorem keeps_ok {α : Type} {m : XM β α} (h : KeepsX m) {s s' : Flags × β} {x : α}
    (e : m s = (.ok x, s')) : s'.1 = s.1 := by
  have := h s
  rw [e] at this
  exact this (Or.inl ⟨x, rfl⟩)

theorem extractEach_ok {ex : Id → XM β Bytes} (hk : ∀ i, KeepsX (ex i)) {l : List (Id × β)}
    {k : Int} {xs : List Bytes} {s s' : Flags × β} (h : extractEach ex k l s = (.ok xs, s')) :
    s' = s ∧ List.Forall₂ (fun q x => ∃ left, ex q.1 (s.1, q.2) = (.ok x, (s.1, left))) l xs := by
  induction l generalizing k xs s s' with
  | nil => cases h; exact ⟨rfl, .nil⟩
  | cons q l ih =>
    obtain ⟨i, c⟩ := q
    unfold extractEach at h
    obtain ⟨x, s1, h1, h⟩ := M.bind_eq_ok.1 h
    obtain ⟨k', s3, h0, h⟩ := M.bind_eq_ok.1 h
    cases congrArg Prod.snd h0
    obtain ⟨ys, s2, h2, h⟩ := M.bind_eq_ok.1 h
    cases h
    obtain ⟨left, e1, e2⟩ := onBlob_ok h1
    have e3 : s1.1 = s.1 := keeps_ok (s := (s.1, c)) (s' := (s1.1, left)) (hk i) e1
    have : s1 = s := Prod.ext e3 e2
    subst this
    obtain ⟨e4, h3⟩ := ih h2
    exact ⟨e4, .cons ⟨left, e1⟩ h3⟩

/-- Applying stamps one after the other: each starts with what the one before left. -/
inductive SeqRuns (ex : Id → XM β Bytes) (fl : Flags) : List Id → β → List Bytes → β → Prop where
  | nil (b : β) : SeqRuns ex fl [] b [] b
  | cons {i : Id} {is : List Id} {b b' b'' : β} {x : Bytes} {xs : List Bytes}
      (h : ex i (fl, b) = (.ok x, (fl, b'))) (hs : SeqRuns ex fl is b' xs b'') :
      SeqRuns ex fl (i :: is) b (x :: xs) b''

theorem extractSeq_ok {ex : Id → XM β Bytes} (hk : ∀ i, KeepsX (ex i)) {l : List Id}
    {xs : List Bytes} {s s' : Flags × β} (h : extractSeq ex l s = (.ok xs, s')) :
    s'.1 = s.1 ∧ SeqRuns ex s.1 l s.2 xs s'.2 := by
  induction l generalizing xs s s' with
  | nil => cases h; exact ⟨rfl, .nil _⟩
  | cons i l ih =>
    unfold extractSeq at h
    obtain ⟨x, s1, h1, h⟩ := M.bind_eq_ok.1 h
    obtain ⟨ys, s2, h2, h⟩ := M.bind_eq_ok.1 h
    cases h
    have e3 : s1.1 = s.1 := keeps_ok (hk i) h1
    obtain ⟨e4, h3⟩ := ih h2
    rw [e3] at h3 e4
    refine ⟨e4, .cons ?_ h3⟩
    rw [h1, ← e3]

theorem queryAll_ok {q : Id → M Flags Int} (hk : ∀ i, KeepsF (q i)) {l : List Id} {fl fl' : Flags}
    {vs : List Int} (h : queryAll q l fl = (.ok vs, fl')) :
    fl' = fl ∧ List.Forall₂ (fun i v => q i fl = (.ok v, fl)) l vs := by
  induction l generalizing vs fl fl' with
  | nil => cases h; exact ⟨rfl, .nil⟩
  | cons i l ih =>
    unfold queryAll at h
    obtain ⟨x, s1, h1, h⟩ := M.bind_eq_ok.1 h
    obtain ⟨ys, s2, h2, h⟩ := M.bind_eq_ok.1 h
    cases h
    have e := (hk i fl).2.2 _ _ h1
    subst e
    obtain ⟨e4, h3⟩ := ih h2
    exact ⟨e4, .cons h1 h3⟩

variable [BlobLike β]

theorem extract_vec_ok {G : Graph} {n : Nat} {i c : Id} {join : List Bytes → Bytes}
    (hG : G i = some (.vec c join)) {fl fl' : Flags} {b b' : β} {s : Bytes}
    (h : extract G (n + 1) i (fl, b) = (.ok s, (fl', b'))) :
    ∃ mn mx parts xs, fl' = fl ∧ sizeQ G n .min c fl = (.ok mn, fl) ∧
      sizeQ G n .max c fl = (.ok mx, fl) ∧ vecSplit n mn mx b = (.ok parts, b') ∧
      List.Forall₂ (fun p x => ∃ left, extract G n c (fl, p) = (.ok x, (fl, left))) parts xs ∧
      s = join xs := by
  unfold extract at h
  rw [hG] at h
  dsimp only at h
  obtain ⟨mn, s1, h1, h⟩ := M.bind_eq_ok.1 h
  obtain ⟨mx, s2, h2, h⟩ := M.bind_eq_ok.1 h
  obtain ⟨parts, s3, h3, h⟩ := M.bind_eq_ok.1 h
  obtain ⟨xs, s4, h4, hf⟩ := M.bind_eq_ok.1 h
  obtain ⟨e1, rfl⟩ := liftF_ok (keeps_sizeQ _ _ _ _) h1
  obtain ⟨e2, rfl⟩ := liftF_ok (keeps_sizeQ _ _ _ _) h2
  obtain ⟨e3, e3'⟩ := liftB_ok h3
  obtain ⟨e4, e5⟩ := extractEach_ok (fun j => keeps_extract G n j) h4
  subst e4
  cases hf
  dsimp only at e3 e3' e1 e2 e5
  subst e3'
  refine ⟨mn, mx, parts, xs, rfl, e1, e2, e3, ?_, rfl⟩
  rw [List.forall₂_map_left_iff] at e5
  exact e5

theorem extract_set_ok {G : Graph} {n : Nat} {i : Id} {cs : List Id} {join : List Bytes → Bytes}
    {unb : Bool} (hG : G i = some (.set cs join unb)) {fl fl' : Flags} {b b' : β} {s : Bytes}
    (h : extract G (n + 1) i (fl, b) = (.ok s, (fl', b'))) :
    ∃ mns mxs parts xs, fl' = fl ∧
      List.Forall₂ (fun c v => sizeQ G n .min c fl = (.ok v, fl)) cs mns ∧
      List.Forall₂ (fun c v => sizeQ G n .max c fl = (.ok v, fl)) cs mxs ∧
      setSplit (mns.zip mxs) b = (.ok parts, b') ∧
      List.Forall₂ (fun q x => ∃ left, extract G n q.1 (fl, q.2) = (.ok x, (fl, left)))
        (cs.zip parts) xs ∧
      s = join xs := by
  unfold extract at h
  rw [hG] at h
  dsimp only at h
  obtain ⟨mns, s1, h1, h⟩ := M.bind_eq_ok.1 h
  obtain ⟨mxs, s2, h2, h⟩ := M.bind_eq_ok.1 h
  obtain ⟨parts, s3, h3, h⟩ := M.bind_eq_ok.1 h
  obtain ⟨xs, s4, h4, hf⟩ := M.bind_eq_ok.1 h
  obtain ⟨e1, rfl⟩ := liftF_ok (keeps_queryAll (fun j => keeps_sizeQ _ _ _ j) _) h1
  obtain ⟨e2, rfl⟩ := liftF_ok (keeps_queryAll (fun j => keeps_sizeQ _ _ _ j) _) h2
  obtain ⟨e3, e3'⟩ := liftB_ok h3
  obtain ⟨e4, e5⟩ := extractEach_ok (fun j => keeps_extract G n j) h4
  subst e4
  cases hf
  dsimp only at e3 e3' e1 e2 e5
  subst e3'
  exact ⟨mns, mxs, parts, xs, rfl, (queryAll_ok (fun j => keeps_sizeQ _ _ _ j) e1).2,
    (queryAll_ok (fun j => keeps_sizeQ _ _ _ j) e2).2, e3, e5, rfl⟩

theorem extract_seq_ok {G : Graph} {n : Nat} {i : Id} {cs : List Id} {join : List Bytes → Bytes}
    {unb : Bool} (hG : G i = some (.seq cs join unb)) {fl fl' : Flags} {b b' : β} {s : Bytes}
    (h : extract G (n + 1) i (fl, b) = (.ok s, (fl', b'))) :
    ∃ xs, fl' = fl ∧ SeqRuns (extract G n) fl cs b xs b' ∧ s = join xs := by
  unfold extract at h
  rw [hG] at h
  dsimp only at h
  obtain ⟨xs, s1, h1, h⟩ := M.bind_eq_ok.1 h
  cases h
  obtain ⟨e1, e2⟩ := extractSeq_ok (fun j => keeps_extract G n j) h1
  exact ⟨xs, e1, e2, rfl⟩

theorem extract_unary_ok {G : Graph} {n : Nat} {i c : Id} {op : Bytes}
    (hG : G i = some (.unary op c)) {fl fl' : Flags} {b b' : β} {s : Bytes}
    (h : extract G (n + 1) i (fl, b) = (.ok s, (fl', b'))) :
    ∃ x, fl' = fl ∧ extract G n c (fl, b) = (.ok x, (fl, b')) ∧ s = unaryText op x := by
  unfold extract at h
  rw [hG] at h
  dsimp only at h
  obtain ⟨x, s1, h1, h⟩ := M.bind_eq_ok.1 h
  cases h
  have e := keeps_ok (keeps_extract G n c) h1
  dsimp only at e
  subst e
  exact ⟨x, rfl, h1, rfl⟩

theorem curSize_ok {s s' : Flags × β} {k : Nat} (h : (curSize : XM β Nat) s = (.ok k, s')) :
    k = BlobLike.size s.2 ∧ s' = s := by
  unfold curSize at h
  obtain ⟨h1, h2⟩ := Prod.mk.inj h
  exact ⟨(Out.ok.inj h1).symm, h2.symm⟩

theorem pickFilter_ok {qmin qmax : Id → M Flags Int} (hmin : ∀ i, KeepsF (qmin i))
    (hmax : ∀ i, KeepsF (qmax i)) {l : List Id} {s s' : Flags × β} {r : List Id × List Id}
    (h : pickFilter qmin qmax l s = (.ok r, s')) :
    s' = s ∧
    (∀ j, j ∈ r.1 ↔ j ∈ l ∧ ∃ mn, qmin j s.1 = (.ok mn, s.1) ∧ toSz mn ≤ BlobLike.size s.2) ∧
    (∀ j, j ∈ r.2 ↔ j ∈ l ∧ (∃ mn, qmin j s.1 = (.ok mn, s.1) ∧ toSz mn ≤ BlobLike.size s.2) ∧
      ∃ mx, qmax j s.1 = (.ok mx, s.1) ∧ (mx = -1 ∨ BlobLike.size s.2 ≤ toSz mx)) ∧
    (∀ j ∈ l, ∃ mn, qmin j s.1 = (.ok mn, s.1)) ∧
    (∀ j ∈ r.1, ∃ mx, qmax j s.1 = (.ok mx, s.1)) := by
  induction l generalizing r s s' with
  | nil => cases h; simp
  | cons i l ih =>
    unfold pickFilter at h
    obtain ⟨mn, s1, h1, h2⟩ := M.bind_eq_ok.1 h
    obtain ⟨e1, rfl⟩ := liftF_ok (hmin i) h1
    obtain ⟨sz, s2, h3, h4⟩ := M.bind_eq_ok.1 h2
    obtain ⟨rfl, rfl⟩ := curSize_ok h3
    by_cases hc : toSz mn ≤ BlobLike.size s2.2
    · rw [if_pos hc] at h4
      obtain ⟨mx, s3, h5, h6⟩ := M.bind_eq_ok.1 h4
      obtain ⟨e2, rfl⟩ := liftF_ok (hmax i) h5
      obtain ⟨r', s4, h7, h8⟩ := M.bind_eq_ok.1 h6
      obtain ⟨rfl, k1, k2, k3, k4⟩ := ih h7
      have hmem : ∃ mn, qmin i s4.1 = (.ok mn, s4.1) ∧ toSz mn ≤ BlobLike.size s4.2 := ⟨mn, e1, hc⟩
      have hall : ∀ j ∈ i :: l, ∃ mn, qmin j s4.1 = (.ok mn, s4.1) := by
        intro j hj
        rcases List.mem_cons.1 hj with rfl | hj
        · exact ⟨mn, e1⟩
        · exact k3 j hj
      by_cases hx : mx = -1 ∨ BlobLike.size s4.2 ≤ toSz mx
      · rw [if_pos hx] at h8
        cases h8
        refine ⟨rfl, fun j => ?_, fun j => ?_, hall, ?_⟩
        · rw [List.mem_cons, List.mem_cons, k1]
          constructor
          · rintro (rfl | h)
            · exact ⟨Or.inl rfl, hmem⟩
            · exact ⟨Or.inr h.1, h.2⟩
          · rintro ⟨rfl | h, h'⟩
            · exact Or.inl rfl
            · exact Or.inr ⟨h, h'⟩
        · rw [List.mem_cons, List.mem_cons, k2]
          constructor
          · rintro (rfl | h)
            · exact ⟨Or.inl rfl, hmem, mx, e2, hx⟩
            · exact ⟨Or.inr h.1, h.2⟩
          · rintro ⟨rfl | h, h'⟩
            · exact Or.inl rfl
            · exact Or.inr ⟨h, h'⟩
        · intro j hj
          rcases List.mem_cons.1 hj with rfl | hj
          · exact ⟨mx, e2⟩
          · exact k4 j hj
      · rw [if_neg hx] at h8
        cases h8
        refine ⟨rfl, fun j => ?_, fun j => ?_, hall, ?_⟩
        · rw [List.mem_cons, List.mem_cons, k1]
          constructor
          · rintro (rfl | h)
            · exact ⟨Or.inl rfl, hmem⟩
            · exact ⟨Or.inr h.1, h.2⟩
          · rintro ⟨rfl | h, h'⟩
            · exact Or.inl rfl
            · exact Or.inr ⟨h, h'⟩
        · rw [List.mem_cons, k2]
          constructor
          · rintro h
            exact ⟨Or.inr h.1, h.2⟩
          · rintro ⟨rfl | h, h', mx', e', hx'⟩
            · rw [e2] at e'; cases e'; exact absurd hx' hx
            · exact ⟨h, h', mx', e', hx'⟩
        · intro j hj
          rcases List.mem_cons.1 hj with rfl | hj
          · exact ⟨mx, e2⟩
          · exact k4 j hj
    · rw [if_neg hc] at h4
      obtain ⟨rfl, k1, k2, k3, k4⟩ := ih h4
      have hno : ¬ ∃ mn, qmin i s'.1 = (.ok mn, s'.1) ∧ toSz mn ≤ BlobLike.size s'.2 := by
        rintro ⟨mn', e', hx'⟩
        rw [e1] at e'; cases e'; exact absurd hx' hc
      refine ⟨rfl, fun j => ?_, fun j => ?_, ?_, k4⟩
      · rw [List.mem_cons, k1]
        constructor
        · rintro h
          exact ⟨Or.inr h.1, h.2⟩
        · rintro ⟨rfl | h, h'⟩
          · exact absurd h' hno
          · exact ⟨h, h'⟩
      · rw [List.mem_cons, k2]
        constructor
        · rintro h
          exact ⟨Or.inr h.1, h.2⟩
        · rintro ⟨rfl | h, h', h''⟩
          · exact absurd h' hno
          · exact ⟨h, h', h''⟩
      · intro j hj
        rcases List.mem_cons.1 hj with rfl | hj
        · exact ⟨mn, e1⟩
        · exact k3 j hj

theorem lotFilter_ok {rec4 : Bool} {qmin qmax : Id → M Flags Int} (hmin : ∀ i, KeepsF (qmin i))
    (hmax : ∀ i, KeepsF (qmax i)) {l : List Id} {s s' : Flags × β} {r : List Id}
    (h : lotFilter rec4 qmin qmax l s = (.ok r, s')) :
    s' = s ∧ (∀ j ∈ r, j ∈ l ∧ ∃ mn, qmin j s.1 = (.ok mn, s.1) ∧ toSz mn ≤ BlobLike.size s.2) ∧
    r.length ≤ l.length ∧ (∀ j ∈ l, ∃ mn, qmin j s.1 = (.ok mn, s.1)) ∧
    (rec4 = false → ∀ j ∈ l, ∀ mn, qmin j s.1 = (.ok mn, s.1) → toSz mn ≤ BlobLike.size s.2 →
      j ∈ r) := by
  induction l generalizing r s s' with
  | nil => cases h; simp
  | cons i l ih =>
    unfold lotFilter at h
    obtain ⟨mn, s1, h1, h2⟩ := M.bind_eq_ok.1 h
    obtain ⟨e1, rfl⟩ := liftF_ok (hmin i) h1
    obtain ⟨sz, s2, h3, h4⟩ := M.bind_eq_ok.1 h2
    obtain ⟨rfl, rfl⟩ := curSize_ok h3
    by_cases hc : BlobLike.size s2.2 < toSz mn
    · rw [if_pos hc] at h4
      obtain ⟨rfl, k1, k2, k3, k4⟩ := ih h4
      refine ⟨rfl, fun j hj => ⟨List.mem_cons_of_mem _ (k1 j hj).1, (k1 j hj).2⟩, ?_, ?_, ?_⟩
      · rw [List.length_cons]; omega
      · intro j hj
        rcases List.mem_cons.1 hj with rfl | hj
        · exact ⟨mn, e1⟩
        · exact k3 j hj
      · intro hr j hj mn' e' hle
        rcases List.mem_cons.1 hj with rfl | hj
        · rw [e1] at e'; cases e'; omega
        · exact k4 hr j hj mn' e' hle
    · rw [if_neg hc] at h4
      obtain ⟨ok, s3, h5, h6⟩ := M.bind_eq_ok.1 h4
      obtain ⟨e2, rfl⟩ := liftF_ok (keeps_softFilter rec4 hmin hmax i _) h5
      obtain ⟨r', s4, h7, h8⟩ := M.bind_eq_ok.1 h6
      obtain ⟨rfl, k1, k2, k3, k4⟩ := ih h7
      cases h8
      have hsub : ∀ j, j ∈ (if ok = true then i :: r' else r') → j = i ∨ j ∈ r' := by
        intro j hj
        split at hj
        · exact List.mem_cons.1 hj
        · exact Or.inr hj
      refine ⟨rfl, fun j hj => ?_, ?_, ?_, ?_⟩
      · rcases hsub j hj with rfl | hj
        · exact ⟨List.mem_cons_self, mn, e1, Nat.le_of_not_lt hc⟩
        · exact ⟨List.mem_cons_of_mem _ (k1 j hj).1, (k1 j hj).2⟩
      · split <;> simp only [List.length_cons] <;> omega
      · intro j hj
        rcases List.mem_cons.1 hj with rfl | hj
        · exact ⟨mn, e1⟩
        · exact k3 j hj
      · intro hr j hj mn' e' hle
        have hok : ok = true := by
          subst hr
          have : Out.ok true = Out.ok ok := congrArg Prod.fst e2
          exact (Out.ok.inj this).symm
        rw [if_pos hok]
        rcases List.mem_cons.1 hj with rfl | hj
        · exact List.mem_cons_self
        · exact List.mem_cons_of_mem _ (k4 hr j hj mn' e' hle)

theorem vecGet_ok {α : Type} {l : List α} {k : Int} {a : α} (h : vecGet l k = .ok a) : a ∈ l := by
  unfold vecGet at h
  split at h
  · next e => cases h; exact List.mem_of_getElem? e
  · cases h

theorem extract_lottery_ok {G : Graph} {n : Nat} {i : Id} {rec4 : Bool} {stamps : List Id}
    {osz : Nat} {smin smax : Int} (hG : G i = some (.lottery rec4 stamps osz smin smax))
    {fl fl' : Flags} {b b' : β} {s : Bytes}
    (h : extract G (n + 1) i (fl, b) = (.ok s, (fl', b'))) :
    ∃ o b1 j mn, fl' = fl ∧ uOracle osz b = (.ok o, b1) ∧ j ∈ stamps ∧
      sizeQ G n .min j fl = (.ok mn, fl) ∧ toSz mn ≤ BlobLike.size b1 ∧
      extract G n j (fl, b1) = (.ok s, (fl, b')) := by
  unfold extract at h
  rw [hG] at h
  dsimp only at h
  obtain ⟨o, s1, h1, h2⟩ := M.bind_eq_ok.1 h
  obtain ⟨l1, s2, h3, h4⟩ := M.bind_eq_ok.1 h2
  obtain ⟨l, s3, h5, h6⟩ := M.bind_eq_ok.1 h4
  obtain ⟨e1, e1'⟩ := liftB_ok h1
  dsimp only at e1 e1'
  have hm : s2 = s1 ∧ s3 = s1 ∧ ∀ j ∈ l, j ∈ stamps ∧ ∃ mn, sizeQ G n .min j s1.1 = (.ok mn, s1.1) ∧
      toSz mn ≤ BlobLike.size s1.2 := by
    obtain ⟨rfl, k1, _⟩ := lotFilter_ok (fun j => keeps_sizeQ _ _ _ j) (fun j => keeps_sizeQ _ _ _ j) h3
    split at h5
    · obtain ⟨rfl, k2, _⟩ := lotFilter_ok (fun j => keeps_sizeQ _ _ _ j) (fun j => keeps_sizeQ _ _ _ j) h5
      exact ⟨rfl, rfl, k2⟩
    · cases h5; exact ⟨rfl, rfl, k1⟩
  obtain ⟨rfl, rfl, hl⟩ := hm
  split at h6
  · cases h6
  obtain ⟨k, s4, h7, h8⟩ := M.bind_eq_ok.1 h6
  obtain ⟨j, s5, h9, h10⟩ := M.bind_eq_ok.1 h8
  have e4 := (Prod.mk.inj h7).2
  have e5 := (Prod.mk.inj h9).2
  have hj := vecGet_ok (Prod.mk.inj h9).1
  subst e4
  subst e5
  obtain ⟨hj1, mn, hq, hle⟩ := hl j hj
  have ef := keeps_ok (keeps_extract G n j) h10
  obtain ⟨f1, b1⟩ := s3
  dsimp only at *
  subst e1'
  subst ef
  exact ⟨o, b1, j, mn, rfl, e1, hj1, hq, hle, h10⟩

theorem extract_picker_ok {G : Graph} {n : Nat} {i : Id} {pool : List Id}
    (hG : G i = some (.picker pool))
    {fl fl' : Flags} {b b' : β} {s : Bytes}
    (h : extract G (n + 1) i (fl, b) = (.ok s, (fl', b'))) :
    ∃ o b1 j mn, fl' = fl ∧ oracle b = (.ok o, b1) ∧ j ∈ pool ∧
      sizeQ G n .min j fl = (.ok mn, fl) ∧ toSz mn ≤ BlobLike.size b1 ∧
      extract G n j (fl, b1) = (.ok s, (fl, b')) ∧
      ((∃ k ∈ pool, (∃ mn, sizeQ G n .min k fl = (.ok mn, fl) ∧ toSz mn ≤ BlobLike.size b1) ∧
        ∃ mx, sizeQ G n .max k fl = (.ok mx, fl) ∧ (mx = -1 ∨ BlobLike.size b1 ≤ toSz mx)) →
        ∃ mx, sizeQ G n .max j fl = (.ok mx, fl) ∧ (mx = -1 ∨ BlobLike.size b1 ≤ toSz mx)) := by
  unfold extract at h
  rw [hG] at h
  dsimp only at h
  obtain ⟨o, s1, h1, h2⟩ := M.bind_eq_ok.1 h
  obtain ⟨r, s2, h3, h4⟩ := M.bind_eq_ok.1 h2
  obtain ⟨e1, e1'⟩ := liftB_ok h1
  dsimp only at e1 e1'
  obtain ⟨rfl, k1, k2, _, _⟩ :=
    pickFilter_ok (fun j => keeps_sizeQ _ _ _ j) (fun j => keeps_sizeQ _ _ _ j) h3
  by_cases hl : (if r.2.isEmpty then r.1 else r.2).isEmpty = true
  · rw [if_pos hl] at h4
    obtain ⟨mn, s3, h5, h6⟩ := M.bind_eq_ok.1 h4
    obtain ⟨sz, s4, h7, h8⟩ := M.bind_eq_ok.1 h6
    split at h8 <;> cases h8
  · rw [if_neg hl] at h4
    obtain ⟨k, s4, h7, h8⟩ := M.bind_eq_ok.1 h4
    obtain ⟨j, s5, h9, h10⟩ := M.bind_eq_ok.1 h8
    have e4 := (Prod.mk.inj h7).2
    have e5 := (Prod.mk.inj h9).2
    have hj := vecGet_ok (Prod.mk.inj h9).1
    subst e4
    subst e5
    have ef := keeps_ok (keeps_extract G n j) h10
    obtain ⟨f1, b1⟩ := s2
    dsimp only at *
    subst e1'
    subst ef
    have hj1 : j ∈ r.1 := by
      split at hj
      · exact hj
      · rw [k2] at hj; rw [k1]; exact ⟨hj.1, hj.2.1⟩
    obtain ⟨m1, mn, m2, m3⟩ := (k1 j).1 hj1
    refine ⟨o, b1, j, mn, rfl, e1, m1, m2, m3, h10, ?_⟩
    rintro ⟨k, hk⟩
    have hk2 := (k2 k).2 hk
    rw [if_neg] at hj
    · exact ((k2 j).1 hj).2.2
    · intro he
      rw [List.isEmpty_iff] at he
      rw [he] at hk2
      cases hk2

end
end BS
