import Verif.Lemmas.Terminate

/-!
# How much budget extraction takes
-/

namespace BS
open BlobLike

/-- For every budget from `N` on `q` ends the same way, and a result satisfies `P`. -/
def EndsBy {σ α : Type} (N : Nat) (q : Nat → M σ α) (s : σ) (P : α → σ → Prop) : Prop :=
  ∃ o s', o ≠ .fuel ∧ (∀ n ≥ N, q n s = (o, s')) ∧ ∀ v, o = .ok v → P v s'

namespace EndsBy
variable {σ α γ : Type} {s : σ} {N : Nat}

theorem const {m : M σ α} {P : α → σ → Prop} (h : (m s).1 ≠ .fuel) (hP : ∀ v, (m s).1 = .ok v → P v (m s).2) :
    EndsBy N (fun _ => m) s P := ⟨(m s).1, (m s).2, h, fun _ _ => rfl, hP⟩

theorem pure {a : α} {P : α → σ → Prop} (h : P a s) : EndsBy N (fun _ => (Pure.pure a : M σ α)) s P :=
  const (by rintro ⟨⟩) fun v hv => by cases hv; exact h

theorem out {o : Out α} {P : α → σ → Prop} (h : o ≠ .fuel) (hP : ∀ v, o = .ok v → P v s) :
    EndsBy N (fun _ => (M.out o : M σ α)) s P := const h hP

theorem bind {q : Nat → M σ α} {f : Nat → α → M σ γ} {P : α → σ → Prop} {Q : γ → σ → Prop}
    (h : EndsBy N q s P) (hf : ∀ v s', P v s' → EndsBy N (fun n => f n v) s' Q) :
    EndsBy N (fun n => q n >>= f n) s Q := by
  obtain ⟨o, s', ho, hN, hP⟩ := h
  cases o with
  | ok v =>
    obtain ⟨o', s'', ho', hN', hQ⟩ := hf v s' (hP v rfl)
    refine ⟨o', s'', ho', fun n hn => ?_, hQ⟩
    dsimp only
    rw [M.bind_ok (hN n hn)]
    exact hN' n hn
  | outOfData => exact ⟨.outOfData, s', by simp, fun n hn => M.bind_ood (hN n hn), by simp⟩
  | abort => exact ⟨.abort, s', by simp, fun n hn => M.bind_abort (hN n hn), by simp⟩
  | ub r => exact ⟨.ub r, s', by simp, fun n hn => M.bind_ub (hN n hn), by simp⟩
  | fuel => exact absurd rfl ho

theorem lift {o : Out α} {f : Nat → α → M σ γ} {Q : γ → σ → Prop} (h : o ≠ .fuel)
    (hf : ∀ v, o = .ok v → EndsBy N (fun n => f n v) s Q) :
    EndsBy N (fun n => (M.lift o : M σ α) >>= f n) s Q := by
  refine bind (P := fun v s' => o = .ok v ∧ s' = s) (const h fun v hv => ⟨hv, rfl⟩) ?_
  rintro v s' ⟨hv, rfl⟩
  exact hf v hv

theorem ite {c : Prop} [Decidable c] {p q : Nat → M σ α} {P : α → σ → Prop} (h1 : c → EndsBy N p s P)
    (h2 : ¬ c → EndsBy N q s P) : EndsBy N (fun n => if c then p n else q n) s P := by
  by_cases h : c
  · simp only [if_pos h]; exact h1 h
  · simp only [if_neg h]; exact h2 h

theorem mono {q : Nat → M σ α} {P Q : α → σ → Prop} (h : EndsBy N q s P) (hPQ : ∀ v s, P v s → Q v s) :
    EndsBy N q s Q := by
  obtain ⟨o, s', ho, hN, hP⟩ := h
  exact ⟨o, s', ho, hN, fun v hv => hPQ _ _ (hP v hv)⟩

theorem weaken {q : Nat → M σ α} {P : α → σ → Prop} {N' : Nat} (h : EndsBy N q s P) (hN : N ≤ N') :
    EndsBy N' q s P := by
  obtain ⟨o, s', ho, h1, hP⟩ := h
  exact ⟨o, s', ho, fun n hn => h1 n (le_trans hN hn), hP⟩

/-- One more call on the stack. -/
theorem shift {q : Nat → M σ α} {P : α → σ → Prop} (h : EndsBy N (fun n => q (n + 1)) s P) : EndsBy (N + 1) q s P := by
  obtain ⟨o, s', ho, hN, hP⟩ := h
  refine ⟨o, s', ho, fun n hn => ?_, hP⟩
  obtain ⟨m, rfl⟩ : ∃ m, n = m + 1 := ⟨n - 1, by omega⟩
  exact hN m (by omega)

theorem unshift {q : Nat → M σ α} {P : α → σ → Prop} (h : EndsBy N q s P) : EndsBy N (fun n => q (n + 1)) s P := by
  obtain ⟨o, s', ho, hN, hP⟩ := h
  exact ⟨o, s', ho, fun n hn => hN _ (by omega), hP⟩

end EndsBy

/-- `Q` levels are enough for every size query. -/
def QueriesBy (G : Graph) (fl : Flags) (Q : Nat) : Prop := ∀ sel i, (sizeQ G Q sel i fl).1 ≠ .fuel

theorem by_sizeQ {G : Graph} {fl : Flags} {N : Nat} (h : QueriesBy G fl N) (sel : Sel) (i : Id) :
    EndsBy N (fun n => sizeQ G n sel i) fl (fun v fl' => fl' = fl ∧ SizeRuns G fl sel i v fl) := by
  rcases hm : sizeQ G N sel i fl with ⟨o, fl'⟩
  have hst : ∀ n ≥ N, sizeQ G n sel i fl = (o, fl') := fun n hn => by
    rw [sizeQ_stable hn (h sel i), hm]
  refine ⟨o, fl', ?_, hst, ?_⟩
  · have := h sel i
    rw [hm] at this; exact this
  · rintro v rfl
    obtain rfl := (keeps_sizeQ G N sel i fl).2.2 v fl' hm
    exact ⟨rfl, N, hst⟩

theorem by_queryAll {G : Graph} {fl : Flags} {N : Nat} (h : QueriesBy G fl N) (sel : Sel) (l : List Id) :
    EndsBy N (fun n => queryAll (sizeQ G n sel) l) fl (fun _ fl' => fl' = fl) := by
  induction l with
  | nil => exact .pure rfl
  | cons i is ih =>
    refine .bind (by_sizeQ h sel i) ?_
    rintro v _ ⟨rfl, _⟩
    refine .bind ih ?_
    rintro vs _ rfl
    exact .pure rfl

theorem by_liftF {α : Type} {q : Nat → M Flags α} {fl : Flags} {a : ABlob} {P : α → Flags → Prop}
    (hP' : ∀ v f', P v f' → f' = fl) (h : EndsBy N q fl P) :
    EndsBy N (fun n => (liftF (q n) : XM ABlob α)) (fl, a) (fun v s' => s' = (fl, a) ∧ P v fl) := by
  obtain ⟨o, s', ho, hN, hP⟩ := h
  refine ⟨o, (s', a), ho, fun n hn => ?_, fun v hv => ?_⟩
  · show ((q n fl).1, ((q n fl).2, a)) = _
    rw [hN n hn]
  · have h1 := hP v hv
    have h2 := hP' v s' h1
    rw [h2] at h1
    exact ⟨by rw [h2], h1⟩

theorem by_liftB {α : Type} {q : Nat → M ABlob α} {fl : Flags} {a : ABlob} {P : α → ABlob → Prop}
    (h : EndsBy N q a P) : EndsBy N (fun n => liftB (q n)) (fl, a) (fun v s' => s'.1 = fl ∧ P v s'.2) := by
  obtain ⟨o, s', ho, hN, hP⟩ := h
  refine ⟨o, (fl, s'), ho, fun n hn => ?_, fun v hv => ⟨rfl, hP v hv⟩⟩
  show ((q n a).1, (fl, (q n a).2)) = _
  rw [hN n hn]

theorem by_vecSplit {mn mx : Int} (hi : -W31 ≤ mn) (hi2 : mn < W31) (h : ¬ (mn = 0 ∧ mx = 0)) (a : ABlob) {N : Nat}
    (hN : a.length < N) :
    EndsBy N (fun n => (vecSplit n mn mx : M ABlob (List ABlob))) a
      (fun l a' => totalLen l + a'.length ≤ a.length) := by
  have hf := vecSplit_noFuel hi hi2 h (a.length + 1) a (by omega)
  have ht := tri_vecSplit (a0 := a) (a.length + 1) mn mx (List.suffix_refl a)
  refine ⟨(vecSplit (a.length + 1) mn mx a).1, (vecSplit (a.length + 1) mn mx a).2, hf, ?_,
    fun v hv => (ht.2.2 v hv).1⟩
  intro n hn
  rcases fle_vecSplit (β := ABlob) (show a.length + 1 ≤ n by omega) mn mx a with e | e
  · exact absurd e hf
  · show vecSplit n mn mx a = _
    rw [← e]

theorem by_pickFilter {G : Graph} {fl : Flags} {N : Nat} (h : QueriesBy G fl N) (a : ABlob) (l : List Id) :
    EndsBy N (fun n => (pickFilter (sizeQ G n .min) (sizeQ G n .max) l : XM ABlob _)) (fl, a)
      (fun _ s' => s' = (fl, a)) := by
  induction l with
  | nil => exact .pure rfl
  | cons i is ih =>
    refine .bind (by_liftF (fun _ _ h => h.1) (by_sizeQ h .min i)) ?_
    rintro mn _ ⟨rfl, _, _⟩
    refine .bind (P := fun _ s' => s' = (fl, a)) (.const (by rintro ⟨⟩) fun _ _ => rfl) ?_
    rintro sz _ rfl
    refine .ite (fun _ => ?_) fun _ => ih
    refine .bind (by_liftF (fun _ _ h => h.1) (by_sizeQ h .max i)) ?_
    rintro mx _ ⟨rfl, _, _⟩
    refine .bind ih ?_
    rintro r _ rfl
    exact .ite (fun _ => .pure rfl) fun _ => .pure rfl

theorem by_softFilter {G : Graph} {fl : Flags} {N : Nat} (h : QueriesBy G fl N) (rec4 : Bool) (i : Id) (d : Int) :
    EndsBy N (fun n => softFilter rec4 (sizeQ G n .min) (sizeQ G n .max) i d) fl (fun _ fl' => fl' = fl) := by
  refine .ite (fun _ => .pure rfl) fun _ => ?_
  refine .bind (by_sizeQ h .max i) ?_
  rintro mx _ ⟨rfl, _⟩
  refine .ite (fun _ => .pure rfl) fun _ => ?_
  refine .bind (by_sizeQ h .min i) ?_
  rintro mn _ ⟨rfl, _⟩
  exact .lift (ckInt_noFuel _) fun _ _ => .pure rfl

theorem by_lotFilter {G : Graph} {fl : Flags} {N : Nat} (h : QueriesBy G fl N) (a : ABlob) (rec4 : Bool) (l : List Id) :
    EndsBy N (fun n => (lotFilter rec4 (sizeQ G n .min) (sizeQ G n .max) l : XM ABlob _)) (fl, a)
      (fun _ s' => s' = (fl, a)) := by
  induction l with
  | nil => exact .pure rfl
  | cons i is ih =>
    refine .bind (by_liftF (fun _ _ h => h.1) (by_sizeQ h .min i)) ?_
    rintro mn _ ⟨rfl, _, _⟩
    refine .bind (P := fun _ s' => s' = (fl, a)) (.const (by rintro ⟨⟩) fun _ _ => rfl) ?_
    rintro sz _ rfl
    refine .ite (fun _ => ih) fun _ => ?_
    refine .bind (by_liftF (fun _ _ h => h) (by_softFilter h rec4 i _)) ?_
    rintro ok _ ⟨rfl, _⟩
    refine .bind ih ?_
    rintro r _ rfl
    exact .pure rfl

theorem by_each {G : Graph} {fl : Flags} {a : ABlob} (l : List (Id × ABlob))
    (h : ∀ p ∈ l, EndsBy N (fun n => extract G n p.1) (fl, p.2) (fun _ s' => s'.1 = fl)) :
    ∀ k : Int, EndsBy N (fun n => extractEach (extract G n) k l) (fl, a) (fun _ s' => s' = (fl, a)) := by
  induction l with
  | nil => exact fun _ => .pure rfl
  | cons p l ih =>
    intro k
    obtain ⟨i, c⟩ := p
    refine .bind (P := fun _ s' => s' = (fl, a)) ?_ ?_
    · obtain ⟨o, s', ho, hN, hP⟩ := h (i, c) (List.mem_cons_self ..)
      refine ⟨o, (s'.1, a), ho, fun n hn => ?_, fun v hv => by rw [hP v hv]⟩
      have e : extract G n i (fl, c) = (o, s') := hN n hn
      show ((extract G n i (fl, c)).1, ((extract G n i (fl, c)).2.1, a)) = _
      rw [e]
    · rintro v _ rfl
      refine .lift (by rcases ckInt_cases (k + 1) with e | e <;> rw [e] <;> simp) fun k' _ => ?_
      refine .bind (ih (fun p hp => h p (List.mem_cons_of_mem _ hp)) k') ?_
      rintro vs _ rfl
      exact .pure rfl

theorem by_seq {G : Graph} {fl : Flags} (l : List Id) {L : Nat}
    (h : ∀ j ∈ l, ∀ a : ABlob, a.length ≤ L → EndsBy N (fun n => extract G n j) (fl, a) (NoLonger fl a))
    (a : ABlob) (ha : a.length ≤ L) :
    EndsBy N (fun n => extractSeq (extract G n) l) (fl, a) (NoLonger fl a) := by
  induction l generalizing a with
  | nil => exact .pure ⟨rfl, le_refl _⟩
  | cons j l ih =>
    refine .bind (h j (List.mem_cons_self ..) a ha) ?_
    rintro v ⟨f', a'⟩ ⟨hf, ha'⟩
    dsimp only at hf ha'
    have hf : fl = f' := hf.symm; subst hf
    refine .bind (ih (fun j hj => h j (List.mem_cons_of_mem _ hj)) a' (le_trans ha' ha)) ?_
    rintro vs ⟨f', a''⟩ ⟨hf, ha''⟩
    exact .pure ⟨hf, le_trans ha'' ha'⟩

theorem by_leaf {α : Type} {m : M ABlob α} {fl : Flags} {a : ABlob} (hm : NoFuel m)
    (hl : ∀ v, (m a).1 = .ok v → (m a).2.length ≤ a.length) :
    EndsBy N (fun _ => liftB m) (fl, a) (NoLonger fl a) :=
  .const (hm a) fun v hv => ⟨rfl, hl v hv⟩

theorem QueriesBy.mono {G : Graph} {fl : Flags} {Q N : Nat} (h : QueriesBy G fl Q) (hN : Q ≤ N) : QueriesBy G fl N :=
  fun sel i => by rw [sizeQ_stable hN (h sel i)]; exact h sel i

theorem by_extract {G : Graph} {fl : Flags} (h : Ending G fl) {Q R : Nat} (hQ : QueriesBy G fl Q) {r : Id → Nat}
    (hr : ∀ i j, PlainEdge G i j → r j < r i) (hR : ∀ i, r i ≤ R) (L : Nat) :
    ∀ i, ∀ a : ABlob, a.length ≤ L →
      EndsBy (Q + (R + 2) * L + r i + 2) (fun n => extract G n i) (fl, a) (NoLonger fl a) := by
  induction L using Nat.strong_induction_on with
  | _ L ihL =>
  intro i
  induction i using h.guarded.wf.induction with
  | _ i ihI =>
  intro a ha
  apply EndsBy.shift
  have hLm : L ≤ (R + 2) * L := Nat.le_mul_of_pos_left _ (by omega)
  obtain ⟨N, hN⟩ : ∃ N, N = Q + (R + 2) * L + r i + 1 := ⟨_, rfl⟩
  rw [← hN]
  have hq : QueriesBy G fl N := hQ.mono (by omega)
  have hkid : ∀ j, PlainEdge G i j → ∀ a : ABlob, a.length ≤ L →
      EndsBy N (fun n => extract G n j) (fl, a) (NoLonger fl a) := by
    intro j hj a ha
    refine (ihI j hj a ha).weaken ?_
    have := hr i j hj
    omega
  have hdown : ∀ j, ∀ a : ABlob, a.length < L →
      EndsBy N (fun n => extract G n j) (fl, a) (NoLonger fl a) := by
    intro j a ha
    refine (ihL a.length ha j a le_rfl).weaken ?_
    have h1 := hR j
    have h2 : (R + 2) * a.length + (R + 2) ≤ (R + 2) * L := by
      rw [← Nat.mul_succ]; exact Nat.mul_le_mul_left _ ha
    omega
  unfold extract
  cases hG : G i with
  | none => exact .out (by rintro ⟨⟩) (by rintro v ⟨⟩)
  | some nd =>
    cases nd with
    | arith t =>
      refine by_leaf (arith_noFuel t) fun v hv => ?_
      have := (tri_arith t (List.suffix_refl a)).2.2 v hv
      omega
    | dict ws => exact by_leaf (dict_noFuel ws) fun v hv => dict_len ws a v hv
    | jsonStr =>
      refine by_leaf (.bind (dict_noFuel _) fun _ => .pure _) fun v hv => ?_
      rcases hd : (extractJsonStr : M ABlob Bytes) a with ⟨o, a'⟩
      rw [hd] at hv
      dsimp only at hv ⊢
      cases hv
      obtain ⟨x, a1, h1, h2⟩ := M.bind_eq_ok.1 hd
      have := dict_len _ a x (by rw [h1])
      rw [h1] at this
      have e2 : a' = a1 := (Prod.mk.inj h2).2.symm
      subst e2
      exact this
    | latin1 =>
      exact by_leaf (text_noFuel _) fun v hv => (tri_text _ (List.suffix_refl a)).1.length_le
    | ascii =>
      exact by_leaf (text_noFuel _) fun v hv => (tri_text _ (List.suffix_refl a)).1.length_le
    | user u =>
      dsimp only
      refine .bind (P := fun _ s' => s' = (fl, a)) (.const ?_ fun v hv => rfl) ?_
      · show (Out.ok a : Out Bytes) ≠ _
        simp
      rintro v _ rfl
      refine .bind (P := fun _ s' => s' = (fl, a)) (.const (by rintro ⟨⟩) fun _ _ => rfl) ?_
      rintro sz _ rfl
      refine .bind (by_leaf (chop_noFuel _) fun v hv => (tri_chop _ (List.suffix_refl a)).1.length_le) ?_
      rintro _ ⟨f', a'⟩ ⟨hf, ha'⟩
      exact .const (h.user i u hG _) fun _ _ => ⟨hf, ha'⟩
    | vec c join =>
      dsimp only
      refine .bind (by_liftF (fun _ _ h => h.1) (by_sizeQ hq .min c)) ?_
      rintro mn _ ⟨rfl, _, hmn⟩
      refine .bind (by_liftF (fun _ _ h => h.1) (by_sizeQ hq .max c)) ?_
      rintro mx _ ⟨rfl, _, hmx⟩
      have hr' := HasMin.int h.ints hmn
      refine .bind (by_liftB (by_vecSplit hr'.1 hr'.2 ?_ a (by omega))) ?_
      · rintro ⟨rfl, rfl⟩
        exact h.vec i c join hG ⟨hmn, hmx⟩
      · rintro l ⟨f', a'⟩ ⟨hf, hl⟩
        dsimp only at hf hl
        have hf : fl = f' := hf.symm; subst hf
        refine .bind (by_each _ ?_ 0) ?_
        · intro p hp
          obtain ⟨q, hq, rfl⟩ := List.mem_map.1 hp
          have := mem_le_totalLen hq
          exact (hkid c ⟨_, hG, List.mem_singleton.2 rfl⟩ q (by omega)).mono fun _ _ h => h.1
        · rintro xs _ rfl
          exact .pure ⟨rfl, by show List.length a' ≤ _; omega⟩
    | set cs join unb =>
      dsimp only
      refine .bind (by_liftF (fun _ _ h => h) (by_queryAll hq .min cs)) ?_
      rintro mns _ ⟨rfl, _⟩
      refine .bind (by_liftF (fun _ _ h => h) (by_queryAll hq .max cs)) ?_
      rintro mxs _ ⟨rfl, _⟩
      refine .bind (P := fun l s' => s'.1 = fl ∧ totalLen l + List.length s'.2 ≤ List.length a) (.const
        (m := liftB (setSplit (mns.zip mxs))) (setSplit_noFuel _ a) fun v hv => ⟨rfl, ?_⟩) ?_
      · have := (tri_setSplit (mns.zip mxs) (List.suffix_refl a)).2.2 v hv
        unfold Cut at this
        show _ + List.length (setSplit (mns.zip mxs) a).2 ≤ _
        omega
      · rintro l ⟨f', a'⟩ ⟨hf, hl⟩
        dsimp only at hf hl
        have hf : fl = f' := hf.symm; subst hf
        refine .bind (by_each _ ?_ 0) ?_
        · rintro ⟨j, q⟩ hp
          have hq := List.of_mem_zip hp
          have := mem_le_totalLen hq.2
          exact (hkid j ⟨_, hG, hq.1⟩ q (by omega)).mono fun _ _ h => h.1
        · rintro xs _ rfl
          exact .pure ⟨rfl, by show List.length a' ≤ _; omega⟩
    | seq cs join unb =>
      dsimp only
      refine .bind (by_seq cs (fun j hj a ha => hkid j ⟨_, hG, hj⟩ a ha) a ha) ?_
      rintro xs s' h'
      exact .pure h'
    | unary op c =>
      dsimp only
      refine .bind (hkid c ⟨_, hG, List.mem_singleton.2 rfl⟩ a ha) ?_
      rintro xs s' h'
      exact .pure h'
    | lottery r l o mn mx =>
      dsimp only
      refine .bind (P := fun _ s' => s'.1 = fl ∧ List.length s'.2 < List.length a)
        (.const (m := liftB (uOracle o)) (uOracle_noFuel _ a) fun v hv => ⟨rfl, ?_⟩) ?_
      · have := (tri_uOracle o (List.suffix_refl a)).2.2 v hv
        show List.length (uOracle o a).2 < _
        omega
      rintro v ⟨f', a'⟩ ⟨hf, ha'⟩
      dsimp only at hf ha'
      have hf : fl = f' := hf.symm; subst hf
      refine .bind (by_lotFilter hq a' r l) ?_
      rintro l1 _ rfl
      refine .bind (P := fun _ s' => s' = (fl, a')) (.ite (fun _ => by_lotFilter hq a' false l)
        fun _ => .pure rfl) ?_
      rintro l2 _ rfl
      refine .ite (fun _ => .out (by rintro ⟨⟩) (by rintro v ⟨⟩)) fun _ => ?_
      refine .lift (scaledIndex_noFuel _ _ _) fun k _ => .lift (vecGet_noFuel _ _) fun j _ => ?_
      exact (hdown j a' (by omega)).mono fun _ _ h => ⟨h.1, by omega⟩
    | picker pool =>
      dsimp only
      refine .bind (P := fun _ s' => s'.1 = fl ∧ List.length s'.2 < List.length a)
        (.const (m := liftB oracle) (oracle_noFuel a) fun v hv => ⟨rfl, ?_⟩) ?_
      · have := (tri_oracle (List.suffix_refl a)).2.2 v hv
        show List.length (oracle a).2 < _
        omega
      rintro v ⟨f', a'⟩ ⟨hf, ha'⟩
      dsimp only at hf ha'
      have hf : fl = f' := hf.symm; subst hf
      refine .bind (by_pickFilter hq a' pool) ?_
      rintro r _ rfl
      generalize (if r.2.isEmpty then r.1 else r.2) = l
      refine .ite (fun _ => ?_) fun _ => ?_
      · refine .bind (by_liftF (fun _ _ h => h.1) (by_sizeQ hq .min i).unshift) ?_
        rintro mn _ ⟨rfl, _, hmn⟩
        refine .bind (P := fun _ s' => s' = (fl, a')) (.const (by rintro ⟨⟩) fun _ _ => rfl) ?_
        rintro sz _ rfl
        exact .ite (fun _ => .out (by rintro ⟨⟩) (by rintro v ⟨⟩)) fun _ => .out (by rintro ⟨⟩) (by rintro v ⟨⟩)
      · refine .lift (oracleProportion_noFuel _ _ _) fun k _ => .lift (vecGet_noFuel _ _) fun j _ => ?_
        exact (hdown j a' (by omega)).mono fun _ _ h => ⟨h.1, by omega⟩

end BS
