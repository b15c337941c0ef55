import Verif.Spec.Ask
import Verif.Lemmas.Keep
import Verif.Lemmas.Sizes

/-!
# Runs from different flags
-/

namespace BS
open BlobLike

/-- Where `m` returns or throws `OutOfData`, `m'` started from a related state does the same. -/
def Follows {σ α : Type} (R : σ → σ → Prop) (m m' : M σ α) : Prop :=
  ∀ s s', R s s' → ∀ o s1, m s = (o, s1) → ((∃ a, o = .ok a) ∨ o = .outOfData) → ∃ s1', m' s' = (o, s1') ∧ R s1 s1'

namespace Follows
variable {σ α γ : Type} {R : σ → σ → Prop}

theorem pure (a : α) : Follows R (pure a : M σ α) (pure a) := by
  intro s s' h o s1 e _
  cases e
  exact ⟨s', rfl, h⟩

theorem out (o : Out α) : Follows R (M.out o : M σ α) (M.out o) := by
  intro s s' h o s1 e _
  cases e
  exact ⟨s', rfl, h⟩

theorem lift (o : Out α) : Follows R (M.lift o : M σ α) (M.lift o) := out o

theorem fuel (m : M σ α) : Follows R (M.out .fuel) m := by
  intro s s' h o s1 e ho
  cases e
  rcases ho with ⟨a, h⟩ | h <;> cases h

theorem bind {m m' : M σ α} {f f' : α → M σ γ} (h : Follows R m m') (hf : ∀ a, Follows R (f a) (f' a)) :
    Follows R (m >>= f) (m' >>= f') := by
  intro s s' hR o s1 e ho
  rw [M.bind_apply] at e
  rcases hm : m s with ⟨o1, s2⟩
  rw [hm] at e
  cases o1 with
  | ok a =>
    obtain ⟨s2', h1, h2⟩ := h s s' hR _ _ hm (.inl ⟨a, rfl⟩)
    obtain ⟨s3, h3, h4⟩ := hf a s2 s2' h2 _ _ e ho
    exact ⟨s3, by rw [M.bind_ok h1, h3], h4⟩
  | outOfData =>
    cases e
    obtain ⟨s2', h1, h2⟩ := h s s' hR _ _ hm (.inr rfl)
    exact ⟨s2', by rw [M.bind_ood h1], h2⟩
  | ub r => cases e; rcases ho with ⟨a, h⟩ | h <;> cases h
  | abort => cases e; rcases ho with ⟨a, h⟩ | h <;> cases h
  | fuel => cases e; rcases ho with ⟨a, h⟩ | h <;> cases h

theorem ite {c : Prop} [Decidable c] {m m' n n' : M σ α} (h : Follows R m m') (h' : Follows R n n') :
    Follows R (if c then m else n) (if c then m' else n') := by
  split
  · exact h
  · exact h'

theorem queryAll {R : Flags → Flags → Prop} {q q' : Id → M Flags Int} (h : ∀ i, Follows R (q i) (q' i)) (l : List Id) :
    Follows R (queryAll q l) (BS.queryAll q' l) := by
  induction l with
  | nil => exact .pure _
  | cons i is ih => exact .bind (h i) fun c => .bind ih fun _ => .pure _

theorem pickMinLoop {R : Flags → Flags → Prop} {q q' : Id → M Flags Int} (h : ∀ i, Follows R (q i) (q' i)) (l : List Id)
    (r : Int) : Follows R (pickMinLoop q l r) (BS.pickMinLoop q' l r) := by
  induction l generalizing r with
  | nil => exact .pure _
  | cons i is ih => exact .bind (h i) fun c => ih _

theorem pickMaxLoop {R : Flags → Flags → Prop} {q q' : Id → M Flags Int} (h : ∀ i, Follows R (q i) (q' i)) (l : List Id)
    (r : Int) : Follows R (pickMaxLoop q l r) (BS.pickMaxLoop q' l r) := by
  induction l generalizing r with
  | nil => exact .pure _
  | cons i is ih => exact .bind (h i) fun c => .ite (.pure _) (ih _)

/-- The same blob, related flags. -/
def onX {β : Type} (R : Flags → Flags → Prop) (s s' : Flags × β) : Prop := R s.1 s'.1 ∧ s.2 = s'.2

section
variable {β : Type} {R : Flags → Flags → Prop}

theorem liftB {α : Type} {m m' : M β α} (h : FLe m m') : Follows (onX R) (liftB m : XM β α) (BS.liftB m') := by
  intro s s' hR o s1 e ho
  obtain ⟨fl, b⟩ := s
  obtain ⟨fl', b'⟩ := s'
  obtain ⟨h1, h2⟩ := hR
  cases (h2 : b = b')
  cases e
  rcases h b with hf | hf
  · exfalso
    change (∃ a, (m b).1 = Out.ok a) ∨ (m b).1 = .outOfData at ho
    rw [hf] at ho
    rcases ho with ⟨a, h⟩ | h <;> cases h
  · exact ⟨(fl', (m b).2), by simp only [BS.liftB, ← hf], h1, rfl⟩

theorem liftF {α : Type} {m m' : M Flags α} (h : Follows R m m') :
    Follows (onX R) (liftF m : XM β α) (BS.liftF m') := by
  intro s s' hR o s1 e ho
  obtain ⟨fl, b⟩ := s
  obtain ⟨fl', b'⟩ := s'
  obtain ⟨h1, h2⟩ := hR
  cases (h2 : b = b')
  cases e
  obtain ⟨s2, h3, h4⟩ := h fl fl' h1 _ _ rfl ho
  exact ⟨(s2, b), by simp only [BS.liftF, h3], h4, rfl⟩

theorem curSize [BlobLike β] : Follows (onX R) (curSize : XM β Nat) BS.curSize := by
  intro s s' hR o s1 e _
  obtain ⟨fl, b⟩ := s
  obtain ⟨fl', b'⟩ := s'
  obtain ⟨h1, h2⟩ := hR
  cases (h2 : b = b')
  cases e
  exact ⟨_, rfl, h1, rfl⟩

theorem onBlob {α : Type} (c : β) {m m' : XM β α} (h : Follows (onX R) m m') :
    Follows (onX R) (onBlob c m) (BS.onBlob c m') := by
  intro s s' hR o s1 e ho
  obtain ⟨fl, b⟩ := s
  obtain ⟨fl', b'⟩ := s'
  obtain ⟨h1, h2⟩ := hR
  cases (h2 : b = b')
  cases e
  obtain ⟨s2, h3, h4⟩ := h (fl, c) (fl', c) ⟨h1, rfl⟩ _ _ rfl ho
  exact ⟨(s2.1, b), by simp only [BS.onBlob, h3], h4.1, rfl⟩

theorem extractEach {ex ex' : Id → XM β Bytes} (h : ∀ i, Follows (onX R) (ex i) (ex' i)) (k : Int)
    (l : List (Id × β)) : Follows (onX R) (extractEach ex k l) (BS.extractEach ex' k l) := by
  induction l generalizing k with
  | nil => exact .pure _
  | cons p l ih =>
    obtain ⟨i, c⟩ := p
    exact .bind (.onBlob c (h i)) fun _ => .bind (.lift _) fun _ => .bind (ih _) fun _ => .pure _

theorem extractSeq {ex ex' : Id → XM β Bytes} (h : ∀ i, Follows (onX R) (ex i) (ex' i))
    (l : List Id) : Follows (onX R) (extractSeq ex l) (BS.extractSeq ex' l) := by
  induction l with
  | nil => exact .pure _
  | cons p l ih => exact .bind (h p) fun _ => .bind ih fun _ => .pure _

theorem pickFilter [BlobLike β] {a a' c c' : Id → M Flags Int} (h : ∀ i, Follows R (a i) (a' i))
    (h' : ∀ i, Follows R (c i) (c' i)) (l : List Id) :
    Follows (onX R) (pickFilter a c l : XM β _) (BS.pickFilter a' c' l) := by
  induction l with
  | nil => exact .pure _
  | cons p l ih =>
    exact .bind (.liftF (h p)) fun _ => .bind .curSize fun _ => .ite
      (.bind (.liftF (h' p)) fun _ => .bind ih fun _ => .ite (.pure _) (.pure _)) ih

theorem softFilter (r : Bool) {a a' c c' : Id → M Flags Int} (h : ∀ i, Follows R (a i) (a' i))
    (h' : ∀ i, Follows R (c i) (c' i)) (i : Id) (d : Int) :
    Follows R (softFilter r a c i d) (BS.softFilter r a' c' i d) := by
  unfold BS.softFilter
  exact .ite (.pure _) (.bind (h' i) fun _ => .ite (.pure _) (.bind (h i) fun _ => .bind (.lift _) fun _ => .pure _))

theorem lotFilter [BlobLike β] (r : Bool) {a a' c c' : Id → M Flags Int} (h : ∀ i, Follows R (a i) (a' i))
    (h' : ∀ i, Follows R (c i) (c' i)) (l : List Id) :
    Follows (onX R) (lotFilter r a c l : XM β _) (BS.lotFilter r a' c' l) := by
  induction l with
  | nil => exact .pure _
  | cons p l ih =>
    exact .bind (.liftF (h p)) fun _ => .bind .curSize fun _ => .ite ih
      (.bind (.liftF (.softFilter r h h' p _)) fun _ => .bind ih fun _ => .pure _)

end
end Follows

/-- If sizes are the same from related flags, so is everything. -/
theorem follows_extract {β : Type} [BlobLike β] {G : Graph} {R : Flags → Flags → Prop} {K : Nat}
    (hq : ∀ n sel j, Follows R (sizeQ G n sel j) (sizeQ G (K + n) sel j)) :
    ∀ n i, Follows (Follows.onX R) (extract G n i : XM β Bytes) (extract G (K + n) i) := by
  intro n
  induction n with
  | zero => exact fun i => .fuel _
  | succ n ih =>
    intro i
    have hv : ∀ mn mx, FLe (vecSplit n mn mx : M β (List β)) (vecSplit (K + n) mn mx) := fun mn mx =>
      fle_vecSplit (by omega) mn mx
    show Follows _ _ (extract G ((K + n) + 1) i)
    unfold extract
    cases hG : G i with
    | none => exact .out _
    | some nd =>
      cases nd with
      | arith t => exact .liftB (.refl _)
      | dict ws => exact .liftB (.refl _)
      | jsonStr => exact .liftB (.refl _)
      | latin1 => exact .liftB (.refl _)
      | ascii => exact .liftB (.refl _)
      | user u => exact .bind (.liftB (.refl _)) fun _ => .bind .curSize fun _ => .bind (.liftB (.refl _)) fun _ => .lift _
      | vec c j =>
        exact .bind (.liftF (hq n _ _)) fun _ => .bind (.liftF (hq n _ _)) fun _ =>
          .bind (.liftB (hv _ _)) fun _ => .bind (.extractEach ih _ _) fun _ => .pure _
      | set cs j unb =>
        exact .bind (.liftF (.queryAll (hq n _) _)) fun _ =>
          .bind (.liftF (.queryAll (hq n _) _)) fun _ => .bind (.liftB (.refl _)) fun _ =>
            .bind (.extractEach ih _ _) fun _ => .pure _
      | seq cs j unb => exact .bind (.extractSeq ih _) fun _ => .pure _
      | unary op c => exact .bind (ih _) fun _ => .pure _
      | lottery r st osz mn mx =>
        exact .bind (.liftB (.refl _)) fun _ => .bind (.lotFilter r (hq n _) (hq n _) _) fun _ =>
          .bind (.ite (.lotFilter false (hq n _) (hq n _) _) (.pure _)) fun _ =>
          .ite (.out _) (.bind (.lift _) fun _ => .bind (.lift _) fun _ => ih _)
      | picker pool =>
        exact .bind (.liftB (.refl _)) fun _ => .bind (.pickFilter (hq n _) (hq n _) _) fun _ =>
          .ite (.bind (.liftF (hq (n + 1) _ _)) fun _ => .bind .curSize fun _ => .ite (.out _) (.out _))
            (.bind (.lift _) fun _ => .bind (.lift _) fun _ => ih _)

/-! ## What is known about recursion -/

/-- `fl'` differs from `fl` only by what is known of stamps that are endless. -/
def Knows (G : Graph) (fl fl' : Flags) : Prop :=
  ∀ k, (fl' k).inRec = (fl k).inRec ∧ ((fl k).isRec = true → (fl' k).isRec = true) ∧
    ((fl' k).isRec = true → (fl k).isRec = true ∨ Endless G k)

theorem Knows.refl (G : Graph) (fl : Flags) : Knows G fl fl := fun _ => ⟨rfl, id, .inl⟩

theorem Knows.trans {G : Graph} {a b c : Flags} (h : Knows G a b) (h' : Knows G b c) : Knows G a c := fun k =>
  ⟨(h' k).1.trans (h k).1, fun x => (h' k).2.1 ((h k).2.1 x), fun x => ((h' k).2.2 x).elim (h k).2.2 .inr⟩

theorem Knows.setIn {G : Graph} {fl fl' : Flags} (h : Knows G fl fl') (i : Id) (v : Bool) :
    Knows G (fl.setIn i v) (fl'.setIn i v) := by
  intro k
  unfold Flags.setIn
  by_cases hk : k = i
  · subst hk
    rw [if_pos rfl, if_pos rfl]
    exact ⟨rfl, (h k).2⟩
  · rw [if_neg hk, if_neg hk]; exact h k

theorem pickMaxLoop_some {q : Id → M Flags Int} : ∀ {l : List Id} {a r : Int} {s s' : Flags},
    pickMaxLoop q l a s = (.ok (some r), s') → ∀ j ∈ l, ∃ s1 s2 c, q j s1 = (.ok c, s2) ∧ c ≠ -1 := by
  intro l
  induction l with
  | nil => intro _ _ _ _ _ j hj; cases hj
  | cons i is ih =>
    intro a r s s' h j hj
    unfold pickMaxLoop at h
    obtain ⟨c, s1, h1, h2⟩ := M.bind_eq_ok.1 h
    by_cases hc : c = -1
    · rw [if_pos hc] at h2; cases h2
    · rw [if_neg hc] at h2
      rcases List.mem_cons.1 hj with rfl | hj
      · exact ⟨_, _, _, h1, hc⟩
      · exact ih h2 j hj

/-- An endless stamp never reports a maximum. -/
theorem max_endless {G : Graph} (hu : HonestUsers G) : ∀ n i fl v fl1, Endless G i →
    sizeQ G n .max i fl = (.ok v, fl1) → v = -1 := by
  intro n
  induction n with
  | zero => intro i fl v fl1 _ h; cases h
  | succ n ih =>
    intro i fl v fl1 he h
    have hcase : (∃ u, G i = some (.user u) ∧ u.recursive = true) ∨
        ∃ pool, G i = some (.picker pool) ∧ ∃ j ∈ pool, Endless G j := by
      obtain ⟨q, h1, h2⟩ := he
      rcases Relation.ReflTransGen.cases_head h1 with rfl | ⟨j, ⟨pool, e1, e2⟩, h3⟩
      · rcases h2 with h2 | h2
        · right
          obtain ⟨j, ⟨pool, e1, e2⟩, h3⟩ := Relation.TransGen.head'_iff.1 h2
          exact ⟨pool, e1, j, e2, i, h3, .inl h2⟩
        · exact .inl h2
      · exact .inr ⟨pool, e1, j, e2, q, h3, h2⟩
    unfold sizeQ at h
    rcases hcase with ⟨u, hG, hr⟩ | ⟨pool, hG, j, hj, hej⟩
    · rw [hG] at h
      have : u.mx = v := by simpa using (Prod.mk.inj h).1
      rw [← this]; exact hu i u hG hr
    · rw [hG] at h
      change (if ((fl i).isRec || (fl i).inRec) = true then (pure (-1) : M Flags Int) else _) fl = _ at h
      by_cases hm : ((fl i).isRec || (fl i).inRec) = true
      · rw [if_pos hm] at h
        have := (Prod.mk.inj h).1
        simpa using this.symm
      · rw [if_neg hm] at h
        change (pickMaxLoop (sizeQ G n .max) pool 0 >>= _) (fl.setIn i true) = _ at h
        obtain ⟨r, s1, h1, h2⟩ := M.bind_eq_ok.1 h
        cases r with
        | none => cases h2; rfl
        | some r =>
          obtain ⟨a, b, c, e1, e2⟩ := pickMaxLoop_some h1 j hj
          exact absurd (ih j a c b hej e1) e2

/-- Knowing that an endless stamp is recursive changes no size. -/
theorem follows_sizeQ {G : Graph} (hu : HonestUsers G) : ∀ n sel i,
    Follows (Knows G) (sizeQ G n sel i) (sizeQ G n sel i) := by
  intro n
  induction n with
  | zero => exact fun _ _ => .fuel _
  | succ n ih =>
    intro sel i
    have hme := fun fl v fl1 => max_endless hu (n + 1) i fl v fl1
    have hkp := keeps_sizeQ G (n + 1) .max i
    unfold sizeQ
    cases hG : G i with
    | none => exact .out _
    | some nd =>
      cases nd with
      | arith t => exact .pure _
      | dict ws => exact .pure _
      | jsonStr => exact .pure _
      | latin1 => exact .pure _
      | ascii => exact .pure _
      | user u => exact .pure _
      | vec c j =>
        cases sel
        · exact .bind (ih _ _) fun _ => .bind (ih _ _) fun _ => .pure _
        · exact .pure _
      | set cs j unb =>
        cases sel
        · exact .bind (.queryAll (ih _) cs) fun _ => .bind (.queryAll (ih _) cs) fun _ => .lift _
        · cases unb
          · exact .bind (.queryAll (ih _) cs) fun _ => .bind (.queryAll (ih _) cs) fun _ => .lift _
          · exact .pure _
      | seq cs j unb =>
        cases sel
        · cases unb <;> exact .bind (.queryAll (ih _) cs) fun _ => .lift _
        · cases unb
          · exact .bind (.queryAll (ih _) cs) fun _ => .lift _
          · exact .pure _
      | unary op c =>
        cases sel
        · exact ih _ _
        · exact .pure _
      | lottery r st osz mn mx =>
        cases sel
        · exact .lift _
        · exact .ite (.pure _) (.lift _)
      | picker pool =>
        cases sel
        · intro fl fl' hR o s1 e ho
          change (if (fl i).inRec = true then (pure (INT_MAX / 2) : M Flags Int) else _) fl = _ at e
          change ∃ s1', (if (fl' i).inRec = true then (pure (INT_MAX / 2) : M Flags Int) else _) fl' = _ ∧ _
          rw [(hR i).1]
          by_cases hm : (fl i).inRec = true
          · rw [if_pos hm] at e ⊢
            exact Follows.pure _ _ _ hR _ _ e ho
          · rw [if_neg hm] at e ⊢
            refine Follows.bind (R := Knows G) (m := modFlags (·.setIn i true)) ?_ (fun _ =>
              Follows.bind (Follows.pickMinLoop (ih _) _ _) fun _ => Follows.bind (m := modFlags (·.setIn i false)) ?_ fun _ =>
                .ite (.pure _) (.pure _)) fl fl' hR _ _ e ho
            · intro a b h o s1 e _; cases e; exact ⟨_, rfl, h.setIn i true⟩
            · intro a b h o s1 e _; cases e; exact ⟨_, rfl, h.setIn i false⟩
        · intro fl fl' hR o s1 e ho
          have e0 : sizeQ G (n + 1) .max i fl = (o, s1) := by unfold sizeQ; rw [hG]; exact e
          change (if ((fl i).isRec || (fl i).inRec) = true then (pure (-1) : M Flags Int) else _) fl = _ at e
          change ∃ s1', (if ((fl' i).isRec || (fl' i).inRec) = true then (pure (-1) : M Flags Int) else _) fl' = _ ∧ _
          rw [(hR i).1]
          by_cases hm : ((fl i).isRec || (fl i).inRec) = true
          · have hm' : ((fl' i).isRec || (fl i).inRec) = true := by
              rw [Bool.or_eq_true] at hm ⊢
              exact hm.imp (hR i).2.1 id
            rw [if_pos hm] at e
            rw [if_pos hm']
            exact Follows.pure _ _ _ hR _ _ e ho
          · rw [if_neg hm] at e
            by_cases hm' : ((fl' i).isRec || (fl i).inRec) = true
            · rw [if_pos hm']
              have hm0 : (fl i).isRec = false ∧ (fl i).inRec = false := by simpa using hm
              rw [hm0.2, Bool.or_false] at hm'
              have he : Endless G i := by
                rcases (hR i).2.2 hm' with h | h
                · rw [hm0.1] at h; cases h
                · exact h
              rcases ho with ⟨v, rfl⟩ | rfl
              · obtain rfl := hme fl v s1 he e0
                obtain rfl := (hkp fl).2.2 _ _ e0
                exact ⟨fl', rfl, hR⟩
              · have := (hkp fl).1
                rw [e0] at this
                exact absurd rfl this
            · rw [if_neg hm']
              refine Follows.bind (R := Knows G) (m := modFlags (·.setIn i true)) ?_ (fun _ =>
                Follows.bind (Follows.pickMaxLoop (ih _) _ _) fun r => Follows.bind (m := modFlags (·.setIn i false)) ?_ fun _ =>
                  ?_) fl fl' hR _ _ e ho
              · intro a b h o s1 e _; cases e; exact ⟨_, rfl, h.setIn i true⟩
              · intro a b h o s1 e _; cases e; exact ⟨_, rfl, h.setIn i false⟩
              · cases r <;> exact .pure _

/-- All that is thought recursive is endless. -/
def Sound (G : Graph) (fl : Flags) : Prop := ∀ k, (fl k).isRec = true → Endless G k

theorem Sound.knows {G : Graph} {fl fl' : Flags} (h : Sound G fl) (h' : Knows G fl fl') : Sound G fl' := fun k hk =>
  ((h' k).2.2 hk).elim (h k) id

theorem Endless.up {G : Graph} {i j : Id} (h : PickEdge G i j) (he : Endless G j) : Endless G i := by
  obtain ⟨q, h1, h2⟩ := he
  exact ⟨q, h1.head h, h2⟩

theorem isRecLoop_knows {G : Graph} {q : Id → M Flags Bool} {fl0 : Flags} : ∀ {l : List Id},
    (∀ j ∈ l, ∀ fl r fl', Knows G fl0 fl → q j fl = (.ok r, fl') → Knows G fl0 fl' ∧ (r = true → Endless G j)) →
    ∀ fl r fl', Knows G fl0 fl → isRecLoop q l fl = (.ok r, fl') →
      Knows G fl0 fl' ∧ (r = true → ∃ j ∈ l, Endless G j) := by
  intro l
  induction l with
  | nil => intro _ fl r fl' hk h; cases h; exact ⟨hk, by simp⟩
  | cons i is ih =>
    intro hq fl r fl' hk h
    unfold isRecLoop at h
    obtain ⟨c, s1, h1, h2⟩ := M.bind_eq_ok.1 h
    obtain ⟨k1, k2⟩ := hq i (by simp) fl c s1 hk h1
    cases c with
    | true => cases h2; exact ⟨k1, fun _ => ⟨i, by simp, k2 rfl⟩⟩
    | false =>
      obtain ⟨g1, g2⟩ := ih (fun j hj => hq j (List.mem_cons_of_mem _ hj)) s1 r fl' k1 h2
      exact ⟨g1, fun hr => by obtain ⟨j, hj, e⟩ := g2 hr; exact ⟨j, List.mem_cons_of_mem _ hj, e⟩⟩

/-- `isRecursive()` finds out nothing but the truth. -/
theorem isRecQ_knows {G : Graph} : ∀ n i fl r fl', Sound G fl →
    (∀ k, (fl k).inRec = true → Relation.TransGen (PickEdge G) k i) → isRecQ G n i fl = (.ok r, fl') →
    Knows G fl fl' ∧ (r = true → Endless G i) := by
  intro n
  induction n with
  | zero => intro i fl r fl' _ _ h; cases h
  | succ n ih =>
    intro i fl r fl' hs hin h
    unfold isRecQ at h
    cases hG : G i with
    | none => rw [hG] at h; cases h
    | some nd =>
      rw [hG] at h
      cases nd with
      | user u => cases h; exact ⟨.refl _ _, fun hr => ⟨i, .refl, .inr ⟨u, hG, hr⟩⟩⟩
      | picker pool =>
        change (if ((fl i).isRec || (fl i).inRec) = true then (pure true : M Flags Bool) else _) fl = _ at h
        by_cases hm : ((fl i).isRec || (fl i).inRec) = true
        · rw [if_pos hm] at h
          cases h
          refine ⟨.refl _ _, fun _ => ?_⟩
          rcases Bool.or_eq_true _ _ ▸ hm with hm | hm
          · exact hs i hm
          · exact ⟨i, .refl, .inl (hin i hm)⟩
        · rw [if_neg hm] at h
          have hm0 : (fl i).isRec = false ∧ (fl i).inRec = false := by simpa using hm
          change (isRecLoop (isRecQ G n) pool >>= _) (fl.setIn i true) = _ at h
          obtain ⟨c, s1, h1, h2⟩ := M.bind_eq_ok.1 h
          have hs0 : Sound G (fl.setIn i true) := by
            intro k hk
            unfold Flags.setIn at hk
            by_cases hki : k = i
            · subst hki; rw [if_pos rfl] at hk; exact hs k hk
            · rw [if_neg hki] at hk; exact hs k hk
          obtain ⟨g1, g2⟩ := isRecLoop_knows (G := G) (fl0 := fl.setIn i true) (l := pool) (by
            intro j hj f r f' hk e
            obtain ⟨e1, e2⟩ := ih j f r f' (hs0.knows hk) (by
              intro k hin'
              rw [(hk k).1] at hin'
              have hij : PickEdge G i j := ⟨pool, hG, hj⟩
              unfold Flags.setIn at hin'
              by_cases hki : k = i
              · subst hki; exact .single hij
              · rw [if_neg hki] at hin'; exact (hin k hin').tail hij) e
            exact ⟨hk.trans e1, e2⟩) _ _ _ (.refl _ _) h1
          have back : ∀ s : Flags, Knows G (fl.setIn i true) s → Knows G fl (s.setIn i false) := by
            intro s hk k
            have := hk k
            unfold Flags.setIn at this ⊢
            by_cases hki : k = i
            · subst hki
              rw [if_pos rfl] at this ⊢
              exact ⟨hm0.2.symm, this.2⟩
            · rw [if_neg hki] at this ⊢; exact this
          cases c with
          | false =>
            cases h2
            exact ⟨back _ g1, by simp⟩
          | true =>
            obtain ⟨j, hj, hej⟩ := g2 rfl
            have hei : Endless G i := hej.up ⟨pool, hG, hj⟩
            cases h2
            refine ⟨back (s1.setRec i) (g1.trans ?_), fun _ => hei⟩
            intro k
            unfold Flags.setRec
            by_cases hki : k = i
            · subst hki
              rw [if_pos rfl]
              exact ⟨rfl, fun _ => rfl, fun _ => .inr hei⟩
            · rw [if_neg hki]; exact ⟨rfl, id, .inl⟩
      | _ => cases h; exact ⟨.refl _ _, by simp⟩

end BS
