import Verif.Lemmas.Sim
import Verif.Lemmas.BlobHist
import Verif.Spec.Stamp

/-!
# More fuel never changes a finished run
-/

set_option linter.unusedSectionVars false

namespace BS
open BlobLike

/-- `m'` gives the same as `m` wherever `m` does not run out of fuel. -/
def FLe {σ α : Type} (m m' : M σ α) : Prop := ∀ s, (m s).1 = .fuel ∨ m s = m' s

namespace FLe
variable {σ α γ : Type}

theorem refl (m : M σ α) : FLe m m := fun _ => Or.inr rfl

theorem fuel (m : M σ α) : FLe (M.out .fuel) m := fun _ => Or.inl rfl

theorem trans {m m' m'' : M σ α} (h : FLe m m') (h' : FLe m' m'') : FLe m m'' := by
  intro s
  rcases h s with e | e
  · exact Or.inl e
  · rcases h' s with e' | e'
    · exact Or.inl (by rw [e]; exact e')
    · exact Or.inr (e.trans e')

theorem bind {m m' : M σ α} {f f' : α → M σ γ} (h : FLe m m') (hf : ∀ a, FLe (f a) (f' a)) :
    FLe (m >>= f) (m' >>= f') := by
  intro s
  rcases h s with e | e
  · left
    rw [M.bind_apply]
    rcases hm : m s with ⟨o, s'⟩
    rw [hm] at e
    cases e
    rfl
  · rw [M.bind_apply, M.bind_apply, ← e]
    rcases m s with ⟨o, s'⟩
    cases o
    · exact hf _ s'
    all_goals exact Or.inr rfl

theorem ite {c : Prop} [Decidable c] {m m' n n' : M σ α} (h : FLe m m') (h' : FLe n n') :
    FLe (if c then m else n) (if c then m' else n') := by
  split
  · exact h
  · exact h'

end FLe

theorem fle_pickMinLoop {q q' : Id → M Flags Int} (h : ∀ i, FLe (q i) (q' i)) (l : List Id) (r : Int) :
    FLe (pickMinLoop q l r) (pickMinLoop q' l r) := by
  induction l generalizing r with
  | nil => exact .refl _
  | cons i is ih => exact .bind (h i) fun c => ih _

theorem fle_pickMaxLoop {q q' : Id → M Flags Int} (h : ∀ i, FLe (q i) (q' i)) (l : List Id) (r : Int) :
    FLe (pickMaxLoop q l r) (pickMaxLoop q' l r) := by
  induction l generalizing r with
  | nil => exact .refl _
  | cons i is ih => exact .bind (h i) fun c => .ite (.refl _) (ih _)

theorem fle_queryAll {q q' : Id → M Flags Int} (h : ∀ i, FLe (q i) (q' i)) (l : List Id) :
    FLe (queryAll q l) (queryAll q' l) := by
  induction l with
  | nil => exact .refl _
  | cons i is ih => exact .bind (h i) fun c => .bind ih fun _ => .refl _

theorem fle_sizeQ_succ (G : Graph) (n : Nat) (sel : Sel) (i : Id) :
    FLe (sizeQ G n sel i) (sizeQ G (n + 1) sel i) := by
  induction n generalizing sel i with
  | zero => exact .fuel _
  | succ n ih =>
    unfold sizeQ
    cases hG : G i with
    | none => exact .refl _
    | some nd =>
      cases nd with
      | arith t => exact .refl _
      | dict ws => exact .refl _
      | jsonStr => exact .refl _
      | latin1 => exact .refl _
      | ascii => exact .refl _
      | user u => exact .refl _
      | vec c j =>
        cases sel
        · exact .bind (ih _ _) fun _ => .bind (ih _ _) fun _ => .refl _
        · exact .refl _
      | set cs j unb =>
        cases sel
        · exact .bind (fle_queryAll (ih _) cs) fun _ => .bind (fle_queryAll (ih _) cs) fun _ => .refl _
        · cases unb
          · exact .bind (fle_queryAll (ih _) cs) fun _ => .bind (fle_queryAll (ih _) cs) fun _ => .refl _
          · exact .refl _
      | seq cs j unb =>
        cases sel
        · cases unb <;> exact .bind (fle_queryAll (ih _) cs) fun _ => .refl _
        · cases unb
          · exact .bind (fle_queryAll (ih _) cs) fun _ => .refl _
          · exact .refl _
      | unary op c =>
        cases sel
        · exact ih _ _
        · exact .refl _
      | lottery r st osz mn mx => exact .refl _
      | picker pool =>
        cases sel
        · exact .bind (.refl _) fun fl => .ite (.refl _)
            (.bind (.refl _) fun _ => .bind (fle_pickMinLoop (ih _) _ _) fun _ => .refl _)
        · exact .bind (.refl _) fun fl => .ite (.refl _)
            (.bind (.refl _) fun _ => .bind (fle_pickMaxLoop (ih _) _ _) fun _ => .refl _)

theorem fle_sizeQ (G : Graph) {n m : Nat} (h : n ≤ m) (sel : Sel) (i : Id) :
    FLe (sizeQ G n sel i) (sizeQ G m sel i) := by
  induction h with
  | refl => exact .refl _
  | step _ ih => exact ih.trans (fle_sizeQ_succ G _ sel i)

theorem fle_isRecLoop {q q' : Id → M Flags Bool} (h : ∀ i, FLe (q i) (q' i)) (l : List Id) :
    FLe (isRecLoop q l) (isRecLoop q' l) := by
  induction l with
  | nil => exact .refl _
  | cons i is ih => exact .bind (h i) fun c => .ite (.refl _) ih

theorem fle_isRecQ_succ (G : Graph) (n : Nat) (i : Id) :
    FLe (isRecQ G n i) (isRecQ G (n + 1) i) := by
  induction n generalizing i with
  | zero => exact .fuel _
  | succ n ih =>
    unfold isRecQ
    cases hG : G i with
    | none => exact .refl _
    | some nd =>
      cases nd with
      | picker pool =>
        exact .bind (.refl _) fun fl => .ite (.refl _)
            (.bind (.refl _) fun _ => .bind (fle_isRecLoop ih _) fun _ => .refl _)
      | _ => exact .refl _

theorem fle_isRecQ (G : Graph) {n m : Nat} (h : n ≤ m) (i : Id) :
    FLe (isRecQ G n i) (isRecQ G m i) := by
  induction h with
  | refl => exact .refl _
  | step _ ih => exact ih.trans (fle_isRecQ_succ G _ i)

section
variable {β : Type} [BlobLike β]

theorem fle_fixedLoop_succ (n : Nat) (mn : Int) :
    FLe (fixedLoop n mn : M β (List β)) (fixedLoop (n + 1) mn) := by
  induction n with
  | zero => exact .fuel _
  | succ n ih =>
    unfold fixedLoop
    exact .bind (.refl _) fun b => .ite (.bind (.refl _) fun _ => .bind ih fun _ => .refl _) (.refl _)

theorem fle_variatedLoop_succ (n : Nat) (mn mx : Int) :
    FLe (variatedLoop n mn mx : M β (List β)) (variatedLoop (n + 1) mn mx) := by
  induction n with
  | zero => exact .fuel _
  | succ n ih =>
    unfold variatedLoop
    exact .bind (.refl _) fun b => .bind (.refl _) fun _ => .ite (.refl _)
      (.bind (.refl _) fun _ => .bind (.refl _) fun _ => .bind (.refl _) fun _ =>
        .bind (.refl _) fun _ => .bind ih fun _ => .refl _)

theorem fle_vecSplit_succ (n : Nat) (mn mx : Int) :
    FLe (vecSplit n mn mx : M β (List β)) (vecSplit (n + 1) mn mx) := by
  unfold vecSplit
  exact .bind (.refl _) fun b => .ite (.refl _) (.ite (fle_fixedLoop_succ n mn) (.ite (.refl _)
    (.bind (.refl _) fun _ => fle_variatedLoop_succ n mn mx)))

theorem fle_vecSplit {n m : Nat} (h : n ≤ m) (mn mx : Int) :
    FLe (vecSplit n mn mx : M β (List β)) (vecSplit m mn mx) := by
  induction h with
  | refl => exact .refl _
  | step _ ih => exact ih.trans (fle_vecSplit_succ _ mn mx)

theorem fle_liftB {α : Type} {m m' : M β α} (h : FLe m m') : FLe (liftB m) (liftB m') := by
  intro s
  rcases h s.2 with e | e
  · exact Or.inl e
  · exact Or.inr (by simp only [liftB, e])

theorem fle_liftF {α : Type} {m m' : M Flags α} (h : FLe m m') :
    FLe (liftF m : XM β α) (liftF m') := by
  intro s
  rcases h s.1 with e | e
  · exact Or.inl e
  · exact Or.inr (by simp only [liftF, e])

theorem fle_onBlob {α : Type} (c : β) {m m' : XM β α} (h : FLe m m') :
    FLe (onBlob c m) (onBlob c m') := by
  intro s
  rcases h (s.1, c) with e | e
  · exact Or.inl e
  · exact Or.inr (by simp only [onBlob, e])

theorem fle_extractEach {ex ex' : Id → XM β Bytes} (h : ∀ i, FLe (ex i) (ex' i))
    (k : Int) (l : List (Id × β)) : FLe (extractEach ex k l) (extractEach ex' k l) := by
  induction l generalizing k with
  | nil => exact .refl _
  | cons p l ih =>
    obtain ⟨i, c⟩ := p
    exact .bind (fle_onBlob c (h i)) fun _ => .bind (.refl _) fun _ => .bind (ih _) fun _ => .refl _

theorem fle_extractSeq {ex ex' : Id → XM β Bytes} (h : ∀ i, FLe (ex i) (ex' i))
    (l : List Id) : FLe (extractSeq ex l) (extractSeq ex' l) := by
  induction l with
  | nil => exact .refl _
  | cons p l ih => exact .bind (h p) fun _ => .bind ih fun _ => .refl _

theorem fle_pickFilter {a a' c c' : Id → M Flags Int} (h : ∀ i, FLe (a i) (a' i))
    (h' : ∀ i, FLe (c i) (c' i)) (l : List Id) :
    FLe (pickFilter a c l : XM β _) (pickFilter a' c' l) := by
  induction l with
  | nil => exact .refl _
  | cons p l ih =>
    exact .bind (fle_liftF (h p)) fun _ => .bind (.refl _) fun _ => .ite
      (.bind (fle_liftF (h' p)) fun _ => .bind ih fun _ => .refl _) ih

theorem fle_softFilter (r : Bool) {a a' c c' : Id → M Flags Int} (h : ∀ i, FLe (a i) (a' i))
    (h' : ∀ i, FLe (c i) (c' i)) (i : Id) (d : Int) :
    FLe (softFilter r a c i d) (softFilter r a' c' i d) := by
  unfold softFilter
  exact .ite (.refl _) (.bind (h' i) fun _ => .ite (.refl _) (.bind (h i) fun _ => .refl _))

theorem fle_lotFilter (r : Bool) {a a' c c' : Id → M Flags Int} (h : ∀ i, FLe (a i) (a' i))
    (h' : ∀ i, FLe (c i) (c' i)) (l : List Id) :
    FLe (lotFilter r a c l : XM β _) (lotFilter r a' c' l) := by
  induction l with
  | nil => exact .refl _
  | cons p l ih =>
    exact .bind (fle_liftF (h p)) fun _ => .bind (.refl _) fun _ => .ite ih
      (.bind (fle_liftF (fle_softFilter r h h' p _)) fun _ => .bind ih fun _ => .refl _)

theorem fle_extract_succ (G : Graph) (n : Nat) (i : Id) :
    FLe (extract G n i : XM β Bytes) (extract G (n + 1) i) := by
  induction n generalizing i with
  | zero => exact .fuel _
  | succ n ih =>
    have hq := fun sel j => fle_sizeQ_succ G n sel j
    unfold extract
    cases hG : G i with
    | none => exact .refl _
    | some nd =>
      cases nd with
      | arith t => exact .refl _
      | dict ws => exact .refl _
      | jsonStr => exact .refl _
      | latin1 => exact .refl _
      | ascii => exact .refl _
      | user u => exact .refl _
      | vec c j =>
        exact .bind (fle_liftF (hq _ _)) fun _ => .bind (fle_liftF (hq _ _)) fun _ =>
          .bind (fle_liftB (fle_vecSplit_succ n _ _)) fun _ =>
            .bind (fle_extractEach ih _ _) fun _ => .refl _
      | set cs j unb =>
        exact .bind (fle_liftF (fle_queryAll (hq _) _)) fun _ =>
          .bind (fle_liftF (fle_queryAll (hq _) _)) fun _ => .bind (.refl _) fun _ =>
            .bind (fle_extractEach ih _ _) fun _ => .refl _
      | seq cs j unb => exact .bind (fle_extractSeq ih _) fun _ => .refl _
      | unary op c => exact .bind (ih _) fun _ => .refl _
      | lottery r st osz mn mx =>
        exact .bind (.refl _) fun _ => .bind (fle_lotFilter r (hq _) (hq _) _) fun _ =>
          .bind (.ite (fle_lotFilter false (hq _) (hq _) _) (.refl _)) fun _ =>
          .ite (.refl _) (.bind (.refl _) fun _ => .bind (.refl _) fun _ => ih _)
      | picker pool =>
        exact .bind (.refl _) fun _ => .bind (fle_pickFilter (hq _) (hq _) _) fun _ =>
          .ite (.bind (fle_liftF (fle_sizeQ_succ G _ _ _)) fun _ => .refl _)
            (.bind (.refl _) fun _ => .bind (.refl _) fun _ => ih _)

theorem fle_extract (G : Graph) {n m : Nat} (h : n ≤ m) (i : Id) :
    FLe (extract G n i : XM β Bytes) (extract G m i) := by
  induction h with
  | refl => exact .refl _
  | step _ ih => exact ih.trans (fle_extract_succ G _ i)

theorem Extracts.intro {G : Graph} {fl fl' : Flags} {i : Id} {b b' : β} {o : Out Bytes} {n : Nat}
    (h : extract G n i (fl, b) = (o, (fl', b'))) (ho : o ≠ .fuel) : Extracts G fl i b o fl' b' := by
  refine ⟨n, fun m hm => ?_⟩
  rcases fle_extract (β := β) G hm i (fl, b) with e | e
  · rw [h] at e; exact absurd e ho
  · rw [← e, h]

theorem SizeRuns.intro {G : Graph} {fl fl' : Flags} {i : Id} {sel : Sel} {v : Int} {n : Nat}
    (h : sizeQ G n sel i fl = (.ok v, fl')) : SizeRuns G fl sel i v fl' := by
  refine ⟨n, fun m hm => ?_⟩
  rcases fle_sizeQ G hm sel i fl with e | e
  · rw [h] at e; cases e
  · rw [← e, h]

/-- Results are unique. -/
theorem Extracts.unique {G : Graph} {fl fl' fl'' : Flags} {i : Id} {b b' b'' : β} {o o' : Out Bytes}
    (h : Extracts G fl i b o fl' b') (h' : Extracts G fl i b o' fl'' b'') :
    o = o' ∧ fl' = fl'' ∧ b' = b'' := by
  obtain ⟨N, h⟩ := h
  obtain ⟨N', h'⟩ := h'
  have h1 := h (max N N') (by omega)
  have h2 := h' (max N N') (by omega)
  rw [h1] at h2
  injection h2 with e1 e2
  injection e2 with e2 e3
  exact ⟨e1, e2, e3⟩

theorem SizeRuns.unique {G : Graph} {fl fl' fl'' : Flags} {i : Id} {sel : Sel} {v v' : Int}
    (h : SizeRuns G fl sel i v fl') (h' : SizeRuns G fl sel i v' fl'') : v = v' ∧ fl' = fl'' := by
  obtain ⟨N, h⟩ := h
  obtain ⟨N', h'⟩ := h'
  have h1 := h (max N N') (by omega)
  have h2 := h' (max N N') (by omega)
  rw [h1] at h2
  injection h2 with e1 e2
  injection e1 with e1
  exact ⟨e1, e2⟩
end

/-- From the remaining bytes to blob objects. -/
theorem Extracts.conc {G : Graph} {fl fl' : Flags} {i : Id} {b : Blob} {a' : ABlob} {o : Out Bytes}
    (hb : b.Valid) (ho : o ≠ .fuel) (h : Extracts G fl i (b.abs : ABlob) o fl' a') :
    ∃ b', Extracts G fl i b o fl' b' ∧ b'.Valid ∧ b'.abs = a' := by
  obtain ⟨N, h⟩ := h
  have hN := h N (le_refl _)
  obtain ⟨h1, h2, h3, h4⟩ := extract_refines G N i fl hb
  rw [hN] at h1 h2 h4
  refine ⟨(extract G N i (fl, b)).2.2, Extracts.intro (n := N) ?_ ho, h3, h4⟩
  rcases he : extract G N i (fl, b) with ⟨o', fl'', b''⟩
  rw [he] at h1 h2
  simp only at h1 h2
  subst h1 h2
  rfl

/-- From blob objects to the remaining bytes. -/
theorem Extracts.abs {G : Graph} {fl fl' : Flags} {i : Id} {b b' : Blob} {o : Out Bytes}
    (hb : b.Valid) (h : Extracts G fl i b o fl' b') :
    b'.Valid ∧ Extracts G fl i (b.abs : ABlob) o fl' b'.abs := by
  obtain ⟨N, h⟩ := h
  have key : ∀ n ≥ N, b'.Valid ∧ extract G n i (fl, (b.abs : ABlob)) = (o, (fl', b'.abs)) := by
    intro n hn
    have hN := h n hn
    obtain ⟨h1, h2, h3, h4⟩ := extract_refines G n i fl hb
    rw [hN] at h1 h2 h3 h4
    rcases he : extract G n i (fl, (b.abs : ABlob)) with ⟨o', fl'', b''⟩
    rw [he] at h1 h2 h4
    simp only at h1 h2 h3 h4
    subst h1 h2 h4
    exact ⟨h3, rfl⟩
  exact ⟨(key N (le_refl _)).1, N, fun n hn => (key n hn).2⟩

/-- `Returns` from a run on the remaining bytes. -/
theorem Returns.intro {G : Graph} {fl : Flags} {i : Id} {b : Blob} {bs s : Bytes} {left : ABlob}
    (hb : b.Valid) (hh : Holds b bs) (h : Extracts G fl i (bs : ABlob) (.ok s) fl left) :
    Returns G fl i b s left := by
  rw [holds_iff hb] at hh
  subst hh
  obtain ⟨b', h1, h2, h3⟩ := Extracts.conc hb (by simp) h
  exact ⟨b', h1, by rw [holds_iff h2, h3]⟩

theorem Throws.intro {G : Graph} {fl : Flags} {i : Id} {b : Blob} {bs : Bytes} {left : ABlob}
    (hb : b.Valid) (hh : Holds b bs) (h : Extracts G fl i (bs : ABlob) .outOfData fl left) :
    Throws G fl i b left := by
  rw [holds_iff hb] at hh
  subst hh
  obtain ⟨b', h1, h2, h3⟩ := Extracts.conc hb (by simp) h
  exact ⟨b', h1, by rw [holds_iff h2, h3]⟩

end BS
