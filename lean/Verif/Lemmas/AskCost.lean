import Verif.Lemmas.AskRuns

/-!
# Extraction call by call: what the questions cost
-/

namespace BS
open BlobLike

/-! ## One question -/

/-- With flags `fl`, a question that ends makes at most `X` calls, and leaves the flags. -/
def PaidQ {α : Type} (fl : Flags) (X : Nat) (c : CM α) : Prop :=
  ∀ k, (c (fl, k)).1 ≠ .fuel → (c (fl, k)).2.2 ≤ k + X ∧ ∀ v, (c (fl, k)).1 = .ok v → (c (fl, k)).2.1 = fl

namespace PaidQ
variable {α γ : Type} {fl : Flags} {X Y S : Nat}

theorem pure (a : α) : PaidQ fl 0 (pure a : CM α) := fun _ _ => ⟨le_refl _, fun _ _ => rfl⟩

theorem bind {c : CM α} {f : α → CM γ} (h : PaidQ fl X c) (hf : ∀ a, PaidQ fl Y (f a)) : PaidQ fl (X + Y) (c >>= f) := by
  intro k hn
  have h := h k
  rw [M.bind_apply] at hn ⊢
  rcases e : c (fl, k) with ⟨o, fl1, k1⟩
  rw [e] at h hn
  cases o with
  | ok a =>
    obtain ⟨h1, h2⟩ := h (fun h => by cases h)
    have : fl1 = fl := h2 a rfl
    subst this
    obtain ⟨h3, h4⟩ := hf a k1 hn
    dsimp only at h1
    exact ⟨by dsimp only; omega, h4⟩
  | fuel => exact absurd rfl hn
  | _ =>
    obtain ⟨h1, h2⟩ := h (fun h => by cases h)
    dsimp only at h1
    exact ⟨by dsimp only; omega, fun _ h => by cases h⟩

theorem mono {c : CM α} (h : PaidQ fl X c) (hXY : X ≤ Y) : PaidQ fl Y c := fun k hn =>
  ⟨le_trans (h k hn).1 (by omega), (h k hn).2⟩

theorem ite {p : Prop} [Decidable p] {c d : CM α} (h : PaidQ fl X c) (h' : PaidQ fl X d) : PaidQ fl X (if p then c else d) := by
  split
  · exact h
  · exact h'

variable {q : Sel → Id → CM Int} {i : Id}

theorem askFixed (h : ∀ sel, PaidQ fl S (q sel i)) : PaidQ fl (2 * S) (askFixed q i) :=
  ((h _).bind fun _ => (h _).bind fun _ => .pure _).mono (by omega)

theorem askUnb (h : ∀ sel, PaidQ fl S (q sel i)) : PaidQ fl S (askUnb q i) := ((h _).bind fun _ => .pure _).mono (by omega)

theorem askVar (h : ∀ sel, PaidQ fl S (q sel i)) : PaidQ fl (3 * S) (askVar q i) :=
  ((askFixed h).bind fun _ => .ite (X := S + 0) ((PaidQ.pure _).mono (by omega)) ((askUnb h).bind fun _ => .pure _)).mono (by omega)

end PaidQ

/-! ## Questions while extracting -/

/-- With flags `fl`, a run that ends makes at most `X` calls, and leaves the flags. -/
def Dear {α : Type} (fl : Flags) (X : Nat) (m : WM ABlob α) : Prop :=
  ∀ a k, (m (k, (fl, a))).1 ≠ .fuel →
    (m (k, (fl, a))).2.1 ≤ k + X ∧ ∀ v, (m (k, (fl, a))).1 = .ok v → (m (k, (fl, a))).2.2.1 = fl

namespace Dear
variable {α γ : Type} {fl : Flags} {X Y S : Nat}

theorem out (o : Out α) : Dear fl 0 (M.out o : WM ABlob α) := fun _ _ _ => ⟨le_refl _, fun _ _ => rfl⟩
theorem pure (a : α) : Dear fl 0 (pure a : WM ABlob α) := .out (.ok a)
theorem lift (o : Out α) : Dear fl 0 (M.lift o : WM ABlob α) := .out o
theorem does (m : M ABlob α) : Dear fl 0 (doB m) := fun _ _ _ => ⟨le_refl _, fun _ _ => rfl⟩

theorem ask {c : CM α} (h : PaidQ fl X c) : Dear fl X (askW c) := fun _ k hn => h k hn

theorem bind {m : WM ABlob α} {f : α → WM ABlob γ} (h : Dear fl X m) (hf : ∀ a, Dear fl Y (f a)) :
    Dear fl (X + Y) (m >>= f) := by
  intro a k hn
  have h := h a k
  rw [M.bind_apply] at hn ⊢
  rcases e : m (k, (fl, a)) with ⟨o, k1, fl1, a1⟩
  rw [e] at h hn
  cases o with
  | ok v =>
    obtain ⟨h1, h2⟩ := h (fun h => by cases h)
    have : fl1 = fl := h2 v rfl
    subst this
    obtain ⟨h3, h4⟩ := hf v a1 k1 hn
    dsimp only at h1
    exact ⟨by dsimp only; omega, h4⟩
  | fuel => exact absurd rfl hn
  | _ =>
    obtain ⟨h1, h2⟩ := h (fun h => by cases h)
    dsimp only at h1
    exact ⟨by dsimp only; omega, fun _ h => by cases h⟩

theorem mono {m : WM ABlob α} (h : Dear fl X m) (hXY : X ≤ Y) : Dear fl Y m := fun a k hn =>
  ⟨le_trans (h a k hn).1 (by omega), (h a k hn).2⟩

theorem ite {p : Prop} [Decidable p] {m n : WM ABlob α} (h : Dear fl X m) (h' : Dear fl Y n) :
    Dear fl (X + Y) (if p then m else n) := by
  split
  · exact h.mono (by omega)
  · exact h'.mono (by omega)

/-- Both ways within the same bound. -/
theorem both {p : Prop} [Decidable p] {m n : WM ABlob α} (h : Dear fl X m) (h' : Dear fl X n) :
    Dear fl X (if p then m else n) := by
  split
  · exact h
  · exact h'

variable {q : Sel → Id → CM Int} {i : Id}

/-! ### Sets -/

theorem addVar (h : ∀ sel, PaidQ fl S (q sel i)) (v : Bool) (sum : Int) : Dear fl (2 * S) (setAddVarA q i v sum) :=
  (Dear.ite (X := 2 * S) ((((Dear.ask (h _)).bind fun _ => (Dear.ask (h _)).bind fun _ => (Dear.lift _).bind fun _ => .lift _)).mono
    (by omega)) (.pure _)).mono (by omega)

theorem totals {cs : List Id} (h : ∀ i ∈ cs, ∀ sel, PaidQ fl S (q sel i)) (t : SetTotals) :
    Dear fl (cs.length * (7 * S)) (setTotalsA q cs t) := by
  induction cs generalizing t with
  | nil => exact (Dear.pure _).mono (Nat.zero_le _)
  | cons i cs ih =>
    have ih := fun t => ih (fun j hj => h j (List.mem_cons_of_mem _ hj)) t
    have h := h i List.mem_cons_self
    unfold setTotalsA
    refine ((Dear.ask (h _)).bind fun _ => (Dear.lift _).bind fun _ => (Dear.ask (PaidQ.askVar h)).bind fun _ =>
      (addVar h _ _).bind fun _ => (Dear.ask (PaidQ.askUnb h)).bind fun _ => ih _).mono ?_
    rw [List.length_cons, Nat.succ_mul cs.length]
    omega

theorem modifier (nUnb : Nat) (u : Bool) : Dear fl 0 (setModifierA nUnb u) :=
  .both (.pure _) ((Dear.does _).bind fun _ => .pure _)

theorem modLoop {cs : List Id} (h : ∀ i ∈ cs, ∀ sel, PaidQ fl S (q sel i)) (nUnb : Nat) (pred ut : FV) :
    Dear fl (cs.length * (6 * S)) (setModLoopA q nUnb cs pred ut) := by
  induction cs generalizing pred ut with
  | nil => exact (Dear.pure _).mono (Nat.zero_le _)
  | cons i cs ih =>
    have ih := fun p u => ih (fun j hj => h j (List.mem_cons_of_mem _ hj)) p u
    have h := h i List.mem_cons_self
    unfold setModLoopA
    have e : (i :: cs).length * (6 * S) = 2 * S + (S + (0 + (S + (2 * S + cs.length * (6 * S))))) := by
      rw [List.length_cons, Nat.succ_mul]
      omega
    rw [e]
    refine (Dear.ask (PaidQ.askFixed h)).bind fun _ => .both (((ih _ _).bind fun _ => .pure _).mono (by omega)) ?_
    refine (Dear.ask (PaidQ.askUnb h)).bind fun _ => (modifier _ _).bind fun _ => (Dear.ask (PaidQ.askUnb h)).bind fun _ =>
      .both (((ih _ _).bind fun _ => .pure _).mono (by omega)) ?_
    exact ((Dear.ask (h _)).bind fun _ => (Dear.ask (h _)).bind fun _ => (Dear.lift _).bind fun _ =>
      (ih _ _).bind fun _ => .pure _).mono (by omega)

theorem modFix {cs : List Id} (h : ∀ i ∈ cs, ∀ sel, PaidQ fl S (q sel i)) (ms : List FV) (ut : FV) :
    Dear fl (cs.length * S) (setModFixA q cs ms ut) := by
  induction cs generalizing ms ut with
  | nil => cases ms <;> exact (Dear.pure _).mono (Nat.zero_le _)
  | cons i cs ih =>
    have ih := fun p u => ih (fun j hj => h j (List.mem_cons_of_mem _ hj)) p u
    have h := h i List.mem_cons_self
    cases ms with
    | nil => exact (Dear.pure _).mono (Nat.zero_le _)
    | cons m ms =>
      unfold setModFixA
      refine ((Dear.ask (PaidQ.askUnb h)).bind fun _ => .both ((ih _ _).bind fun _ => .pure _)
        ((ih _ _).bind fun _ => .pure _)).mono ?_
      rw [List.length_cons, Nat.succ_mul]
      omega

theorem mods {cs : List Id} (h : ∀ i ∈ cs, ∀ sel, PaidQ fl S (q sel i)) (r : SetMods) :
    Dear fl (cs.length * S) (setModsA q cs r) := .both (modFix h _ _) ((Dear.pure _).mono (Nat.zero_le _))

theorem elFixed (h : ∀ sel, PaidQ fl S (q sel i)) : Dear fl (3 * S) (setElFixedA q i) :=
  ((Dear.ask (PaidQ.askFixed h)).bind fun _ => .both (.ask (h _)) ((Dear.pure _).mono (Nat.zero_le _))).mono (by omega)

theorem elVar (h : ∀ sel, PaidQ fl S (q sel i)) (m kvar vr : FV) (el : Int) :
    Dear fl (6 * S) (setElVarA q i m kvar vr el) :=
  ((Dear.ask (PaidQ.askVar h)).bind fun _ => .both ((Dear.ask (h _)).bind fun _ => (Dear.ask (h _)).bind fun _ =>
    (Dear.lift _).bind fun _ => (Dear.lift _).bind fun _ => (Dear.ask (h _)).bind fun _ => (Dear.lift _).bind fun _ => .pure _)
    ((Dear.pure _).mono (Nat.zero_le _))).mono (by omega)

theorem elUnb (h : ∀ sel, PaidQ fl S (q sel i)) (m kunb ur : FV) (el : Int) :
    Dear fl (2 * S) (setElUnbA q i m kunb ur el) :=
  ((Dear.ask (PaidQ.askUnb h)).bind fun _ => .both ((Dear.lift _).bind fun _ => (Dear.ask (h _)).bind fun _ =>
    (Dear.lift _).bind fun _ => .pure _) ((Dear.pure _).mono (Nat.zero_le _))).mono (by omega)

theorem chops {cs : List Id} (h : ∀ i ∈ cs, ∀ sel, PaidQ fl S (q sel i)) (kv ku : FV) (ms : List FV) (vr ur : FV) :
    Dear fl (cs.length * (11 * S)) (setChopLoopA q kv ku cs ms vr ur) := by
  induction cs generalizing ms vr ur with
  | nil => cases ms <;> exact (Dear.pure _).mono (Nat.zero_le _)
  | cons i cs ih =>
    have ih := fun a b c => ih (fun j hj => h j (List.mem_cons_of_mem _ hj)) a b c
    have h := h i List.mem_cons_self
    cases ms with
    | nil => exact (Dear.pure _).mono (Nat.zero_le _)
    | cons m ms =>
      unfold setChopLoopA
      refine ((elFixed h).bind fun _ => (elVar h _ _ _ _).bind fun _ => (elUnb h _ _ _ _).bind fun _ => (Dear.does _).bind fun _ =>
        (ih _ _ _).bind fun _ => .pure _).mono ?_
      rw [List.length_cons, Nat.succ_mul cs.length]
      omega

theorem sets {cs : List Id} (h : ∀ i ∈ cs, ∀ sel, PaidQ fl S (q sel i)) : Dear fl (cs.length * (25 * S)) (setSplitA q cs) := by
  unfold setSplitA
  refine ((totals h _).bind fun _ => (Dear.does _).bind fun _ => .ite (.out _) ((Dear.does _).bind fun _ =>
    (modLoop h _ _ _).bind fun _ => (mods h _).bind fun _ => (Dear.lift _).bind fun _ => (Dear.lift _).bind fun _ =>
    chops h _ _ _ _ _)).mono (le_of_eq ?_)
  ring

/-! ### Choices -/

theorem takesAll (h : ∀ sel, PaidQ fl S (q sel i)) (sz : Nat) : Dear fl (2 * S) (takesAllA q i sz) :=
  ((Dear.ask (PaidQ.askUnb h)).bind fun _ => .ite (.pure _) ((Dear.ask (h _)).bind fun _ => .pure _)).mono (by omega)

theorem picks {l : List Id} (h : ∀ i ∈ l, ∀ sel, PaidQ fl S (q sel i)) : Dear fl (l.length * (3 * S)) (pickFilterA q l) := by
  induction l with
  | nil => exact (Dear.pure _).mono (Nat.zero_le _)
  | cons i l ih =>
    have ih := ih (fun j hj => h j (List.mem_cons_of_mem _ hj))
    have h := h i List.mem_cons_self
    unfold pickFilterA
    have e : (i :: l).length * (3 * S) = S + (0 + (2 * S + (l.length * (3 * S) + 0))) := by
      rw [List.length_cons, Nat.succ_mul]
      omega
    rw [e]
    exact (Dear.ask (h _)).bind fun _ => (Dear.does _).bind fun _ => .both ((takesAll h _).bind fun _ => ih.bind fun _ => .pure _)
      (ih.mono (by omega))

theorem soft (h : ∀ sel, PaidQ fl S (q sel i)) (rec4 : Bool) (d : Int) : Dear fl (4 * S) (softFilterA rec4 q i d) := by
  unfold softFilterA
  refine (Dear.ite (.pure _) ((Dear.ask (PaidQ.askUnb h)).bind fun _ => .ite (.pure _) ((Dear.ask (h _)).bind fun _ =>
    .ite (.pure _) ((Dear.ask (h _)).bind fun _ => (Dear.ask (h _)).bind fun _ => (Dear.lift _).bind fun _ => .pure _)))).mono ?_
  omega

theorem lots {l : List Id} (h : ∀ i ∈ l, ∀ sel, PaidQ fl S (q sel i)) (rec4 : Bool) :
    Dear fl (l.length * (5 * S)) (lotFilterA rec4 q l) := by
  induction l with
  | nil => exact (Dear.pure _).mono (Nat.zero_le _)
  | cons i l ih =>
    have ih := ih (fun j hj => h j (List.mem_cons_of_mem _ hj))
    have h := h i List.mem_cons_self
    unfold lotFilterA
    have e : (i :: l).length * (5 * S) = S + (0 + (4 * S + (l.length * (5 * S) + 0))) := by
      rw [List.length_cons, Nat.succ_mul]
      omega
    rw [e]
    exact (Dear.ask (h _)).bind fun _ => (Dear.does _).bind fun _ => .both (ih.mono (by omega))
      ((soft h _ _).bind fun _ => ih.bind fun _ => .pure _)

/-! ### Lists -/

theorem unbChop (h : PaidQ fl S (q .min i)) (total var : Int) (os : List Nat) (rem : FV) :
    Dear fl (os.length * S) (unbChopLoopA q i total var os rem) := by
  induction os generalizing rem with
  | nil => exact (Dear.pure _).mono (Nat.zero_le _)
  | cons o os ih =>
    unfold unbChopLoopA
    refine ((Dear.ask h).bind fun _ => (Dear.lift _).bind fun _ => (Dear.does _).bind fun _ => (ih _).bind fun _ => .pure _).mono ?_
    rw [List.length_cons, Nat.succ_mul]
    omega

end Dear

/-- A question that is answered, at a cost. -/
def Told {α : Type} (c : CM α) (fl : Flags) (v : α) (X : Nat) : Prop := ∀ k, ∃ k', k' ≤ k + X ∧ c (fl, k) = (.ok v, (fl, k'))

theorem Told.of {α : Type} {c : CM α} {fl : Flags} {v : α} {X : Nat} (h : Tells c fl v) (hp : PaidQ fl X c) : Told c fl v X := by
  intro k
  obtain ⟨k', e⟩ := h k
  have := (hp k (by rw [e]; exact fun h => by cases h)).1
  rw [e] at this
  exact ⟨k', this, e⟩

/-- A run that makes at most `X` calls, and `Y` calls for each part of a list, a part for two bytes at least. -/
def Slices (fl : Flags) (X Y : Nat) (m : WM ABlob (List ABlob)) (a : ABlob) : Prop :=
  ∀ k, (m (k, (fl, a))).1 ≠ .fuel → ∃ p, (m (k, (fl, a))).2.1 ≤ k + X + p * Y ∧ 2 * p ≤ List.length a ∧
    ∀ l, (m (k, (fl, a))).1 = .ok l → p ≤ l.length

namespace Slices
variable {α : Type} {fl : Flags} {X Y S : Nat} {a : ABlob}

theorem out (o : Out (List ABlob)) : Slices fl X Y (M.out o) a := fun k _ =>
  ⟨0, by show k ≤ _; omega, by omega, fun _ _ => Nat.zero_le _⟩

theorem ask {c : CM α} {v : α} {Z : Nat} {g : α → WM ABlob (List ABlob)} (h : Told c fl v Z) (hg : Slices fl X Y (g v) a) :
    Slices fl (Z + X) Y (askW c >>= g) a := by
  intro k hn
  obtain ⟨k1, h1, e⟩ := h k
  have e' : (askW c : WM ABlob α) (k, (fl, a)) = (.ok v, (k1, (fl, a))) := by
    show ((c (fl, k)).1, ((c (fl, k)).2.2, ((c (fl, k)).2.1, a))) = _
    rw [e]
  rw [M.bind_ok e'] at hn ⊢
  obtain ⟨p, h2, h3⟩ := hg k1 hn
  exact ⟨p, by omega, h3⟩

theorem lift {o : Out α} {g : α → WM ABlob (List ABlob)} (hg : ∀ v, Slices fl X Y (g v) a) :
    Slices fl X Y (M.lift o >>= g) a := by
  cases o with
  | ok v => exact hg v
  | _ => exact .out _

theorem get {g : ABlob → WM ABlob (List ABlob)} (hg : Slices fl X Y (g a) a) : Slices fl X Y (doB M.get >>= g) a := hg

theorem mono {m : WM ABlob (List ABlob)} {X' Y' : Nat} (h : Slices fl X Y m a) (hX : X ≤ X') (hY : Y ≤ Y') :
    Slices fl X' Y' m a := by
  intro k hn
  obtain ⟨p, h1, h2⟩ := h k hn
  have := Nat.mul_le_mul_left p hY
  exact ⟨p, by omega, h2⟩

theorem ite {p : Prop} [Decidable p] {m n : WM ABlob (List ABlob)} (h : p → Slices fl X Y m a) (h' : ¬ p → Slices fl X Y n a) :
    Slices fl X Y (if p then m else n) a := by
  split
  · exact h ‹_›
  · exact h' ‹_›

variable {q : Sel → Id → CM Int} {c : Id} {mn mx : Int}

/-- galley.cpp 166-180. -/
theorem variated (h1 : Told (q .min c) fl mn S) (h2 : Told (q .max c) fl mx S) (n : Nat) (a : ABlob) :
    Slices fl S (3 * S) (variatedLoopA q c n) a := by
  induction n generalizing a with
  | zero => exact .out _
  | succ n ih =>
    unfold variatedLoopA
    refine .ask (X := 0) h1 (.lift fun need => .get (.ite (fun _ => .out (.ok [])) fun _ => ?_))
    intro k hn
    rw [M.bind_apply] at hn ⊢
    have t := (tri_oracle (List.suffix_refl a)).2.2
    have e0 : (doB oracle : WM ABlob Nat) (k, (fl, a)) = ((oracle a).1, (k, (fl, (oracle a).2))) := rfl
    rw [e0] at hn ⊢
    rcases eo : oracle a with ⟨o, a1⟩
    rw [eo] at hn t
    cases o with
    | ok o =>
      have ha := (t o rfl).2
      dsimp only at hn ha ⊢
      have rest : ∀ (z : Nat) (k : Nat),
          ((doB (chop z) >>= fun p => variatedLoopA q c n >>= fun r => pure (p :: r) : WM ABlob (List ABlob)) (k, (fl, a1))).1
            ≠ .fuel → ∃ p,
          ((doB (chop z) >>= fun p => variatedLoopA q c n >>= fun r => pure (p :: r) : WM ABlob (List ABlob)) (k, (fl, a1))).2.1
            ≤ k + S + p * (3 * S) ∧ 2 * p ≤ List.length a1 ∧ ∀ l,
          ((doB (chop z) >>= fun p => variatedLoopA q c n >>= fun r => pure (p :: r) : WM ABlob (List ABlob)) (k, (fl, a1))).1
            = .ok l → p + 1 ≤ l.length := by
        intro z k hn
        rw [M.bind_apply] at hn ⊢
        have e1 : (doB (chop z) : WM ABlob ABlob) (k, (fl, a1)) = ((chop z a1).1, (k, (fl, (chop z a1).2))) := rfl
        rw [e1] at hn ⊢
        have t := (tri_chop z (List.suffix_refl a1)).2.2
        rcases ec : (chop z a1 : Out ABlob × ABlob) with ⟨o, a2⟩
        rw [ec] at hn t
        cases o with
        | ok d =>
          have hd := t d rfl
          dsimp only at hn hd ⊢
          have ih := ih a2 k
          rw [M.bind_apply] at hn ⊢
          rcases er : variatedLoopA q c n (k, (fl, a2)) with ⟨o, k3, s3⟩
          rw [er] at hn ih
          cases o with
          | ok r =>
            obtain ⟨p, i1, i2, i3⟩ := ih (fun h => by cases h)
            have i3 := i3 r rfl
            refine ⟨p, i1, by omega, fun l hl => ?_⟩
            cases hl
            rw [List.length_cons]
            omega
          | fuel => exact absurd rfl hn
          | _ =>
            obtain ⟨p, i1, i2, i3⟩ := ih (fun h => by cases h)
            exact ⟨p, i1, by omega, fun l hl => by cases hl⟩
        | fuel => exact absurd rfl hn
        | _ => exact ⟨0, by show k ≤ _; omega, by omega, fun l hl => by cases hl⟩
      obtain ⟨k1, l1, e1⟩ := h1 k
      obtain ⟨k2, l2, e2⟩ := h2 k1
      have e1' : (askW (q .min c) : WM ABlob Int) (k, (fl, a1)) = (.ok mn, (k1, (fl, a1))) := by
        show ((q .min c (fl, k)).1, ((q .min c (fl, k)).2.2, ((q .min c (fl, k)).2.1, a1))) = _
        rw [e1]
      have e2' : (askW (q .max c) : WM ABlob Int) (k1, (fl, a1)) = (.ok mx, (k2, (fl, a1))) := by
        show ((q .max c (fl, k1)).1, ((q .max c (fl, k1)).2.2, ((q .max c (fl, k1)).2.1, a1))) = _
        rw [e2]
      rw [M.bind_ok e1', M.bind_ok e2'] at hn ⊢
      rcases es : oracleProportion o (toSz mn) (toSz mx) with s | _ | _ | _ | _
      · rw [es] at hn
        have e3 : ∀ f : Nat → WM ABlob (List ABlob), (M.lift (.ok s) >>= f) (k2, (fl, a1)) = f s (k2, (fl, a1)) := fun _ => rfl
        have e4 : ∀ f : ABlob → WM ABlob (List ABlob), (doB M.get >>= f) (k2, (fl, a1)) = f a1 (k2, (fl, a1)) := fun _ => rfl
        rw [e3, e4] at hn ⊢
        obtain ⟨p, i1, i2, i3⟩ := rest _ k2 hn
        refine ⟨p + 1, ?_, by omega, i3⟩
        refine le_trans i1 ?_
        rw [Nat.succ_mul p]
        omega
      all_goals
        refine ⟨1, ?_, by omega, fun l hl => by cases hl⟩
        show k2 ≤ _
        omega
    | fuel => exact absurd rfl hn
    | _ => exact ⟨0, by show k ≤ _; omega, by omega, fun l hl => by cases hl⟩

/-- galley.cpp 97-158. -/
theorem unbounded (h1 : Told (q .min c) fl mn S) (a : ABlob) : Slices fl (2 * S) S (vecUnboundedA q c) a := by
  have ht : Tells (q .min c) fl mn := fun k => ⟨_, (h1 k).choose_spec.2⟩
  have hp : PaidQ fl S (q .min c) := by
    intro k _
    obtain ⟨k1, l1, e1⟩ := h1 k
    rw [e1]
    exact ⟨l1, fun _ _ => rfl⟩
  unfold vecUnboundedA
  refine .get ((Slices.ask (X := S) h1 (.ite (fun _ => .out _) fun _ => ?_)).mono (by omega) (le_refl _))
  intro k hn
  rw [M.bind_apply] at hn ⊢
  have t := (tri_oracle (List.suffix_refl a)).2.2
  have e0 : (doB oracle : WM ABlob Nat) (k, (fl, a)) = ((oracle a).1, (k, (fl, (oracle a).2))) := rfl
  rw [e0] at hn ⊢
  rcases eo : oracle a with ⟨o, a1⟩
  rw [eo] at hn t
  cases o with
  | ok co =>
    have ha := (t co rfl).2
    dsimp only at hn ha ⊢
    generalize countTarget (toSz ((size a : Int) - 2) / toSz ((toSz mn : Int) + 2)) co = ct at hn ⊢
    rw [M.bind_apply] at hn ⊢
    have t := (tri_sizeOracles ct 0 (List.suffix_refl a1)).2.2
    have e1 : (doB (sizeOracles ct 0) : WM ABlob _) (k, (fl, a1)) =
      ((sizeOracles ct 0 a1).1, (k, (fl, (sizeOracles ct 0 a1).2))) := rfl
    rw [e1] at hn ⊢
    rcases es : (sizeOracles ct 0 a1) with ⟨o, a2⟩
    rw [es] at hn t
    cases o with
    | ok r =>
      obtain ⟨os, tot⟩ := r
      have hl := parts_oracles es
      have hb := t _ rfl
      dsimp only at hn hl hb ⊢
      obtain ⟨k1, l1, e1⟩ := h1 k
      have e1' : (askW (q .min c) : WM ABlob Int) (k, (fl, a2)) = (.ok mn, (k1, (fl, a2))) := by
        show ((q .min c (fl, k)).1, ((q .min c (fl, k)).2.2, ((q .min c (fl, k)).2.1, a2))) = _
        rw [e1]
      have eg : ∀ f : ABlob → WM ABlob (List ABlob), (doB M.get >>= f) (k, (fl, a2)) = f a2 (k, (fl, a2)) := fun _ => rfl
      rw [eg, M.bind_ok e1'] at hn ⊢
      have ho : (if tot = 0 then List.replicate ct 1 else os).length = ct := by
        split
        · exact List.length_replicate
        · exact hl
      generalize (if tot = 0 then List.replicate ct 1 else os) = os' at hn ho ⊢
      cases ef : ckInt (mn * ct) with
      | ok fs =>
        cases ev : ckInt (wrap32 (size a2) - fs) with
        | ok v =>
          rw [ef] at hn
          have e2 : ∀ f : Int → WM ABlob (List ABlob), (M.lift (.ok fs) >>= f) (k1, (fl, a2)) = f fs (k1, (fl, a2)) := fun _ => rfl
          have e3 : ∀ f : Int → WM ABlob (List ABlob), (M.lift (.ok v) >>= f) (k1, (fl, a2)) = f v (k1, (fl, a2)) := fun _ => rfl
          rw [e2, ev, e3] at hn ⊢
          generalize (if tot = 0 then (ct : Int) else tot) = tot' at hn ⊢
          have hd := (Dear.unbChop hp tot' v os' (.fin 0) a2 k1 hn).1
          rw [ho] at hd
          refine ⟨ct, by omega, by omega, fun l hl => ?_⟩
          obtain ⟨k', em⟩ := mirrors_unbChop ht tot' v os' (.fin 0) a2 k1
          rw [em] at hl
          rw [parts_unbChop (Prod.ext hl rfl), ho]
        | _ =>
          rw [ef] at hn
          have e2 : ∀ f : Int → WM ABlob (List ABlob), (M.lift (.ok fs) >>= f) (k1, (fl, a2)) = f fs (k1, (fl, a2)) := fun _ => rfl
          rw [e2, ev] at hn ⊢
          exact ⟨0, by show k1 ≤ _; omega, by omega, fun l hl => by cases hl⟩
      | _ =>
        rw [ef] at hn
        exact ⟨0, by show k1 ≤ _; omega, by omega, fun l hl => by cases hl⟩
    | fuel => exact absurd rfl hn
    | _ => exact ⟨0, by show k ≤ _; omega, by omega, fun l hl => by cases hl⟩
  | fuel => exact absurd rfl hn
  | _ => exact ⟨0, by show k ≤ _; omega, by omega, fun l hl => by cases hl⟩

/-- galley.cpp 78-183. Lists of stamps of one size ask nothing for their parts. -/
theorem split (h1 : Tells (q .min c) fl mn) (h2 : Tells (q .max c) fl mx) (hp : ∀ sel, PaidQ fl S (q sel c)) (n : Nat)
    (a : ABlob) : Slices fl (7 * S) (if mn = mx then 0 else 3 * S) (vecSplitA n q c) a := by
  have t1 := Told.of h1 (hp _)
  have t2 := Told.of h2 (hp _)
  unfold vecSplitA
  have e : 7 * S = S + 6 * S := by omega
  rw [e]
  refine .get (.ask t1 (.ite (fun _ => .out _) fun _ => ?_))
  refine (Slices.ask (X := 4 * S) (Told.of (h1.askFixed h2) (.askFixed hp)) ?_).mono (by omega) (le_refl _)
  by_cases hf : mn = mx
  · have e : SizePair.fixed (mn, mx) = true := by unfold SizePair.fixed; simpa using hf
    rw [if_pos hf, e, if_pos rfl]
    refine (Slices.ask (X := 0) t1 ?_).mono (by omega) (le_refl _)
    intro k hn
    exact ⟨0, by show k ≤ _; omega, by omega, fun _ _ => Nat.zero_le _⟩
  · have e : SizePair.fixed (mn, mx) = false := by unfold SizePair.fixed; simpa using hf
    rw [if_neg hf, e, if_neg Bool.false_ne_true]
    refine (Slices.ask (X := 3 * S) (Told.of (Tells.askUnb (mn := mn) h2) (.askUnb hp)) ?_).mono (by omega) (le_refl _)
    refine .ite (fun _ => (unbounded t1 a).mono (by omega) (by omega)) fun _ => ?_
    exact (Slices.ask t1 (.ask t2 (.lift fun _ => variated t1 t2 n a))).mono (by omega) (le_refl _)

end Slices

end BS
