import Verif.Lemmas.AskCost
import Verif.Spec.Total

/-!
# Extraction call by call: all calls, against the calls of `ExtractStr`
-/

namespace BS
open BlobLike

theorem paid_of {G : Graph} {fl : Flags} {S : Nat} (h : Priced G fl S) {j : Id} (hj : G j ≠ none ∨ ∃ i, Edge G i j) (n : Nat)
    (sel : Sel) : PaidQ fl S (sizeC G n sel j) := by
  intro k hn
  obtain ⟨_, c, hc, _, N, e⟩ := h j hj sel
  rw [Shifts.sizeC G n sel j fl k] at hn ⊢
  dsimp only at hn
  obtain ⟨v, e⟩ := e (max n N) (le_max_right _ _)
  rcases fle_sizeC G (le_max_left n N) sel j (fl, 0) with e' | e'
  · exact absurd e' hn
  · rw [e', e]
    exact ⟨by dsimp only; omega, fun _ _ => rfl⟩

/-- With flags `fl`, where the first run ends, the second ends the same way. The calls of the second are `C` for each call
counted by the first, and `x`. If the run returns, `Q` holds of the value, the blob left and `x`. If not, `x ≤ F`. -/
def Pay {α : Type} (C : Nat) (fl : Flags) (mW mA : WM ABlob α) (a : ABlob) (Q : α → ABlob → Int → Prop) (F : Int) : Prop :=
  ∀ k0 k, (mW (k0, (fl, a))).1 ≠ .fuel → ∃ (k' : Nat) (x : Int),
    mA (k, (fl, a)) = ((mW (k0, (fl, a))).1, (k', (mW (k0, (fl, a))).2.2)) ∧
    (k' : Int) + (C * k0 : Nat) ≤ k + (C * (mW (k0, (fl, a))).2.1 : Nat) + x ∧
    (∀ v, (mW (k0, (fl, a))).1 = .ok v → (mW (k0, (fl, a))).2.2.1 = fl ∧ Q v (mW (k0, (fl, a))).2.2.2 x) ∧
    ((∀ v, (mW (k0, (fl, a))).1 ≠ .ok v) → x ≤ F)

namespace Pay
variable {α γ : Type} {C : Nat} {fl : Flags} {a : ABlob}

theorem bind {mW mA : WM ABlob α} {f fA : α → WM ABlob γ} {Q : α → ABlob → Int → Prop} {Q' : γ → ABlob → Int → Prop} {F : Int}
    (h : Pay C fl mW mA a Q F)
    (hf : ∀ v a' x, Q v a' x → Pay C fl (f v) (fA v) a' (fun w a'' y => Q' w a'' (x + y)) (F - x)) :
    Pay C fl (mW >>= f) (mA >>= fA) a Q' F := by
  intro k0 k hn
  have h := h k0 k
  rw [M.bind_apply] at hn ⊢
  rw [M.bind_apply]
  rcases e : mW (k0, (fl, a)) with ⟨o, k1, fl1, a1⟩
  rw [e] at h hn
  cases o with
  | ok v =>
    obtain ⟨k', x, h1, h2, h3, _⟩ := h (fun h => by cases h)
    obtain ⟨h3, hq⟩ := h3 v rfl
    dsimp only at h1 h2 h3 hq hn ⊢
    subst h3
    obtain ⟨k2, y, g1, g2, g3, g4⟩ := hf v a1 x hq k1 k' hn
    refine ⟨k2, x + y, ?_, by omega, g3, fun hv => by have := g4 hv; omega⟩
    rw [h1]
    exact g1
  | fuel => exact absurd rfl hn
  | _ =>
    obtain ⟨k', x, h1, h2, _, h4⟩ := h (fun h => by cases h)
    dsimp only at h1 h2 ⊢
    refine ⟨k', x, ?_, h2, fun v hv => (by cases hv), fun _ => h4 fun v hv => (by cases hv)⟩
    rw [h1]

theorem mono {mW mA : WM ABlob α} {Q Q' : α → ABlob → Int → Prop} {F F' : Int} (h : Pay C fl mW mA a Q F)
    (hQ : ∀ v a' x, Q v a' x → Q' v a' x) (hF : F ≤ F') : Pay C fl mW mA a Q' F' := by
  intro k0 k hn
  obtain ⟨k', x, h1, h2, h3, h4⟩ := h k0 k hn
  exact ⟨k', x, h1, h2, fun v hv => ⟨(h3 v hv).1, hQ _ _ _ (h3 v hv).2⟩, fun hv => le_trans (h4 hv) hF⟩

theorem pure {v : α} {Q : α → ABlob → Int → Prop} {F : Int} (h : Q v a 0) :
    Pay C fl (Pure.pure v) (Pure.pure v) a Q F := fun k0 k _ =>
  ⟨k, 0, rfl, by show (k : Int) + (C * k0 : Nat) ≤ k + (C * k0 : Nat) + 0; omega, fun w hw => by cases hw; exact ⟨rfl, h⟩, fun hv => absurd rfl (hv v)⟩

/-- Outcomes without a value. -/
theorem out {o : Out α} (ho : ∀ v, o ≠ .ok v) {Q : α → ABlob → Int → Prop} {F : Int} (hF : 0 ≤ F) :
    Pay C fl (M.out o) (M.out o) a Q F := fun k0 k _ =>
  ⟨k, 0, rfl, by show (k : Int) + (C * k0 : Nat) ≤ k + (C * k0 : Nat) + 0; omega, fun w hw => absurd hw (ho w), fun _ => hF⟩

theorem lift {o : Out α} {f fA : α → WM ABlob γ} {Q : γ → ABlob → Int → Prop} {F : Int} (hF : 0 ≤ F)
    (h : ∀ v, Pay C fl (f v) (fA v) a Q F) : Pay C fl (M.lift o >>= f) (M.lift o >>= fA) a Q F := by
  cases o with
  | ok v => exact h v
  | _ => exact .out (fun _ h => by cases h) hF

theorem ite {p : Prop} [Decidable p] {m n m' n' : WM ABlob α} {Q : α → ABlob → Int → Prop} {F : Int}
    (h : p → Pay C fl m m' a Q F) (h' : ¬ p → Pay C fl n n' a Q F) :
    Pay C fl (if p then m else n) (if p then m' else n') a Q F := by
  split
  · exact h ‹_›
  · exact h' ‹_›

theorem tick {f fA : Unit → WM ABlob α} {Q : α → ABlob → Int → Prop} {F : Int}
    (h : Pay C fl (f ()) (fA ()) a (fun w a' y => Q w a' (1 - C + y)) (F - (1 - C))) :
    Pay C fl (tickW >>= f) (tickW >>= fA) a Q F := by
  intro k0 k hn
  obtain ⟨k', x, h1, h2, h3, h4⟩ := h (k0 + 1) (k + 1) hn
  refine ⟨k', 1 - C + x, h1, ?_, h3, fun hv => by have := h4 hv; omega⟩
  have e : C * (k0 + 1) = C * k0 + C := rfl
  rw [e] at h2
  show (k' : Int) + _ ≤ k + (C * (f () (k0 + 1, (fl, a))).2.1 : Nat) + _
  push_cast at h2 ⊢
  omega

/-- A run with questions against one that asks once. -/
theorem echo {D : Prop} (hD : D) {m : XM ABlob α} {mA : WM ABlob α} {X : Nat} (h : Echoes D fl m mA) (hd : Dear fl X mA) :
    Pay C fl (liftW m) mA a (fun v a' x => x ≤ X ∧ m (fl, a) = (.ok v, (fl, a'))) X := by
  intro k0 k hn
  have hn' : (m (fl, a)).1 ≠ .fuel := hn
  obtain ⟨⟨k', h1⟩, h2⟩ := h a k hn' fun _ _ => hD
  have h3 := (hd a k (by rw [h1]; exact hn')).1
  rw [h1] at h3
  refine ⟨k', X, h1, ?_, fun v hv => ⟨h2 v hv, le_refl _, ?_⟩, fun _ => le_refl _⟩
  · show (k' : Int) + (C * k0 : Nat) ≤ k + (C * k0 : Nat) + X
    dsimp only at h3
    omega
  · have hv : (m (fl, a)).1 = .ok v := hv
    exact Prod.ext hv (Prod.ext (h2 v hv) rfl)

/-- Something done with the blob. -/
theorem does (m : M ABlob α) {F : Int} (hF : 0 ≤ F) :
    Pay C fl (liftW (liftB m)) (doB m) a (fun v a' x => x = 0 ∧ m a = (.ok v, a')) F := by
  intro k0 k hn
  refine ⟨k, 0, rfl, ?_, fun v hv => ⟨rfl, rfl, Prod.ext hv rfl⟩, fun _ => hF⟩
  show (k : Int) + (C * k0 : Nat) ≤ k + (C * k0 : Nat) + 0
  omega

theorem query {G : Graph} {n : Nat} {sel : Sel} {j : Id} {f : Int → WM ABlob γ} {mA : WM ABlob γ} {Q : γ → ABlob → Int → Prop}
    {F : Int} (hd : ∀ r, (sizeQ G n sel j fl).1 ≠ .ub r) (h : ∀ v, Tells (sizeC G n sel j) fl v → Pay C fl (f v) mA a Q F) :
    Pay C fl (liftW (liftF (sizeQ G n sel j)) >>= f) mA a Q F := by
  intro k0 k hn
  obtain ⟨k1, k2, k3⟩ := keeps_sizeQ G n sel j fl
  rcases e : sizeQ G n sel j fl with ⟨o, fl1⟩
  have e' : (liftW (liftF (sizeQ G n sel j)) : WM ABlob Int) (k0, (fl, a)) = (o, (k0, (fl1, a))) := by
    show ((sizeQ G n sel j fl).1, (k0, ((sizeQ G n sel j fl).2, a))) = _
    rw [e]
  rw [e] at k1 k2 k3 hd
  cases o with
  | ok v =>
    have : fl1 = fl := k3 v fl1 rfl
    subst this
    rw [M.bind_ok e'] at hn ⊢
    exact h v (fun k => shadows_sizeC G n sel j fl1 v fl1 e k) k0 k hn
  | fuel => rw [M.bind_fuel e'] at hn; exact absurd rfl hn
  | outOfData => exact absurd rfl k1
  | abort => exact absurd rfl k2
  | ub u => exact absurd rfl (hd u)

theorem liftW_bind (m : XM ABlob α) (f : α → XM ABlob γ) :
    (liftW (m >>= f) : WM ABlob γ) = liftW m >>= fun a => liftW (f a) := by
  funext ⟨k, s⟩
  rw [M.bind_apply]
  show ((m >>= f) s |>.1, (k, (m >>= f) s |>.2)) = _
  rw [M.bind_apply]
  unfold liftW
  dsimp only
  rcases m s with ⟨o, s1⟩
  cases o <;> rfl

theorem queries {G : Graph} {n : Nat} {sel : Sel} {cs : List Id} {f : List Int → WM ABlob γ} {mA : WM ABlob γ}
    {Q : γ → ABlob → Int → Prop} {F : Int} (hd : ∀ j ∈ cs, ∀ r, (sizeQ G n sel j fl).1 ≠ .ub r)
    (h : ∀ vs, List.Forall₂ (fun j v => Tells (sizeC G n sel j) fl v) cs vs → Pay C fl (f vs) mA a Q F) :
    Pay C fl (liftW (liftF (queryAll (sizeQ G n sel) cs)) >>= f) mA a Q F := by
  induction cs generalizing f with
  | nil => exact h [] .nil
  | cons j cs ih =>
    unfold queryAll
    rw [Echoes.liftF_bind, liftW_bind, M.bind_assoc]
    refine .query (hd j List.mem_cons_self) fun v hv => ?_
    rw [Echoes.liftF_bind, liftW_bind, M.bind_assoc]
    exact ih (fun j hj => hd j (List.mem_cons_of_mem _ hj)) fun vs hvs => h (v :: vs) (.cons hv hvs)

/-- A question on the right only. -/
theorem ask {c : CM α} {v : α} {X : Nat} {m : WM ABlob γ} {g : α → WM ABlob γ} {Q : γ → ABlob → Int → Prop} {F : Int}
    (h : Told c fl v X) (hg : Pay C fl m (g v) a (fun w a' y => Q w a' (X + y)) (F - X)) :
    Pay C fl m (askW c >>= g) a Q F := by
  intro k0 k hn
  obtain ⟨k1, l1, e⟩ := h k
  have e' : (askW c : WM ABlob α) (k, (fl, a)) = (.ok v, (k1, (fl, a))) := by
    show ((c (fl, k)).1, ((c (fl, k)).2.2, ((c (fl, k)).2.1, a))) = _
    rw [e]
  rw [M.bind_ok e']
  obtain ⟨k', x, h1, h2, h3, h4⟩ := hg k0 k1 hn
  exact ⟨k', X + x, h1, by omega, h3, fun hv => by have := h4 hv; omega⟩

theorem on {ex exA : WM ABlob α} {c : ABlob} {Q : α → ABlob → Int → Prop} {F : Int} (h : Pay C fl ex exA c Q F) :
    Pay C fl (onBlobW c ex) (onBlobW c exA) a (fun v a' x => a' = a ∧ ∃ c', Q v c' x) F := by
  intro k0 k hn
  obtain ⟨k', x, h1, h2, h3, h4⟩ := h k0 k hn
  refine ⟨k', x, ?_, h2, fun v hv => ⟨(h3 v hv).1, rfl, _, (h3 v hv).2⟩, h4⟩
  show ((exA (k, (fl, c))).1, ((exA (k, (fl, c))).2.1, ((exA (k, (fl, c))).2.2.1, a))) = _
  rw [h1]
  rfl

/-- What the calls of one stamp pay: three size queries are left over for the list it stands in. A run that does not
return has two size queries for each byte. -/
def Pays (S C : Nat) (fl : Flags) (mW mA : WM ABlob Bytes) : Prop :=
  ∀ a : ABlob, Pay C fl mW mA a (fun _ a' x => x + (3 * S : Nat) ≤ 0 ∧ List.length a' ≤ List.length a) (2 * S * List.length a : Nat)

theorem each {S : Nat} {ex exA : Id → WM ABlob Bytes} (h : ∀ i, Pays S C fl (ex i) (exA i)) {N : Nat} (l : List (Id × ABlob))
    (hl : ∀ p ∈ l, List.length p.2 ≤ N) (z : Int) :
    Pay C fl (extractEachW ex z l) (extractEachW exA z l) a
      (fun _ a' x => a' = a ∧ x + (l.length * (3 * S) : Nat) ≤ 0) (2 * S * N : Nat) := by
  induction l generalizing z with
  | nil => exact .pure ⟨rfl, by simp⟩
  | cons p l ih =>
    obtain ⟨i, c⟩ := p
    have hc := Nat.mul_le_mul_left (2 * S) (hl (i, c) List.mem_cons_self)
    have ih := fun z => ih (fun p hp => hl p (List.mem_cons_of_mem _ hp)) z
    unfold extractEachW
    refine .bind (.mono (.on (h i c)) (fun _ _ _ h => h) (by exact_mod_cast hc)) ?_
    rintro v a' x ⟨rfl, c', hx, -⟩
    refine .lift (by omega) fun z' => ?_
    refine .bind ((ih z').mono (fun _ _ _ h => h) (by omega)) ?_
    rintro w a'' y ⟨rfl, hy⟩
    refine .pure ⟨rfl, ?_⟩
    rw [List.length_cons, Nat.succ_mul l.length]
    push_cast at hx hy ⊢
    omega

theorem inTurn {S : Nat} {ex exA : Id → WM ABlob Bytes} (h : ∀ i, Pays S C fl (ex i) (exA i)) (l : List Id) (a : ABlob) :
    Pay C fl (extractSeqW ex l) (extractSeqW exA l) a
      (fun _ a' x => List.length a' ≤ List.length a ∧ x ≤ 0) (2 * S * List.length a : Nat) := by
  induction l generalizing a with
  | nil => exact .pure ⟨le_refl _, le_refl _⟩
  | cons i l ih =>
    unfold extractSeqW
    refine .bind (h i a) ?_
    rintro v a' x ⟨hx, ha⟩
    have hm := Nat.mul_le_mul_left (2 * S) ha
    refine .bind ((ih a').mono (fun _ _ _ h => h) (by omega)) ?_
    rintro w a'' y ⟨hy, ha'⟩
    exact .pure ⟨by omega, by omega⟩

/-- The split of a list, and what its questions cost. -/
theorem lists {S n : Nat} {q : Sel → Id → CM Int} {c : Id} {mn mx : Int} (h1 : Tells (q .min c) fl mn)
    (h2 : Tells (q .max c) fl mx) (hp : ∀ sel, PaidQ fl S (q sel c)) :
    Pay C fl (liftW (liftB (vecSplit n mn mx))) (vecSplitA n q c) a
      (fun l a' x => ∃ p, x = (7 * S + p * (3 * S) : Nat) ∧ p ≤ l.length ∧
        2 * p + (l.map List.length).sum + List.length a' ≤ List.length a) (7 * S + 2 * S * List.length a : Nat) := by
  intro k0 k hn
  have hW : (liftW (liftB (vecSplit n mn mx)) : WM ABlob _) (k0, (fl, a)) =
    ((vecSplit n mn mx a).1, (k0, (fl, (vecSplit n mn mx a).2))) := rfl
  rw [hW] at hn ⊢
  obtain ⟨k', e⟩ := mirrors_vecSplit h1 h2 n a k
  rcases hv : vecSplit n mn mx a with ⟨o, a'⟩
  rw [hv] at hn e
  obtain ⟨p, c1, c2, c3⟩ := Slices.split h1 h2 hp n a k (by rw [e]; exact hn)
  rw [e] at c1 c3
  dsimp only at c1 c3
  -- a list of stamps of one size has no cost for its parts
  obtain ⟨p, c1, c2, c3, c4⟩ : ∃ p, k' ≤ k + 7 * S + p * (3 * S) ∧ 2 * p ≤ List.length a ∧
      (∀ l, o = .ok l → p ≤ l.length) ∧ (mn = mx → p = 0) := by
    by_cases hf : mn = mx
    · rw [if_pos hf] at c1
      exact ⟨0, by omega, by omega, fun _ _ => Nat.zero_le _, fun _ => rfl⟩
    · rw [if_neg hf] at c1
      exact ⟨p, c1, c2, c3, fun h => absurd h hf⟩
  refine ⟨k', (7 * S + p * (3 * S) : Nat), e, ?_, fun l hl => ⟨rfl, p, rfl, c3 l hl, ?_⟩, fun _ => ?_⟩
  · show (k' : Int) + (C * k0 : Nat) ≤ k + (C * k0 : Nat) + _
    omega
  · dsimp only at hl
    subst hl
    obtain ⟨e1, e2⟩ := vecParts_split hv
    have hp := c3 l rfl
    dsimp only
    by_cases hf : mn = mx
    · have := (e2.1 hf).2.2
      have := c4 hf
      omega
    · have := e2.2.2 hf
      rw [List.length_map] at this
      omega
  · have hm := Nat.mul_le_mul_left (2 * S) c2
    have e1 : 2 * S * (2 * p) = p * (3 * S) + p * S := by ring
    omega

end Pay

/-- Calls of one stamp: its own, and those for its questions. -/
def stampCost (S w : Nat) : Nat := 1 + w * (25 * S) + 10 * S

/-- All calls, against the calls of `ExtractStr`. -/
theorem pays_extract {G : Graph} {fl : Flags} {S w : Nat} (hp : Priced G fl S) (hD : SizesDefined G fl)
    (hw : WithinWidth w G) (n : Nat) (i : Id) : Pay.Pays S (stampCost S w) fl (extractW G n i) (extractA G n i) := by
  induction n generalizing i with
  | zero => exact fun a k0 k hn => absurd rfl hn
  | succ n ih =>
    intro a
    unfold extractW extractA
    refine .tick ?_
    have hw := hw i
    have hC : ((stampCost S w : Nat) : Int) = 1 + (w * (25 * S) : Nat) + (10 * S : Nat) := by unfold stampCost; push_cast; ring
    have leaf : ∀ nd, G i = some nd → nd.Alone → Pay (stampCost S w) fl (liftW (extract G (n + 1) i)) (liftW (extract G (n + 1) i)) a
        (fun _ a' x => 1 - (stampCost S w : Nat) + x + (3 * S : Nat) ≤ 0 ∧ List.length a' ≤ List.length a)
        ((2 * S * List.length a : Nat) - (1 - (stampCost S w : Nat))) := by
      intro nd hG hA k0 k hn
      refine ⟨k, 0, rfl, ?_, fun v hv => ⟨?_, by omega, ?_⟩, fun _ => by omega⟩
      · show (k : Int) + (stampCost S w * k0 : Nat) ≤ k + (stampCost S w * k0 : Nat) + 0
        omega
      · exact keeps_extract (β := ABlob) G (n + 1) i (fl, a) (.inl ⟨v, hv⟩)
      · exact alone_shrinks hG hA (Prod.ext hv rfl)
    cases hG : G i with
    | none => exact .out (fun _ h => by cases h) (by omega)
    | some nd =>
      have hw := hw nd hG
      have rel : ∀ j, j ∈ nd.plainKids ∨ j ∈ nd.choices → G j ≠ none ∨ ∃ i, Edge G i j := fun j hj => .inr ⟨i, nd, hG, hj⟩
      cases nd with
      | vec c join =>
        have hc := rel c (.inl (by simp [Node.plainKids]))
        refine .query (hD c hc _ _) fun mn h1 => .query (hD c hc _ _) fun mx h2 => ?_
        refine .bind ((Pay.lists h1 h2 (paid_of hp hc n)).mono (fun _ _ _ h => h) (by omega)) ?_
        rintro bs a' x ⟨p, rfl, hl, hs⟩
        have hm := Nat.mul_le_mul_left (2 * S) hs
        rw [Nat.mul_add, Nat.mul_add] at hm
        have e1 : 2 * S * (2 * p) = p * (3 * S) + p * S := by ring
        refine .bind ((Pay.each ih (N := (bs.map List.length).sum) (bs.map fun b => (c, b)) ?_ 0).mono (fun _ _ _ h => h) ?_) ?_
        · intro q hq
          obtain ⟨b, hb, rfl⟩ := List.mem_map.1 hq
          exact List.single_le_sum (fun _ _ => Nat.zero_le _) _ (List.mem_map.2 ⟨b, hb, rfl⟩)
        · omega
        · rintro xs a'' y ⟨rfl, hy⟩
          rw [List.length_map] at hy
          have := Nat.mul_le_mul_right (3 * S) hl
          exact .pure ⟨by omega, by omega⟩
      | set cs join unb =>
        have hc := fun j (hj : j ∈ cs) => rel j (.inl (by simpa [Node.plainKids] using hj))
        refine .queries (fun j hj => hD j (hc j hj) _ _) fun mns h1 => .queries (fun j hj => hD j (hc j hj) _ _) fun mxs h2 => ?_
        have hx := Nat.mul_le_mul_right (25 * S) hw
        refine .bind ((Pay.echo hD (.ofMirrors (mirrors_setSplit (tellsBoth h1 h2)))
          (Dear.sets fun j hj => paid_of hp (hc j hj) n)).mono (fun _ _ _ h => h) (by omega)) ?_
        rintro bs a' x ⟨hx', e⟩
        have e3' : setSplit (mns.zip mxs) a = (.ok bs, a') := Prod.ext (Prod.mk.inj e).1 (Prod.mk.inj (Prod.mk.inj e).2).2
        have hcut := (tri_setSplit (mns.zip mxs) (List.suffix_refl a)).2.2 bs (by rw [e3'])
        rw [e3'] at hcut
        unfold Cut at hcut
        dsimp only at hcut
        have hs : (bs.map List.length).sum + List.length a' ≤ List.length a := by show totalLen bs + _ ≤ _; omega
        have hm := Nat.mul_le_mul_left (2 * S) hs
        rw [Nat.mul_add] at hm
        refine .bind ((Pay.each ih (N := (bs.map List.length).sum) (cs.zip bs) ?_ 0).mono (fun _ _ _ h => h) (by omega)) ?_
        · intro q hq
          exact List.single_le_sum (fun _ _ => Nat.zero_le _) _ (List.mem_map.2 ⟨q.2, (List.of_mem_zip hq).2, rfl⟩)
        · rintro xs a'' y ⟨rfl, hy⟩
          exact .pure ⟨by omega, by omega⟩
      | seq cs join unb =>
        refine .bind ((Pay.inTurn ih cs a).mono (fun _ _ _ h => h) (by omega)) ?_
        rintro xs a' y ⟨ha, hy⟩
        exact .pure ⟨by omega, ha⟩
      | unary op c =>
        refine .bind ((ih c a).mono (fun _ _ _ h => h) (by omega)) ?_
        rintro xs a' y ⟨hy, ha⟩
        exact .pure ⟨by omega, ha⟩
      | lottery rec4 stamps osz smin smax =>
        have hc := fun j (hj : j ∈ stamps) => rel j (.inr (by simpa [Node.choices] using hj))
        have hx := Nat.mul_le_mul_right (25 * S) hw
        have e5 : stamps.length * (25 * S) = 5 * (stamps.length * (5 * S)) := by ring
        have hl : ∀ r4, Dear fl (stamps.length * (5 * S)) (lotFilterA r4 (sizeC G n) stamps) := fun r4 =>
          Dear.lots (fun j hj => paid_of hp (hc j hj) n) r4
        have hd : ∀ r4, Echoes (SizesDefined G fl) fl (lotFilter r4 (sizeQ G n .min) (sizeQ G n .max) stamps : XM ABlob _)
            (lotFilterA r4 (sizeC G n) stamps) := fun r4 => .lots fun hD sel j hj => hD j (hc j hj) sel n
        refine .bind (.does _ (by omega)) ?_
        rintro o a1 x ⟨rfl, e1⟩
        have hu := (tri_uOracle osz (List.suffix_refl a)).2.2 o (by rw [e1])
        rw [e1] at hu
        obtain ⟨_, _, _, _, hu⟩ := hu
        dsimp only at hu
        refine .bind ((Pay.echo hD (hd _) (hl _)).mono (fun _ _ _ h => h) (by omega)) ?_
        rintro l1 a2 x ⟨hx1, e2⟩
        obtain rfl : a2 = a1 := (Prod.mk.inj (lotFilter_ok (keeps_sizeQ G n .min) (keeps_sizeQ G n .max) e2).1).2
        refine .bind ((Pay.echo hD (mA := lotAgainA (sizeC G n) stamps l1) (.ite (fun _ => hd _) fun _ => .pure _)
          (.both (hl _) ((Dear.pure _).mono (Nat.zero_le _)))).mono (fun _ _ _ h => h) (by omega)) ?_
        rintro l a3 y ⟨hy1, e3⟩
        obtain rfl : a3 = a2 := by
          split at e3
          · exact (Prod.mk.inj (lotFilter_ok (keeps_sizeQ G n .min) (keeps_sizeQ G n .max) e3).1).2
          · exact (Prod.mk.inj (Prod.mk.inj e3).2).2.symm
        have hm := Nat.mul_le_mul_left (2 * S) (show List.length a3 ≤ List.length a by omega)
        refine .ite (fun _ => .out (fun _ h => by cases h) (by omega)) fun _ => .lift (by omega) fun _ => .lift (by omega) fun j => ?_
        refine (ih j a3).mono ?_ (by omega)
        rintro v a4 z ⟨hz, ha⟩
        exact ⟨by omega, by omega⟩
      | picker pool =>
        have hc := fun j (hj : j ∈ pool) => rel j (.inr (by simpa [Node.choices] using hj))
        have hx := Nat.mul_le_mul_right (25 * S) hw
        have e5 : pool.length * (25 * S) = 8 * (pool.length * (3 * S)) + pool.length * S := by ring
        refine .bind (.does _ (by omega)) ?_
        rintro o a1 x ⟨rfl, e1⟩
        have hu := (tri_oracle (List.suffix_refl a)).2.2 o (by rw [e1])
        rw [e1] at hu
        obtain ⟨_, hu⟩ := hu
        dsimp only at hu
        refine .bind ((Pay.echo hD (.picks fun hD sel j hj => hD j (hc j hj) sel n)
          (Dear.picks fun j hj => paid_of hp (hc j hj) n)).mono (fun _ _ _ h => h) (by omega)) ?_
        rintro r a2 x ⟨hx1, e2⟩
        obtain rfl : a2 = a1 := (Prod.mk.inj (pickFilter_ok (keeps_sizeQ G n .min) (keeps_sizeQ G n .max) e2).1).2
        have hm := Nat.mul_le_mul_left (2 * S) (show List.length a2 ≤ List.length a by omega)
        have hi : G i ≠ none ∨ ∃ j, Edge G j i := .inl (by rw [hG]; simp)
        refine .ite (fun _ => ?_) fun _ => .lift (by omega) fun _ => .lift (by omega) fun j => ?_
        · refine .query (hD i hi _ _) fun mn h1 => .ask (Told.of h1 (paid_of hp hi (n + 1) .min)) ?_
          have e6 : ∀ F : Int, 0 ≤ F → ∀ Q, Pay (stampCost S w) fl
              (liftW curSize >>= fun sz => if sz < toSz mn then M.throwOOD else M.out .abort : WM ABlob Bytes)
              (doB M.get >>= fun b => if size b < toSz mn then M.throwOOD else M.out .abort) a2 Q F := by
            intro F hF Q k0 k hn
            exact Pay.ite (p := size a2 < toSz mn) (C := stampCost S w) (fun _ => .out (o := .outOfData) (fun _ h => by cases h) hF)
              (fun _ => .out (o := .abort) (fun _ h => by cases h) hF) k0 k hn
          exact e6 _ (by omega) _
        · refine (ih j a2).mono ?_ (by omega)
          rintro v a4 z ⟨hz, ha⟩
          exact ⟨by omega, by omega⟩
      | _ => exact leaf _ hG trivial

end BS
