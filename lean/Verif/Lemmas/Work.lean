import Verif.Spec.Work
import Verif.Lemmas.Sim
import Verif.Lemmas.Keep
import Verif.Lemmas.Safe
import Verif.Lemmas.Infix
import Verif.Lemmas.Invert

/-!
# Counting calls of `ExtractStr`
-/

namespace BS
open BlobLike

/-! ## Forgetting the count -/

section
variable {β : Type} [BlobLike β]

/-- The count forgotten. -/
def Forget (w : Nat × (Flags × β)) (s : Flags × β) : Prop := w.2 = s

omit [BlobLike β] in
theorem forget_liftW {α : Type} (m : XM β α) : Sim Forget Eq (liftW m) m := by
  rintro w _ rfl
  exact ⟨.refl _, rfl⟩

omit [BlobLike β] in
theorem forget_onBlob {α : Type} (c : β) {m : WM β α} {m' : XM β α} (h : Sim Forget Eq m m') :
    Sim Forget Eq (onBlobW c m) (onBlob c m') := by
  rintro w _ rfl
  have := h (w.1, (w.2.1, c)) (w.2.1, c) rfl
  refine ⟨this.1, ?_⟩
  have h2 : (m (w.1, (w.2.1, c))).2.2 = (m' (w.2.1, c)).2 := this.2
  show (_, _) = (_, _)
  rw [h2]

omit [BlobLike β] in
theorem forget_each {ex : Id → WM β Bytes} {ex' : Id → XM β Bytes} (h : ∀ i, Sim Forget Eq (ex i) (ex' i)) (k : Int)
    (l : List (Id × β)) : Sim Forget Eq (extractEachW ex k l) (extractEach ex' k l) := by
  induction l generalizing k with
  | nil => exact .pure rfl
  | cons p l ih =>
    obtain ⟨i, c⟩ := p
    refine .bind (forget_onBlob c (h i)) ?_
    rintro s _ rfl
    refine .bind .lift ?_
    rintro k' _ rfl
    refine .bind (ih k') ?_
    rintro ss _ rfl
    exact .pure rfl

omit [BlobLike β] in
theorem forget_seq {ex : Id → WM β Bytes} {ex' : Id → XM β Bytes} (h : ∀ i, Sim Forget Eq (ex i) (ex' i))
    (l : List Id) : Sim Forget Eq (extractSeqW ex l) (extractSeq ex' l) := by
  induction l with
  | nil => exact .pure rfl
  | cons i l ih =>
    refine .bind (h i) ?_
    rintro s _ rfl
    refine .bind ih ?_
    rintro ss _ rfl
    exact .pure rfl

omit [BlobLike β] in
theorem forget_tick {α : Type} {m : WM β α} {m' : XM β α} (h : Sim Forget Eq m m') :
    Sim Forget Eq (tickW >>= fun _ => m) m' := by
  rintro w _ rfl
  exact h (w.1 + 1, w.2) w.2 rfl

theorem forget_extract (G : Graph) (n : Nat) (i : Id) :
    Sim Forget Eq (extractW G n i : WM β Bytes) (extract G n i) := by
  induction n generalizing i with
  | zero => exact .out .fuel
  | succ n ih =>
    unfold extractW
    refine forget_tick ?_
    cases hG : G i with
    | none => unfold extract; rw [hG]; exact .ub
    | some nd =>
      cases nd with
      | vec c join =>
        unfold extract; rw [hG]
        refine .bind (forget_liftW _) ?_
        rintro mn _ rfl
        refine .bind (forget_liftW _) ?_
        rintro mx _ rfl
        refine .bind (forget_liftW _) ?_
        rintro bs _ rfl
        refine .bind (forget_each ih _ _) ?_
        rintro xs _ rfl
        exact .pure rfl
      | set cs join unb =>
        unfold extract; rw [hG]
        refine .bind (forget_liftW _) ?_
        rintro mn _ rfl
        refine .bind (forget_liftW _) ?_
        rintro mx _ rfl
        refine .bind (forget_liftW _) ?_
        rintro bs _ rfl
        refine .bind (forget_each ih _ _) ?_
        rintro xs _ rfl
        exact .pure rfl
      | seq cs join unb =>
        unfold extract; rw [hG]
        refine .bind (forget_seq ih cs) ?_
        rintro xs _ rfl
        exact .pure rfl
      | unary op c =>
        unfold extract; rw [hG]
        refine .bind (ih c) ?_
        rintro xs _ rfl
        exact .pure rfl
      | lottery rec4 stamps osz smin smax =>
        unfold extract; rw [hG]
        refine .bind (forget_liftW _) ?_
        rintro o _ rfl
        refine .bind (forget_liftW _) ?_
        rintro l1 _ rfl
        refine .bind (forget_liftW _) ?_
        rintro l _ rfl
        refine .ite Iff.rfl (fun _ => .throwOOD) (fun _ => ?_)
        refine .bind .lift ?_
        rintro k _ rfl
        refine .bind .lift ?_
        rintro j _ rfl
        exact ih j
      | picker pool =>
        unfold extract; rw [hG]
        refine .bind (forget_liftW _) ?_
        rintro o _ rfl
        refine .bind (forget_liftW _) ?_
        rintro r _ rfl
        refine .ite Iff.rfl (fun _ => ?_) (fun _ => ?_)
        · refine .bind (forget_liftW _) ?_
          rintro mn _ rfl
          refine .bind (forget_liftW _) ?_
          rintro sz _ rfl
          exact .ite Iff.rfl (fun _ => .throwOOD) (fun _ => .out .abort)
        · refine .bind .lift ?_
          rintro k _ rfl
          refine .bind .lift ?_
          rintro j _ rfl
          exact ih j
      | _ => exact forget_liftW _

end

/-! ## From blobs to their remaining bytes -/

/-- The same count, flags and remaining bytes. -/
def WR (w : Nat × (Flags × Blob)) (w' : Nat × (Flags × ABlob)) : Prop := w.1 = w'.1 ∧ XR w.2 w'.2

theorem simW_liftW {α α' : Type} {Q : α → α' → Prop} {m : XM Blob α} {m' : XM ABlob α'} (h : Sim XR Q m m') :
    Sim WR Q (liftW m) (liftW m') := by
  intro w w' hw
  have := h w.2 w'.2 hw.2
  exact ⟨this.1, hw.1, this.2⟩

theorem simW_onBlob {α α' : Type} {Q : α → α' → Prop} {m : WM Blob α} {m' : WM ABlob α'} {c : Blob} {c' : ABlob}
    (hc : BR c c') (h : Sim WR Q m m') : Sim WR Q (onBlobW c m) (onBlobW c' m') := by
  intro w w' hw
  have := h (w.1, (w.2.1, c)) (w'.1, (w'.2.1, c')) ⟨hw.1, hw.2.1, hc⟩
  exact ⟨this.1, this.2.1, this.2.2.1, hw.2.2⟩

theorem simW_each {ex : Id → WM Blob Bytes} {ex' : Id → WM ABlob Bytes}
    (h : ∀ i, Sim WR Eq (ex i) (ex' i)) {l : List (Id × Blob)} {l' : List (Id × ABlob)}
    (hl : List.Forall₂ (fun p p' => p.1 = p'.1 ∧ BR p.2 p'.2) l l') :
    ∀ k : Int, Sim WR Eq (extractEachW ex k l) (extractEachW ex' k l') := by
  induction hl with
  | nil => exact fun _ => .pure rfl
  | @cons p p' l l' hp _ ih =>
    intro k
    obtain ⟨i, c⟩ := p
    obtain ⟨i', c'⟩ := p'
    obtain ⟨rfl, hc⟩ := hp
    refine .bind (simW_onBlob hc (h _)) ?_
    rintro s _ rfl
    refine .bind .lift ?_
    rintro k' _ rfl
    refine .bind (ih k') ?_
    rintro ss _ rfl
    exact .pure rfl

theorem simW_seq {ex : Id → WM Blob Bytes} {ex' : Id → WM ABlob Bytes}
    (h : ∀ i, Sim WR Eq (ex i) (ex' i)) (l : List Id) :
    Sim WR Eq (extractSeqW ex l) (extractSeqW ex' l) := by
  induction l with
  | nil => exact .pure rfl
  | cons i l ih =>
    refine .bind (h i) ?_
    rintro s _ rfl
    refine .bind ih ?_
    rintro ss _ rfl
    exact .pure rfl

theorem simW_tick : Sim WR Eq (tickW : WM Blob Unit) (tickW : WM ABlob Unit) := by
  intro w w' hw
  exact ⟨.ok rfl, by show w.1 + 1 = w'.1 + 1; rw [hw.1], hw.2⟩

theorem simW_extract (G : Graph) (n : Nat) (i : Id) :
    Sim WR Eq (extractW G n i : WM Blob Bytes) (extractW G n i : WM ABlob Bytes) := by
  induction n generalizing i with
  | zero => exact .out .fuel
  | succ n ih =>
    unfold extractW
    refine .bind simW_tick ?_
    rintro _ _ _
    cases hG : G i with
    | none => exact .ub
    | some nd =>
      cases nd with
      | vec c join =>
        refine .bind (simW_liftW (sim_liftF _)) ?_
        rintro mn _ rfl
        refine .bind (simW_liftW (sim_liftF _)) ?_
        rintro mx _ rfl
        refine .bind (simW_liftW (sim_liftB (sim_vecSplit _ _ _))) ?_
        intro bs bs' hbs
        refine .bind (simW_each ih (forall₂_pair hbs) 0) ?_
        rintro xs _ rfl
        exact .pure rfl
      | set cs join unb =>
        refine .bind (simW_liftW (sim_liftF _)) ?_
        rintro mn _ rfl
        refine .bind (simW_liftW (sim_liftF _)) ?_
        rintro mx _ rfl
        refine .bind (simW_liftW (sim_liftB (sim_setSplit _))) ?_
        intro bs bs' hbs
        refine .bind (simW_each ih (forall₂_zip cs hbs) 0) ?_
        rintro xs _ rfl
        exact .pure rfl
      | seq cs join unb =>
        refine .bind (simW_seq ih cs) ?_
        rintro xs _ rfl
        exact .pure rfl
      | unary op c =>
        refine .bind (ih c) ?_
        rintro xs _ rfl
        exact .pure rfl
      | lottery rec4 stamps osz smin smax =>
        refine .bind (simW_liftW (sim_liftB (sim_uOracle _))) ?_
        rintro o _ rfl
        refine .bind (simW_liftW (sim_lotFilter _ _ _ _)) ?_
        rintro l1 _ rfl
        refine .bind (Q := Eq) (simW_liftW (.ite Iff.rfl (fun _ => sim_lotFilter _ _ _ _) (fun _ => .pure rfl))) ?_
        rintro l _ rfl
        refine .ite Iff.rfl (fun _ => .throwOOD) (fun _ => ?_)
        refine .bind .lift ?_
        rintro k _ rfl
        refine .bind .lift ?_
        rintro j _ rfl
        exact ih j
      | picker pool =>
        refine .bind (simW_liftW (sim_liftB sim_oracle)) ?_
        rintro o _ rfl
        refine .bind (simW_liftW (sim_pickFilter _ _ _)) ?_
        rintro r _ rfl
        refine .ite Iff.rfl (fun _ => ?_) (fun _ => ?_)
        · refine .bind (simW_liftW (sim_liftF _)) ?_
          rintro mn _ rfl
          refine .bind (simW_liftW sim_curSize) ?_
          rintro sz _ rfl
          exact .ite Iff.rfl (fun _ => .throwOOD) (fun _ => .out .abort)
        · refine .bind .lift ?_
          rintro k _ rfl
          refine .bind .lift ?_
          rintro j _ rfl
          exact ih j
      | _ => exact simW_liftW (sim_extract G (n + 1) i)

theorem work_refines (G : Graph) (n : Nat) (i : Id) (fl : Flags) {b : Blob} (hb : b.Valid) :
    (extractW G n i (0, (fl, b))).1 = (extractW G n i (0, (fl, b.abs))).1 ∧
    (extractW G n i (0, (fl, b))).2.1 = (extractW G n i (0, (fl, b.abs))).2.1 := by
  have h := simW_extract G n i (0, (fl, b)) (0, (fl, b.abs)) ⟨rfl, rfl, hb, rfl⟩
  exact ⟨h.1.eq, h.2.1⟩

/-! ## How many parts a list gets -/

theorem parts_unbChop {mn total var : Int} {os : List Nat} {rem : FV} {a a' : ABlob} {l : List ABlob}
    (h : unbChopLoop mn total var os rem a = (.ok l, a')) : l.length = os.length := by
  induction os generalizing rem a a' l with
  | nil => cases h; rfl
  | cons o os ih =>
    unfold unbChopLoop at h
    obtain ⟨el, _, _, h⟩ := M.bind_eq_ok.1 h
    obtain ⟨c, _, _, h⟩ := M.bind_eq_ok.1 h
    obtain ⟨r, _, h1, h⟩ := M.bind_eq_ok.1 h
    cases h
    rw [List.length_cons, List.length_cons, ih h1]

theorem parts_oracles {n : Nat} {tot : Int} {a a' : ABlob} {r : List Nat × Int}
    (h : sizeOracles n tot a = (.ok r, a')) : r.1.length = n := by
  induction n generalizing tot a a' r with
  | zero => cases h; rfl
  | succ n ih =>
    unfold sizeOracles at h
    obtain ⟨o, _, _, h⟩ := M.bind_eq_ok.1 h
    obtain ⟨t, _, _, h⟩ := M.bind_eq_ok.1 h
    obtain ⟨r', _, h1, h⟩ := M.bind_eq_ok.1 h
    cases h
    rw [List.length_cons, ih h1]

/-- Every part of a list of unbounded stamps costs an oracle. -/
theorem parts_unbounded {mn : Int} {a a' : ABlob} {l : List ABlob} (h : vecUnbounded mn a = (.ok l, a')) :
    totalLen l + 2 * l.length + 2 + a'.length ≤ a.length := by
  unfold vecUnbounded at h
  obtain ⟨b, a0, hb, h⟩ := M.bind_eq_ok.1 h
  cases hb
  split at h
  · cases h
  dsimp only at h
  obtain ⟨co, a1, h1, h⟩ := M.bind_eq_ok.1 h
  obtain ⟨r, a2, h2, h⟩ := M.bind_eq_ok.1 h
  obtain ⟨b', a3, hb', h⟩ := M.bind_eq_ok.1 h
  cases hb'
  obtain ⟨fs, a3, hf, h⟩ := M.bind_eq_ok.1 h
  cases (Prod.mk.inj hf).2
  obtain ⟨v, a3, hv, h⟩ := M.bind_eq_ok.1 h
  cases (Prod.mk.inj hv).2
  have e1 := (tri_oracle (List.suffix_refl a)).2.2 co (by rw [h1])
  rw [h1] at e1
  have e2 := (tri_sizeOracles _ _ (List.suffix_refl a1)).2.2 r (by rw [h2])
  rw [h2] at e2
  have e3 := (tri_unbChopLoop _ _ _ _ _ (List.suffix_refl a2)).2.2 l (by rw [h])
  rw [h] at e3
  have e4 := parts_unbChop h
  have e5 := parts_oracles h2
  have e6 : l.length = countTarget (toSz ((BlobLike.size a : Int) - 2) / toSz ((toSz mn : Int) + 2)) co := by
    rw [e4]
    split
    · rw [List.length_replicate]
    · exact e5
  unfold Cut at e3
  dsimp only at e1 e2 e3
  omega

/-- The parts of a list of stamps of one size. -/
theorem parts_fixed {n : Nat} {mn : Int} {a a' : ABlob} {l : List ABlob} (h : fixedLoop n mn a = (.ok l, a')) :
    1 ≤ toSz mn ∧ ∀ c ∈ l, List.length c = toSz mn := by
  induction n generalizing a a' l with
  | zero => cases h
  | succ n ih =>
    unfold fixedLoop at h
    obtain ⟨b, _, hb, h⟩ := M.bind_eq_ok.1 h
    cases hb
    split at h
    · obtain ⟨c, a1, h1, h⟩ := M.bind_eq_ok.1 h
      obtain ⟨r, a2, h2, h⟩ := M.bind_eq_ok.1 h
      cases h
      have e1 := (tri_chop _ (List.suffix_refl a)).2.2 c (by rw [h1])
      refine ⟨(ih h2).1, fun d hd => ?_⟩
      rcases List.mem_cons.1 hd with rfl | hd
      · exact e1.1
      · exact (ih h2).2 d hd
    · next hn =>
      cases h
      exact ⟨by omega, fun d hd => by cases hd⟩

/-- Sizes of the parts of a list, cut from `n` bytes. -/
def VecParts (mn mx : Int) (ns : List Nat) (n : Nat) : Prop :=
  (mn = mx → 1 ≤ toSz mn ∧ (∀ x ∈ ns, x = toSz mn) ∧ ns.sum ≤ n) ∧
  (mn ≠ mx → mx = -1 → ns.sum + 2 * ns.length + 2 ≤ n) ∧
  (mn ≠ mx → ns.sum + 2 * ns.length ≤ n)

theorem vecParts_split {k : Nat} {mn mx : Int} {a a' : ABlob} {l : List ABlob} (h : vecSplit k mn mx a = (.ok l, a')) :
    a'.length ≤ a.length ∧ VecParts mn mx (l.map List.length) (a.length - a'.length) := by
  have h0 := (tri_vecSplit k mn mx (List.suffix_refl a)).2.2 l (by rw [h])
  rw [h] at h0
  dsimp only at h0
  unfold vecSplit at h
  obtain ⟨b, _, hb, h⟩ := M.bind_eq_ok.1 h
  cases hb
  split at h
  · cases h
  split at h
  · next he =>
    obtain ⟨e1, e2⟩ := parts_fixed h
    refine ⟨by omega, fun _ => ⟨e1, ?_, ?_⟩, fun c => absurd he c, fun c => absurd he c⟩
    · intro x hx
      obtain ⟨c, hc, rfl⟩ := List.mem_map.1 hx
      exact e2 c hc
    · show totalLen l ≤ _
      omega
  · next he =>
    split at h
    · next hu =>
      have e1 := parts_unbounded h
      have e2 : (l.map List.length).sum = totalLen l := rfl
      refine ⟨by omega, fun c => absurd c he, fun _ _ => ?_, fun _ => ?_⟩ <;>
        (rw [List.length_map, e2]; omega)
    · next hu =>
      obtain ⟨_, a1, h1, h⟩ := M.bind_eq_ok.1 h
      cases (Prod.mk.inj h1).2
      have e1 := (tri_variatedLoop k mn mx (List.suffix_refl a)).2.2 l (by rw [h])
      rw [h] at e1
      dsimp only at e1
      refine ⟨by omega, fun c => absurd c he, fun _ c => absurd c hu, fun _ => ?_⟩
      have e2 : (l.map List.length).sum = totalLen l := rfl
      rw [List.length_map, e2]; omega

/-! ## The bound -/

/-- At most `F` calls in all, and a result satisfies `Q`. -/
def Wk {α : Type} (m : WM ABlob α) (w : Nat × (Flags × ABlob)) (F : Nat) (Q : α → Nat × (Flags × ABlob) → Prop) : Prop :=
  (m w).2.1 ≤ F ∧ ∀ v, (m w).1 = .ok v → Q v (m w).2

namespace Wk
variable {α γ : Type} {w : Nat × (Flags × ABlob)} {F : Nat}

theorem pure {a : α} {Q : α → Nat × (Flags × ABlob) → Prop} (hF : w.1 ≤ F) (h : Q a w) : Wk (Pure.pure a) w F Q :=
  ⟨hF, fun v hv => by cases hv; exact h⟩

theorem out {o : Out α} {Q : α → Nat × (Flags × ABlob) → Prop} (hF : w.1 ≤ F) (h : ∀ v, o = .ok v → Q v w) :
    Wk (M.out o) w F Q := ⟨hF, h⟩

theorem bind {m : WM ABlob α} {f : α → WM ABlob γ} {Q : α → Nat × (Flags × ABlob) → Prop}
    {P : γ → Nat × (Flags × ABlob) → Prop} (h : Wk m w F Q) (hf : ∀ a w', Q a w' → Wk (f a) w' F P) :
    Wk (m >>= f) w F P := by
  obtain ⟨h1, h2⟩ := h
  unfold Wk
  rw [M.bind_apply]
  rcases hm : m w with ⟨o, w'⟩
  rw [hm] at h1 h2
  cases o with
  | ok a => exact hf a w' (h2 a rfl)
  | _ => exact ⟨h1, fun v hv => by cases hv⟩

theorem lift {o : Out α} {f : α → WM ABlob γ} {P : γ → Nat × (Flags × ABlob) → Prop} (hF : w.1 ≤ F)
    (h : ∀ v, o = .ok v → Wk (f v) w F P) : Wk (M.lift o >>= f) w F P := by
  refine .bind (Q := fun v w' => w' = w ∧ o = .ok v) ⟨hF, fun v hv => ⟨rfl, hv⟩⟩ ?_
  rintro v w' ⟨rfl, hv⟩
  exact h v hv

theorem free {m : XM ABlob α} {f : α → WM ABlob γ} {P : γ → Nat × (Flags × ABlob) → Prop} (hF : w.1 ≤ F)
    (h : ∀ v s', m w.2 = (.ok v, s') → Wk (f v) (w.1, s') F P) : Wk (liftW m >>= f) w F P := by
  refine .bind (Q := fun v w' => ∃ s', w' = (w.1, s') ∧ m w.2 = (.ok v, s'))
    ⟨hF, fun v hv => ⟨_, rfl, Prod.ext hv rfl⟩⟩ ?_
  rintro v w' ⟨s', rfl, hv⟩
  exact h v s' hv

theorem mono {m : WM ABlob α} {F' : Nat} {Q Q' : α → Nat × (Flags × ABlob) → Prop} (h : Wk m w F Q) (hF : F ≤ F')
    (hQ : ∀ v w', Q v w' → Q' v w') : Wk m w F' Q' := ⟨le_trans h.1 hF, fun v hv => hQ _ _ (h.2 v hv)⟩

theorem ite {c : Prop} [Decidable c] {m n : WM ABlob α} {Q : α → Nat × (Flags × ABlob) → Prop} (h1 : c → Wk m w F Q)
    (h2 : ¬ c → Wk n w F Q) : Wk (if c then m else n) w F Q := by
  split
  · exact h1 ‹_›
  · exact h2 ‹_›

end Wk

/-- Stamps that cannot return without having taken a byte. -/
def Node.Eats : Node → Prop
  | .arith _ | .jsonStr | .latin1 | .ascii => True
  | _ => False

/-- Bytes taken one after the other: what a stamp that always takes a byte has left to the next ones. -/
def Fed (eats : Id → Prop) : List Id → List Nat → Prop
  | c :: cs, x :: y :: ns => (eats c → 1 ≤ x) ∧ Fed eats cs (y :: ns)
  | _, _ => True

/-- `g i n` is enough calls for stamp `i` on `n` bytes. -/
structure Enough (G : Graph) (fl : Flags) (g : Id → Nat → Nat) : Prop where
  mono : ∀ i n m, n ≤ m → g i n ≤ g i m
  one : ∀ i n, 1 ≤ g i n
  vec : ∀ i c join mn mx ns n, G i = some (.vec c join) → HasMin G fl c mn → HasMax G fl c mx → VecParts mn mx ns n →
    1 + (ns.map (g c)).sum ≤ g i n
  set : ∀ i cs join unb ns n, G i = some (.set cs join unb) → ns.sum ≤ n → 1 + (List.zipWith g cs ns).sum ≤ g i n
  seq : ∀ i cs join unb ns n, G i = some (.seq cs join unb) → ns.sum ≤ n →
    Fed (fun j => ∃ nd, G j = some nd ∧ nd.Eats) cs ns → 1 + (List.zipWith g cs ns).sum ≤ g i n
  unary : ∀ i op c n, G i = some (.unary op c) → 1 + g c n ≤ g i n
  lottery : ∀ i r l w a b j n, G i = some (.lottery r l w a b) → 1 ≤ w → 1 + g j n ≤ g i (n + w)
  picker : ∀ i l j n, G i = some (.picker l) → 1 + g j n ≤ g i (n + 2)

/-- What the bound says of one stamp. -/
def Bounded (g : Id → Nat → Nat) (fl : Flags) (i : Id) (m : WM ABlob Bytes) : Prop :=
  ∀ (k : Nat) (a : ABlob), Wk m (k, (fl, a)) (k + g i a.length)
    (fun _ w' => w'.2.1 = fl ∧ w'.2.2.length ≤ a.length ∧ w'.1 ≤ k + g i (a.length - w'.2.2.length))

theorem wk_each {g : Id → Nat → Nat} {fl : Flags} {ex : Id → WM ABlob Bytes} (h : ∀ i, Bounded g fl i (ex i)) :
    ∀ (l : List (Id × ABlob)) (z : Int) (k : Nat) (a : ABlob),
    (∀ i n m, n ≤ m → g i n ≤ g i m) →
    Wk (extractEachW ex z l) (k, (fl, a)) (k + (l.map fun p => g p.1 (List.length p.2)).sum)
      (fun _ w' => w'.2 = (fl, a) ∧ w'.1 ≤ k + (l.map fun p => g p.1 (List.length p.2)).sum)
  | [], _, k, a, _ => .pure (Nat.le_add_right _ _) ⟨rfl, Nat.le_add_right _ _⟩
  | (i, c) :: r, z, k, a, hm => by
    unfold extractEachW
    rw [List.map_cons, List.sum_cons]
    dsimp only
    refine .bind (Q := fun _ w' => w'.2 = (fl, a) ∧ w'.1 ≤ k + g i (List.length c)) ?_ ?_
    · have := h i k c
      refine ⟨?_, fun v hv => ?_⟩
      · have h1 := this.1
        show (ex i (k, (fl, c))).2.1 ≤ _
        omega
      · obtain ⟨h1, h2, h3⟩ := this.2 v hv
        refine ⟨Prod.ext h1 rfl, le_trans h3 ?_⟩
        exact Nat.add_le_add_left (hm _ _ _ (Nat.sub_le _ _)) _
    · rintro s ⟨k1, s1⟩ ⟨rfl, h1⟩
      dsimp only at h1
      refine .lift (by show k1 ≤ _; omega) fun z' _ => ?_
      refine .bind (((wk_each h r z' k1 a hm)).mono (by omega) fun _ _ h => h) ?_
      rintro ss ⟨k2, s2⟩ ⟨rfl, h2⟩
      dsimp only at h2
      exact .pure (by show k2 ≤ _; omega) ⟨rfl, by show k2 ≤ _; omega⟩

theorem wk_seq {g : Id → Nat → Nat} {fl : Flags} {ex : Id → WM ABlob Bytes} (h : ∀ i, Bounded g fl i (ex i))
    {eats : Id → Prop} (he : ∀ i, eats i → ∀ k a v, (ex i (k, (fl, a))).1 = .ok v →
      (ex i (k, (fl, a))).2.2.2.length < a.length) :
    ∀ (l : List Id) (k : Nat) (a : ABlob),
    (∃ ns : List Nat, ns.sum ≤ a.length ∧ Fed eats l ns ∧ (extractSeqW ex l (k, (fl, a))).2.1 ≤ k + (List.zipWith g l ns).sum) ∧
    ∀ v, (extractSeqW ex l (k, (fl, a))).1 = .ok v → (extractSeqW ex l (k, (fl, a))).2.2.1 = fl ∧
      (extractSeqW ex l (k, (fl, a))).2.2.2.length ≤ a.length ∧
      ∃ ns : List Nat, ns.sum ≤ a.length - (extractSeqW ex l (k, (fl, a))).2.2.2.length ∧ Fed eats l ns ∧
        (extractSeqW ex l (k, (fl, a))).2.1 ≤ k + (List.zipWith g l ns).sum
  | [], k, a => ⟨⟨[], Nat.zero_le _, trivial, Nat.le_add_right _ _⟩,
    fun _ _ => ⟨rfl, le_refl _, [], Nat.zero_le _, trivial, Nat.le_add_right _ _⟩⟩
  | i :: is, k, a => by
    obtain ⟨h1, h2⟩ := h i k a
    unfold extractSeqW
    rw [M.bind_apply]
    rcases hm : ex i (k, (fl, a)) with ⟨o, k1, fl1, a1⟩
    rw [hm] at h1 h2
    dsimp only at h1
    have hf : ∃ ns : List Nat, ns.sum ≤ a.length ∧ Fed eats (i :: is) ns ∧ k1 ≤ k + (List.zipWith g (i :: is) ns).sum :=
      ⟨[a.length], by simp, trivial, by simpa using h1⟩
    cases o with
    | ok s =>
      obtain ⟨e1, e2, e3⟩ := h2 s rfl
      dsimp only at e1 e2 e3
      subst e1
      have hfed : ∀ ns, Fed eats is ns → Fed eats (i :: is) ((a.length - a1.length) :: ns) := by
        intro ns hns
        cases ns with
        | nil => trivial
        | cons y ns =>
          refine ⟨fun hi => ?_, hns⟩
          have := he i hi k a s (by rw [hm])
          rw [hm] at this
          dsimp only at this
          omega
      obtain ⟨⟨ns, hn, hd, hk⟩, h4⟩ := wk_seq h he is k1 a1
      dsimp only
      rw [M.bind_apply]
      rcases hm' : extractSeqW ex is (k1, (fl1, a1)) with ⟨o', k2, fl2, a2⟩
      rw [hm'] at hk h4
      dsimp only at hk
      have hf' : ∃ ns : List Nat, ns.sum ≤ a.length ∧ Fed eats (i :: is) ns ∧
          k2 ≤ k + (List.zipWith g (i :: is) ns).sum := by
        refine ⟨(a.length - a1.length) :: ns, ?_, hfed _ hd, ?_⟩
        · rw [List.sum_cons]; omega
        · rw [List.zipWith_cons_cons, List.sum_cons]; omega
      cases o' with
      | ok ss =>
        obtain ⟨f1, f2, ms, f3, fd, f4⟩ := h4 ss rfl
        dsimp only at f1 f2 f3 f4
        refine ⟨hf', fun v hv => ⟨f1, le_trans f2 e2, (a.length - a1.length) :: ms, ?_, hfed _ fd, ?_⟩⟩
        · rw [List.sum_cons]; show _ ≤ a.length - a2.length; omega
        · rw [List.zipWith_cons_cons, List.sum_cons]; show k2 ≤ _; omega
      | _ => exact ⟨hf', fun v hv => by cases hv⟩
    | _ => exact ⟨hf, fun v hv => by cases hv⟩

theorem sufOk_value {P : ABlob → Prop} (hP : ChopClosed P) (t : ArithTy) : SufOk P (extractValue t : M ABlob _) :=
  .bind (.chop hP _) fun _ => .bind (.lift _) fun _ => .pure _

theorem sufOk_uOracle {P : ABlob → Prop} (hP : ChopClosed P) (w : Nat) : SufOk P (uOracle w : M ABlob Nat) := by
  unfold uOracle
  generalize uOracleTy w = ty
  cases ty with
  | none => exact .lift _
  | some ty => exact .bind (sufOk_value hP ty) fun v => by cases v <;> exact .pure _

theorem sufOk_dict {P : ABlob → Prop} (hP : ChopClosed P) (ws : List Bytes) : SufOk P (extractDict ws : M ABlob Bytes) :=
  .bind (sufOk_uOracle hP _) fun _ => .bind (.lift _) fun _ => .lift _

theorem sufOk_len {α : Type} {m : M ABlob α} (h : ∀ a, SufOk (β := ABlob) (· <:+: a) m) {a a' : ABlob} {v : α}
    (e : m a = (.ok v, a')) : a'.length ≤ a.length := (h a _ _ _ (List.infix_refl a) e).length_le

/-- Stamps that call no other stamp's `ExtractStr`. -/
def Node.Alone : Node → Prop
  | .arith _ | .dict _ | .jsonStr | .latin1 | .ascii | .user _ => True
  | _ => False

theorem alone_shrinks {G : Graph} {n : Nat} {i : Id} {nd : Node} (hG : G i = some nd) (ha : nd.Alone) {fl fl' : Flags}
    {a a' : ABlob} {v : Bytes} (h : extract G (n + 1) i (fl, a) = (.ok v, (fl', a'))) :
    a'.length ≤ a.length := by
  have inf := infix_closed
  unfold extract at h
  rw [hG] at h
  cases nd with
  | arith t =>
    have e : extractArithStr t a = (.ok v, a') := Prod.ext (Prod.mk.inj h).1 (Prod.mk.inj (Prod.mk.inj h).2).2
    exact sufOk_len (fun b => .bind (sufOk_value (inf b) t) fun _ => .lift _) e
  | dict ws =>
    have e : extractDict ws a = (.ok v, a') := Prod.ext (Prod.mk.inj h).1 (Prod.mk.inj (Prod.mk.inj h).2).2
    exact sufOk_len (fun b => sufOk_dict (inf b) ws) e
  | jsonStr =>
    have e : extractJsonStr a = (.ok v, a') := Prod.ext (Prod.mk.inj h).1 (Prod.mk.inj (Prod.mk.inj h).2).2
    exact sufOk_len (fun b => .bind (sufOk_dict (inf b) _) fun _ => .pure _) e
  | latin1 =>
    have e : extractText latin1Char a = (.ok v, a') := Prod.ext (Prod.mk.inj h).1 (Prod.mk.inj (Prod.mk.inj h).2).2
    have := (tri_text latin1Char (List.suffix_refl a)).2.2 v (by rw [e])
    rw [e] at this
    dsimp only at this
    omega
  | ascii =>
    have e : extractText asciiChar a = (.ok v, a') := Prod.ext (Prod.mk.inj h).1 (Prod.mk.inj (Prod.mk.inj h).2).2
    have := (tri_text asciiChar (List.suffix_refl a)).2.2 v (by rw [e])
    rw [e] at this
    dsimp only at this
    omega
  | user u =>
    obtain ⟨w, s1, h1, h⟩ := M.bind_eq_ok.1 h
    cases (Prod.mk.inj h1).2
    obtain ⟨sz, s2, h2, h⟩ := M.bind_eq_ok.1 h
    cases (Prod.mk.inj h2).2
    obtain ⟨c, s3, h3, h⟩ := M.bind_eq_ok.1 h
    cases (Prod.mk.inj h).2
    have e : (chop _ : M ABlob ABlob) a = (.ok c, a') := Prod.ext (Prod.mk.inj h3).1 (Prod.mk.inj (Prod.mk.inj h3).2).2
    exact sufOk_len (fun b => .chop (inf b) _) e
  | _ => exact absurd ha id

theorem eats_extract {G : Graph} {n : Nat} {i : Id} {nd : Node} (hG : G i = some nd) (ha : nd.Eats) {fl fl' : Flags}
    {a a' : ABlob} {v : Bytes} (h : extract G n i (fl, a) = (.ok v, (fl', a'))) : a'.length < a.length := by
  cases n with
  | zero => cases h
  | succ n =>
  unfold extract at h
  rw [hG] at h
  cases nd with
  | arith t =>
    have e : extractArithStr t a = (.ok v, a') := Prod.ext (Prod.mk.inj h).1 (Prod.mk.inj (Prod.mk.inj h).2).2
    have := (tri_arith t (List.suffix_refl a)).2.2 v (by rw [e])
    rw [e] at this
    have := t.size_pos
    dsimp only at *
    omega
  | jsonStr =>
    have e : extractJsonStr a = (.ok v, a') := Prod.ext (Prod.mk.inj h).1 (Prod.mk.inj (Prod.mk.inj h).2).2
    have := (tri_jsonStr (List.suffix_refl a)).2.2 v (by rw [e])
    rw [e] at this
    dsimp only at this
    omega
  | latin1 =>
    have e : extractText latin1Char a = (.ok v, a') := Prod.ext (Prod.mk.inj h).1 (Prod.mk.inj (Prod.mk.inj h).2).2
    have := (tri_text latin1Char (List.suffix_refl a)).2.2 v (by rw [e])
    rw [e] at this
    dsimp only at this
    omega
  | ascii =>
    have e : extractText asciiChar a = (.ok v, a') := Prod.ext (Prod.mk.inj h).1 (Prod.mk.inj (Prod.mk.inj h).2).2
    have := (tri_text asciiChar (List.suffix_refl a)).2.2 v (by rw [e])
    rw [e] at this
    dsimp only at this
    omega
  | _ => exact absurd ha id

theorem eats_extractW {G : Graph} {n : Nat} {i : Id} {nd : Node} (hG : G i = some nd) (ha : nd.Eats) {fl : Flags} {k : Nat}
    {a : ABlob} {v : Bytes} (h : (extractW G n i (k, (fl, a))).1 = .ok v) :
    (extractW G n i (k, (fl, a))).2.2.2.length < a.length := by
  obtain ⟨h1, h2⟩ := forget_extract G n i (k, (fl, a)) (fl, a) rfl
  have h1 := h1.eq
  rw [h] at h1
  have h2 : (extractW G n i (k, (fl, a))).2.2 = (extract G n i (fl, a)).2 := h2
  rw [h2]
  exact eats_extract hG ha (Prod.ext h1.symm rfl)

theorem keepsX_liftF {G : Graph} {n : Nat} {sel : Sel} {c : Id} {fl : Flags} {a : ABlob} {v : Int} {s : Flags × ABlob}
    (h : liftF (sizeQ G n sel c) (fl, a) = (.ok v, s)) : s = (fl, a) ∧ SizeRuns G fl sel c v fl := by
  have e : sizeQ G n sel c fl = (.ok v, s.1) := Prod.ext (Prod.mk.inj h).1 (by rw [← (Prod.mk.inj h).2])
  have hk := (keeps_sizeQ G n sel c fl).2.2 _ _ e
  have h2 : s.2 = a := by rw [← (Prod.mk.inj h).2]
  refine ⟨Prod.ext hk h2, ?_⟩
  rw [hk] at e
  exact SizeRuns.intro e

theorem bounded_extract {G : Graph} {fl : Flags} {g : Id → Nat → Nat} (h : Enough G fl g) (n : Nat) (i : Id) :
    Bounded g fl i (extractW G n i) := by
  induction n generalizing i with
  | zero => exact fun k a => .out (Nat.le_add_right _ _) fun v hv => by cases hv
  | succ n ih =>
    intro k a
    have h1 := h.one i a.length
    unfold extractW
    refine .bind (Q := fun _ w' => w' = (k + 1, (fl, a))) ⟨by show k + 1 ≤ _; omega, fun _ _ => rfl⟩ ?_
    rintro _ _ rfl
    have hF : k + 1 ≤ k + g i a.length := by omega
    cases hG : G i with
    | none => exact .out hF fun v hv => by cases hv
    | some nd =>
      have leaf : nd.Alone → Wk (liftW (extract G (n + 1) i)) (k + 1, (fl, a)) (k + g i a.length)
          (fun _ w' => w'.2.1 = fl ∧ w'.2.2.length ≤ a.length ∧ w'.1 ≤ k + g i (a.length - w'.2.2.length)) := by
        intro hA
        refine ⟨hF, fun v hv => ?_⟩
        rcases e : extract G (n + 1) i (fl, a) with ⟨o, fl', a'⟩
        have hv' : (extract G (n + 1) i (fl, a)).1 = .ok v := hv
        rw [e] at hv'
        cases hv'
        have hs : (liftW (extract G (n + 1) i) (k + 1, (fl, a))).2 = (k + 1, (fl', a')) := by
          show (k + 1, (extract G (n + 1) i (fl, a)).2) = _
          rw [e]
        rw [hs]
        refine ⟨?_, alone_shrinks hG hA e, ?_⟩
        · have := keeps_extract (β := ABlob) G (n + 1) i (fl, a) (.inl ⟨v, by rw [e]⟩)
          rw [e] at this
          exact this
        · have := h.one i (a.length - a'.length)
          show k + 1 ≤ k + g i (a.length - a'.length)
          omega
      cases nd with
      | vec c join =>
        refine .free hF fun mn s1 e1 => ?_
        obtain ⟨rfl, hmn⟩ := keepsX_liftF e1
        refine .free hF fun mx s2 e2 => ?_
        obtain ⟨rfl, hmx⟩ := keepsX_liftF e2
        refine .free hF fun bs s3 e3 => ?_
        obtain ⟨fl3, a3⟩ := s3
        have e3' : vecSplit n mn mx a = (.ok bs, a3) := Prod.ext (Prod.mk.inj e3).1 (Prod.mk.inj (Prod.mk.inj e3).2).2
        have ef : fl3 = fl := ((Prod.mk.inj (Prod.mk.inj e3).2).1).symm
        subst ef
        obtain ⟨hl, hp⟩ := vecParts_split e3'
        have hb := h.vec i c join mn mx _ _ hG hmn hmx hp
        have hm := h.mono i (a.length - a3.length) a.length (Nat.sub_le _ _)
        have es : ((bs.map fun b => (c, b)).map fun p => g p.1 (List.length p.2)).sum = ((bs.map List.length).map (g c)).sum := by
          rw [List.map_map, List.map_map]; rfl
        have := wk_each ih (bs.map fun b => (c, b)) 0 (k + 1) a3 h.mono
        rw [es] at this
        refine .bind (this.mono (by omega) fun _ _ h => h) ?_
        rintro xs ⟨k4, s4⟩ ⟨rfl, hk⟩
        dsimp only at hk
        refine .pure (by show k4 ≤ _; omega) ⟨rfl, hl, ?_⟩
        show k4 ≤ k + g i (a.length - a3.length)
        omega
      | set cs join unb =>
        refine .free hF fun mns s1 e1 => ?_
        have q1 := queryAll_ok (keeps_sizeQ G n .min) (show queryAll (sizeQ G n .min) cs fl = (.ok mns, s1.1) from
          Prod.ext (Prod.mk.inj e1).1 (by rw [← (Prod.mk.inj e1).2]))
        obtain rfl : s1 = (fl, a) := Prod.ext q1.1 (by rw [← (Prod.mk.inj e1).2])
        refine .free hF fun mxs s2 e2 => ?_
        have q2 := queryAll_ok (keeps_sizeQ G n .max) (show queryAll (sizeQ G n .max) cs fl = (.ok mxs, s2.1) from
          Prod.ext (Prod.mk.inj e2).1 (by rw [← (Prod.mk.inj e2).2]))
        obtain rfl : s2 = (fl, a) := Prod.ext q2.1 (by rw [← (Prod.mk.inj e2).2])
        refine .free hF fun bs s3 e3 => ?_
        obtain ⟨fl3, a3⟩ := s3
        have e3' : setSplit (mns.zip mxs) a = (.ok bs, a3) :=
          Prod.ext (Prod.mk.inj e3).1 (Prod.mk.inj (Prod.mk.inj e3).2).2
        have ef : fl3 = fl := ((Prod.mk.inj (Prod.mk.inj e3).2).1).symm
        subst ef
        have hc := (tri_setSplit (mns.zip mxs) (List.suffix_refl a)).2.2 bs (by rw [e3'])
        rw [e3'] at hc
        unfold Cut at hc
        dsimp only at hc
        have hs : (bs.map List.length).sum ≤ a.length - a3.length := by show totalLen bs ≤ _; omega
        have hb := h.set i cs join unb _ _ hG hs
        have hm := h.mono i (a.length - a3.length) a.length (Nat.sub_le _ _)
        have es : ((cs.zip bs).map fun p => g p.1 (List.length p.2)).sum = (List.zipWith g cs (bs.map List.length)).sum := by
          rw [List.zip_eq_zipWith, List.map_zipWith, List.zipWith_map_right]
        have := wk_each ih (cs.zip bs) 0 (k + 1) a3 h.mono
        rw [es] at this
        refine .bind (this.mono (by omega) fun _ _ h => h) ?_
        rintro xs ⟨k4, s4⟩ ⟨rfl, hk⟩
        dsimp only at hk
        refine .pure (by show k4 ≤ _; omega) ⟨rfl, by show a3.length ≤ _; omega, ?_⟩
        show k4 ≤ k + g i (a.length - a3.length)
        omega
      | seq cs join unb =>
        obtain ⟨⟨ns, hn, hd, hk⟩, h2⟩ := wk_seq ih (eats := fun j => ∃ nd, G j = some nd ∧ nd.Eats)
          (fun j ⟨nd, h1, h2⟩ k a v hv => eats_extractW h1 h2 hv) cs (k + 1) a
        have hb := h.seq i cs join unb ns a.length hG hn hd
        refine .bind (Q := fun _ w' => w'.2.1 = fl ∧ w'.2.2.length ≤ a.length ∧ w'.1 ≤ k + g i (a.length - w'.2.2.length))
          ⟨by omega, fun v hv => ?_⟩ ?_
        · obtain ⟨f1, f2, ms, f3, fd, f4⟩ := h2 v hv
          have hb := h.seq i cs join unb ms _ hG f3 fd
          exact ⟨f1, f2, by omega⟩
        · rintro xs ⟨k4, fl4, a4⟩ ⟨f1, f2, f3⟩
          dsimp only at f2 f3
          have hm := h.mono i (a.length - a4.length) a.length (Nat.sub_le _ _)
          exact .pure (by show k4 ≤ _; omega) ⟨f1, f2, f3⟩
      | unary op c =>
        have hb := h.unary i op c a.length hG
        refine .bind ((ih c (k + 1) a).mono (by omega) fun _ _ h => h) ?_
        rintro xs ⟨k4, fl4, a4⟩ ⟨f1, f2, f3⟩
        dsimp only at f2 f3
        have hm := h.mono i (a.length - a4.length) a.length (Nat.sub_le _ _)
        have hb := h.unary i op c (a.length - a4.length) hG
        exact .pure (by show k4 ≤ _; omega) ⟨f1, f2, by show k4 ≤ k + g i (a.length - a4.length); omega⟩
      | lottery rec4 stamps osz smin smax =>
        refine .free hF fun o s1 e1 => ?_
        obtain ⟨fl1, a1⟩ := s1
        have e1' : uOracle osz a = (.ok o, a1) := Prod.ext (Prod.mk.inj e1).1 (Prod.mk.inj (Prod.mk.inj e1).2).2
        have ef : fl1 = fl := ((Prod.mk.inj (Prod.mk.inj e1).2).1).symm
        subst ef
        have hc := (tri_uOracle osz (List.suffix_refl a)).2.2 o (by rw [e1'])
        rw [e1'] at hc
        obtain ⟨_, _, _, hw, hl⟩ := hc
        dsimp only at hl
        refine .free hF fun l1 s2 e2 => ?_
        obtain rfl := (lotFilter_ok (keeps_sizeQ G n .min) (keeps_sizeQ G n .max) e2).1
        refine .free hF fun l s3 e3 => ?_
        obtain rfl : s3 = (fl1, a1) := by
          split at e3
          · exact (lotFilter_ok (keeps_sizeQ G n .min) (keeps_sizeQ G n .max) e3).1
          · exact (Prod.mk.inj e3).2.symm
        refine .ite (fun _ => .out hF fun v hv => by cases hv) fun _ => ?_
        refine .lift hF fun z _ => .lift hF fun j _ => ?_
        have hb := h.lottery i rec4 stamps osz smin smax j a1.length hG hw
        rw [hl] at hb
        refine (ih j (k + 1) a1).mono (by omega) ?_
        rintro v ⟨k4, fl4, a4⟩ ⟨f1, f2, f3⟩
        dsimp only at f2 f3
        have hb := h.lottery i rec4 stamps osz smin smax j (a1.length - a4.length) hG hw
        rw [show a1.length - a4.length + osz = a.length - a4.length by omega] at hb
        exact ⟨f1, by show a4.length ≤ _; omega, by show k4 ≤ k + g i (a.length - a4.length); omega⟩
      | picker pool =>
        refine .free hF fun o s1 e1 => ?_
        obtain ⟨fl1, a1⟩ := s1
        have e1' : oracle a = (.ok o, a1) := Prod.ext (Prod.mk.inj e1).1 (Prod.mk.inj (Prod.mk.inj e1).2).2
        have ef : fl1 = fl := ((Prod.mk.inj (Prod.mk.inj e1).2).1).symm
        subst ef
        have hc := (tri_oracle (List.suffix_refl a)).2.2 o (by rw [e1'])
        rw [e1'] at hc
        obtain ⟨_, hl⟩ := hc
        dsimp only at hl
        refine .free hF fun r s2 e2 => ?_
        obtain rfl := (pickFilter_ok (keeps_sizeQ G n .min) (keeps_sizeQ G n .max) e2).1
        refine .ite (fun _ => ?_) fun _ => ?_
        · refine .free hF fun mn s3 e3 => ?_
          refine .free hF fun sz s4 e4 => ?_
          exact .ite (fun _ => .out hF fun v hv => by cases hv) fun _ => .out hF fun v hv => by cases hv
        · refine .lift hF fun z _ => .lift hF fun j _ => ?_
          have hb := h.picker i pool j a1.length hG
          rw [hl] at hb
          refine (ih j (k + 1) a1).mono (by omega) ?_
          rintro v ⟨k4, fl4, a4⟩ ⟨f1, f2, f3⟩
          dsimp only at f2 f3
          have hb := h.picker i pool j (a1.length - a4.length) hG
          rw [show a1.length - a4.length + 2 = a.length - a4.length by omega] at hb
          exact ⟨f1, by show a4.length ≤ _; omega, by show k4 ≤ k + g i (a.length - a4.length); omega⟩
      | _ => exact leaf trivial

theorem works_of {G : Graph} {fl : Flags} {g : Id → Nat → Nat} (h : Enough G fl g) (i : Id) (bs : Bytes) :
    Works G fl i bs (g i bs.length) := by
  intro b hr hh n
  rw [holds_iff hr.valid] at hh
  subst hh
  rw [(work_refines G n i fl hr.valid).2]
  have := (bounded_extract h n i 0 b.abs).1
  rw [Nat.zero_add] at this
  exact this

end BS
