import Verif.Spec.Copy
import Verif.Lemmas.Fuel
import Verif.Lemmas.Keep

/-!
# Running a stamp and its copy side by side
-/

namespace BS
open BlobLike

/-- `m₂` does what `m₁` does wherever that ends, on the same blob and from the flags `fl'` and `fl`. -/
def Sub {α γ : Type} (fl fl' : Flags) (Q : α → γ → Prop) (m₁ : XM ABlob α) (m₂ : XM ABlob γ) : Prop :=
  ∀ a, (m₁ (fl, a)).1 = .fuel ∨ (SimOut Q (m₁ (fl, a)).1 (m₂ (fl', a)).1 ∧ (m₂ (fl', a)).2.2 = (m₁ (fl, a)).2.2 ∧
    ∀ x, (m₁ (fl, a)).1 = .ok x → (m₁ (fl, a)).2.1 = fl ∧ (m₂ (fl', a)).2.1 = fl')

/-- The same for size queries. -/
def SubF {α : Type} (fl fl' : Flags) (m₁ m₂ : M Flags α) : Prop :=
  (m₁ fl).1 = .fuel ∨ ((m₁ fl).1 = (m₂ fl').1 ∧ ∀ x, (m₁ fl).1 = .ok x → (m₁ fl).2 = fl ∧ (m₂ fl').2 = fl')

section
variable {fl fl' : Flags}

theorem SubF.bind {α γ : Type} {m₁ m₂ : M Flags α} {f₁ f₂ : α → M Flags γ} (h : SubF fl fl' m₁ m₂)
    (hf : ∀ x, SubF fl fl' (f₁ x) (f₂ x)) : SubF fl fl' (m₁ >>= f₁) (m₂ >>= f₂) := by
  unfold SubF
  rw [M.bind_apply, M.bind_apply]
  rcases e1 : m₁ fl with ⟨o1, s1⟩
  rcases e2 : m₂ fl' with ⟨o2, s2⟩
  unfold SubF at h
  rw [e1, e2] at h
  rcases h with h | ⟨h, hk⟩
  · cases h; exact .inl rfl
  · dsimp only at h hk
    subst h
    cases o1 with
    | ok x =>
      obtain ⟨rfl, rfl⟩ := hk x rfl
      exact hf x
    | fuel => exact .inl rfl
    | _ => exact .inr ⟨rfl, fun x hx => by cases hx⟩

theorem SubF.pure {α : Type} (x : α) : SubF fl fl' (Pure.pure x) (Pure.pure x) := .inr ⟨rfl, fun _ _ => ⟨rfl, rfl⟩⟩
theorem SubF.lift {α : Type} (o : Out α) : SubF fl fl' (M.lift o) (M.lift o) := .inr ⟨rfl, fun _ _ => ⟨rfl, rfl⟩⟩
theorem SubF.ite {α : Type} {c : Prop} [Decidable c] {m₁ m₂ n₁ n₂ : M Flags α} (h : SubF fl fl' m₁ m₂) (h' : SubF fl fl' n₁ n₂) :
    SubF fl fl' (if c then m₁ else n₁) (if c then m₂ else n₂) := by split <;> assumption

theorem subF_queryAll {q q' : Id → M Flags Int} {cs ds : List Id} (h : List.Forall₂ (fun c d => SubF fl fl' (q c) (q' d)) cs ds) :
    SubF fl fl' (queryAll q cs) (queryAll q' ds) := by
  induction h with
  | nil => exact .pure _
  | cons h _ ih => exact .bind h fun _ => .bind ih fun _ => .pure _

theorem subF_softFilter {rec4 : Bool} {q r q' r' : Id → M Flags Int} {c d : Id} (h1 : SubF fl fl' (q c) (q' d))
    (h2 : SubF fl fl' (r c) (r' d)) (z : Int) : SubF fl fl' (softFilter rec4 q r c z) (softFilter rec4 q' r' d z) :=
  .ite (.pure _) (.bind h2 fun _ => .ite (.pure _) (.bind h1 fun _ => .bind (.lift _) fun _ => .pure _))

namespace Sub
variable {α α' γ γ' : Type} {Q : α → α' → Prop} {S : γ → γ' → Prop}

theorem bind {m₁ : XM ABlob α} {m₂ : XM ABlob α'} {f₁ : α → XM ABlob γ} {f₂ : α' → XM ABlob γ'} (h : Sub fl fl' Q m₁ m₂)
    (hf : ∀ x y, Q x y → Sub fl fl' S (f₁ x) (f₂ y)) : Sub fl fl' S (m₁ >>= f₁) (m₂ >>= f₂) := by
  intro a
  rw [M.bind_apply, M.bind_apply]
  have h := h a
  rcases e1 : m₁ (fl, a) with ⟨o1, s1, a1⟩
  rcases e2 : m₂ (fl', a) with ⟨o2, s2, a2⟩
  rw [e1, e2] at h
  rcases h with h | ⟨h, hb, hk⟩
  · cases h; exact .inl rfl
  · dsimp only at h hb hk
    subst hb
    cases h with
    | ok hq =>
      obtain ⟨rfl, rfl⟩ := hk _ rfl
      exact hf _ _ hq a2
    | fuel => exact .inl rfl
    | outOfData => exact .inr ⟨.outOfData, rfl, fun x hx => by cases hx⟩
    | ub r => exact .inr ⟨.ub r, rfl, fun x hx => by cases hx⟩
    | abort => exact .inr ⟨.abort, rfl, fun x hx => by cases hx⟩

theorem pure {x : α} {y : α'} (h : Q x y) : Sub fl fl' Q (Pure.pure x) (Pure.pure y) := fun _ =>
  .inr ⟨.ok h, rfl, fun _ _ => ⟨rfl, rfl⟩⟩
theorem lift {o : Out α} {o' : Out α'} (h : SimOut Q o o') : Sub fl fl' Q (M.lift o) (M.lift o') := fun _ =>
  .inr ⟨h, rfl, fun _ _ => ⟨rfl, rfl⟩⟩
theorem throw : Sub fl fl' Q M.throwOOD M.throwOOD := fun _ => .inr ⟨.outOfData, rfl, fun _ _ => ⟨rfl, rfl⟩⟩
theorem abort : Sub fl fl' Q (M.out .abort) (M.out .abort) := fun _ => .inr ⟨.abort, rfl, fun _ _ => ⟨rfl, rfl⟩⟩
theorem ub (r : UB) : Sub fl fl' Q (M.ub r) (M.ub r) := fun _ => .inr ⟨.ub r, rfl, fun _ _ => ⟨rfl, rfl⟩⟩
theorem liftB (m : M ABlob α) : Sub fl fl' Eq (BS.liftB m) (BS.liftB m) := fun _ =>
  .inr ⟨.refl _, rfl, fun _ _ => ⟨rfl, rfl⟩⟩
theorem liftB_le {m m' : M ABlob α} (h : FLe m m') : Sub fl fl' Eq (BS.liftB m) (BS.liftB m') := fun a => by
  rcases h a with e | e
  · exact .inl e
  · refine .inr ⟨?_, ?_, fun _ _ => ⟨rfl, rfl⟩⟩
    · show SimOut Eq (m a).1 (m' a).1
      rw [e]; exact .refl _
    · show (m' a).2 = (m a).2
      rw [e]
theorem liftF {m m' : M Flags α} (h : SubF fl fl' m m') : Sub fl fl' Eq (BS.liftF m) (BS.liftF m') := fun a => by
  rcases h with h | ⟨h, hk⟩
  · exact .inl h
  · refine .inr ⟨?_, rfl, hk⟩
    show SimOut Eq (m fl).1 (m' fl').1
    rw [h]; exact .refl _
theorem curSize : Sub fl fl' Eq BS.curSize BS.curSize := fun _ => .inr ⟨.ok rfl, rfl, fun _ _ => ⟨rfl, rfl⟩⟩
theorem ite {c : Prop} [Decidable c] {m₁ n₁ : XM ABlob α} {m₂ n₂ : XM ABlob α'} (h : Sub fl fl' Q m₁ m₂)
    (h' : Sub fl fl' Q n₁ n₂) : Sub fl fl' Q (if c then m₁ else n₁) (if c then m₂ else n₂) := by split <;> assumption
theorem onBlob (p : ABlob) {m₁ : XM ABlob α} {m₂ : XM ABlob α'} (h : Sub fl fl' Q m₁ m₂) :
    Sub fl fl' Q (BS.onBlob p m₁) (BS.onBlob p m₂) := fun a => by
  rcases h p with h | ⟨h, _, hk⟩
  · exact .inl h
  · exact .inr ⟨h, rfl, hk⟩
theorem eq {m₁ : XM ABlob α} {m₂ : XM ABlob α'} (h : Sub fl fl' Q m₁ m₂) {m₁' : XM ABlob α} {m₂' : XM ABlob α'}
    (e1 : m₁' = m₁) (e2 : m₂' = m₂) : Sub fl fl' Q m₁' m₂' := by rw [e1, e2]; exact h
end Sub

/-! ## The loops of the stamps -/

theorem sub_each {ex ex' : Id → XM ABlob Bytes} {l l' : List (Id × ABlob)}
    (h : List.Forall₂ (fun p q => p.2 = q.2 ∧ Sub fl fl' Eq (ex p.1) (ex' q.1)) l l') (k : Int) :
    Sub fl fl' Eq (extractEach ex k l) (extractEach ex' k l') := by
  induction h generalizing k with
  | nil => exact .pure rfl
  | @cons p q l l' h _ ih =>
    obtain ⟨c, a⟩ := p
    obtain ⟨d, b⟩ := q
    obtain ⟨rfl, h⟩ : a = b ∧ _ := h
    refine .bind (.onBlob a h) fun x y hx => .bind (.lift (.refl _)) fun k k' hk => ?_
    subst hx
    subst hk
    refine .bind (ih _) fun xs ys hx => ?_
    subst hx
    exact .pure rfl

theorem sub_seq {ex ex' : Id → XM ABlob Bytes} {cs ds : List Id} (h : List.Forall₂ (fun c d => Sub fl fl' Eq (ex c) (ex' d)) cs ds) :
    Sub fl fl' Eq (extractSeq ex cs) (extractSeq ex' ds) := by
  induction h with
  | nil => exact .pure rfl
  | cons h _ ih =>
    refine .bind h fun x y hx => .bind ih fun xs ys hxs => ?_
    subst hx
    subst hxs
    exact .pure rfl

variable {R : Id → Id → Prop}

theorem sub_pickFilter {q r q' r' : Id → M Flags Int} {cs ds : List Id}
    (h : List.Forall₂ (fun c d => R c d ∧ SubF fl fl' (q c) (q' d) ∧ SubF fl fl' (r c) (r' d)) cs ds) :
    Sub fl fl' (fun x y => List.Forall₂ R x.1 y.1 ∧ List.Forall₂ R x.2 y.2) (pickFilter q r cs : XM ABlob _) (pickFilter q' r' ds) := by
  induction h with
  | nil => exact .pure ⟨.nil, .nil⟩
  | cons h _ ih =>
    refine .bind (.liftF h.2.1) fun mn mn' e => ?_
    subst e
    refine .bind .curSize fun z z' e => ?_
    subst e
    refine .ite (.bind (.liftF h.2.2) fun mx mx' e => ?_) ih
    subst e
    refine .bind ih fun x y hxy => .ite (.pure ⟨.cons h.1 hxy.1, .cons h.1 hxy.2⟩) (.pure ⟨.cons h.1 hxy.1, hxy.2⟩)

theorem sub_lotFilter {rec4 : Bool} {q r q' r' : Id → M Flags Int} {cs ds : List Id}
    (h : List.Forall₂ (fun c d => R c d ∧ SubF fl fl' (q c) (q' d) ∧ SubF fl fl' (r c) (r' d)) cs ds) :
    Sub fl fl' (List.Forall₂ R) (lotFilter rec4 q r cs : XM ABlob _) (lotFilter rec4 q' r' ds) := by
  induction h with
  | nil => exact .pure .nil
  | cons h _ ih =>
    refine .bind (.liftF h.2.1) fun mn mn' e => ?_
    subst e
    refine .bind .curSize fun z z' e => ?_
    subst e
    refine .ite ih (.bind (.liftF (subF_softFilter h.2.1 h.2.2 _)) fun b b' e => .bind ih fun x y hxy => ?_)
    subst e
    refine .pure ?_
    split
    · exact .cons h.1 hxy
    · exact hxy

theorem sim_vecGet {cs ds : List Id} (h : List.Forall₂ R cs ds) (k : Int) : SimOut R (vecGet cs k) (vecGet ds k) := by
  unfold vecGet
  generalize toSz k = n
  induction h generalizing n with
  | nil => exact .ub _
  | cons h _ ih =>
    cases n with
    | zero => exact .ok h
    | succ n => simpa using ih n

theorem forall₂_empty {cs ds : List Id} (h : List.Forall₂ R cs ds) : cs.isEmpty = ds.isEmpty := by cases h <;> rfl

/-! ## Stamps -/

variable {G H : Graph}

/-- From some budget on, the second object does what the first one does with budget `n`. -/
def Trails (G H : Graph) (fl fl' : Flags) (n m : Nat) (c d : Id) : Prop :=
  ∀ m' ≥ m, (∀ sel, SubF fl fl' (sizeQ G n sel c) (sizeQ H m' sel d)) ∧ Sub fl fl' Eq (extract G n c) (extract H m' d : XM ABlob Bytes)

theorem trails_all {n : Nat} (h : ∀ c d, R c d → ∃ m, Trails G H fl fl' n m c d) {cs ds : List Id} (hl : List.Forall₂ R cs ds) :
    ∃ m, List.Forall₂ (fun c d => R c d ∧ Trails G H fl fl' n m c d) cs ds := by
  induction hl with
  | nil => exact ⟨0, .nil⟩
  | cons h1 _ ih =>
    obtain ⟨m1, e1⟩ := h _ _ h1
    obtain ⟨m2, e2⟩ := ih
    refine ⟨max m1 m2, .cons ⟨h1, fun m' hm => e1 m' (by omega)⟩ (e2.imp fun c d hcd => ⟨hcd.1, fun m' hm => hcd.2 m' (by omega)⟩)⟩

theorem trails_sizes (hS : SameSizes G fl H fl' R) {i j : Id} (h : R i j) (n : Nat) (sel : Sel) :
    ∃ m, ∀ m' ≥ m, SubF fl fl' (sizeQ G n sel i) (sizeQ H m' sel j) := by
  by_cases hf : (sizeQ G n sel i fl).1 = .fuel
  · exact ⟨0, fun _ _ => .inl hf⟩
  · obtain ⟨m, e⟩ := (hS i j h sel _ hf).1 ⟨n, rfl⟩
    refine ⟨m, fun m' hm => .inr ?_⟩
    have e' : (sizeQ H m' sel j fl').1 = (sizeQ G n sel i fl).1 := by
      rcases fle_sizeQ H hm sel j fl' with e2 | e2
      · rw [e] at e2; exact absurd e2 hf
      · rw [← e2, e]
    refine ⟨e'.symm, fun x hx => ⟨?_, ?_⟩⟩
    · exact (keeps_sizeQ G n sel i fl).2.2 x _ (Prod.ext hx rfl)
    · exact (keeps_sizeQ H m' sel j fl').2.2 x _ (Prod.ext (e'.trans hx) rfl)

theorem trails_extract (hM : Matched G H R) (hS : SameSizes G fl H fl' R) (n : Nat) (i j : Id) (h : R i j) :
    ∃ m, ∀ m' ≥ m, Sub fl fl' Eq (extract G n i) (extract H m' j : XM ABlob Bytes) := by
  induction n generalizing i j with
  | zero => exact ⟨0, fun _ _ _ => .inl rfl⟩
  | succ n ih =>
    have hf : ∀ c d, R c d → ∃ m, Trails G H fl fl' n m c d := by
      intro c d hcd
      obtain ⟨m1, e1⟩ := ih c d hcd
      obtain ⟨m2, e2⟩ := trails_sizes hS hcd n .min
      obtain ⟨m3, e3⟩ := trails_sizes hS hcd n .max
      refine ⟨max m1 (max m2 m3), fun m' hm => ⟨fun sel => ?_, e1 m' (by omega)⟩⟩
      cases sel
      · exact e2 m' (by omega)
      · exact e3 m' (by omega)
    have wrap : ∀ m, (∀ m' ≥ m, Sub fl fl' Eq (extract G (n + 1) i) (extract H (m' + 1) j : XM ABlob Bytes)) →
        ∃ m, ∀ m' ≥ m, Sub fl fl' Eq (extract G (n + 1) i) (extract H m' j : XM ABlob Bytes) := by
      intro m hm
      refine ⟨m + 1, fun m' hm' => ?_⟩
      obtain ⟨k, rfl⟩ : ∃ k, m' = k + 1 := ⟨m' - 1, by omega⟩
      exact hm k (by omega)
    rcases hM i j h with ⟨h1, h2⟩ | ⟨nd, nd', h1, h2, h3⟩
    · refine wrap 0 fun m' _ => ?_
      unfold extract
      rw [h1, h2]
      exact .ub _
    · cases h3 with
      | single hs =>
        refine wrap 0 fun m' _ => ?_
        unfold extract
        rw [h1, h2]
        cases nd with
        | user u =>
          refine .bind (.liftB _) fun v v' e => ?_
          subst e
          refine .bind .curSize fun z z' e => ?_
          subst e
          exact .bind (.liftB _) fun _ _ _ => .lift (.refl _)
        | arith t => exact .liftB _
        | dict ws => exact .liftB _
        | jsonStr => exact .liftB _
        | latin1 => exact .liftB _
        | ascii => exact .liftB _
        | _ => cases hs
      | vec join hc =>
        obtain ⟨m, hm⟩ := hf _ _ hc
        refine wrap (max m n) fun m' hm' => ?_
        obtain ⟨hq, he⟩ := hm m' (by omega)
        unfold extract
        rw [h1, h2]
        refine .bind (.liftF (hq .min)) fun mn _ e => ?_
        subst e
        refine .bind (.liftF (hq .max)) fun mx _ e => ?_
        subst e
        refine .bind (.liftB_le (fle_vecSplit (by omega) mn mx)) fun ps _ e => ?_
        subst e
        refine .bind (sub_each ?_ 0) fun xs _ e => ?_
        · clear * - he
          induction ps with
          | nil => exact .nil
          | cons p ps ih => exact .cons ⟨rfl, he⟩ ih
        · subst e
          exact .pure rfl
      | set join unb hc =>
        obtain ⟨m, hm⟩ := trails_all hf hc
        refine wrap m fun m' hm' => ?_
        have hl := hm.imp fun c d hcd => hcd.2 m' hm'
        unfold extract
        rw [h1, h2]
        refine .bind (.liftF (subF_queryAll (hl.imp fun c d hcd => hcd.1 .min))) fun mns _ e => ?_
        subst e
        refine .bind (.liftF (subF_queryAll (hl.imp fun c d hcd => hcd.1 .max))) fun mxs _ e => ?_
        subst e
        refine .bind (.liftB _) fun ps _ e => ?_
        subst e
        refine .bind (sub_each ?_ 0) fun xs _ e => ?_
        · clear * - hl
          induction hl generalizing ps with
          | nil => exact .nil
          | cons h1 _ ih =>
            cases ps with
            | nil => exact .nil
            | cons p ps => exact .cons ⟨rfl, h1.2⟩ (ih ps)
        · subst e
          exact .pure rfl
      | seq join unb hc =>
        obtain ⟨m, hm⟩ := trails_all hf hc
        refine wrap m fun m' hm' => ?_
        have hl := hm.imp fun c d hcd => hcd.2 m' hm'
        unfold extract
        rw [h1, h2]
        refine .bind (sub_seq (hl.imp fun c d hcd => hcd.2)) fun xs _ e => ?_
        subst e
        exact .pure rfl
      | unary op hc =>
        obtain ⟨m, hm⟩ := hf _ _ hc
        refine wrap m fun m' hm' => ?_
        unfold extract
        rw [h1, h2]
        refine .bind (hm m' hm').2 fun xs _ e => ?_
        subst e
        exact .pure rfl
      | lottery rec4 osz smin smax hc =>
        obtain ⟨m, hm⟩ := trails_all hf hc
        refine wrap m fun m' hm' => ?_
        have hl : List.Forall₂ (fun c d => (R c d ∧ Sub fl fl' Eq (extract G n c) (extract H m' d : XM ABlob Bytes)) ∧
            SubF fl fl' (sizeQ G n .min c) (sizeQ H m' .min d) ∧ SubF fl fl' (sizeQ G n .max c) (sizeQ H m' .max d)) _ _ :=
          hm.imp fun c d hcd => ⟨⟨hcd.1, (hcd.2 m' hm').2⟩, (hcd.2 m' hm').1 .min, (hcd.2 m' hm').1 .max⟩
        unfold extract
        rw [h1, h2]
        refine .bind (.liftB _) fun o _ e => ?_
        subst e
        refine .bind (sub_lotFilter hl) fun l1 k1 e1 => ?_
        rw [forall₂_empty e1]
        refine .bind (.ite (sub_lotFilter hl) (.pure e1)) fun l k e2 => ?_
        rw [forall₂_empty e2, e2.length_eq]
        refine .ite .throw (.bind (.lift (.refl _)) fun x _ e => ?_)
        subst e
        exact .bind (.lift (sim_vecGet e2 x)) fun c d hcd => hcd.2
      | picker hc =>
        obtain ⟨m, hm⟩ := trails_all hf hc
        obtain ⟨m2, hm2⟩ := trails_sizes hS h (n + 1) .min
        refine wrap (max m m2) fun m' hm' => ?_
        have hl : List.Forall₂ (fun c d => (R c d ∧ Sub fl fl' Eq (extract G n c) (extract H m' d : XM ABlob Bytes)) ∧
            SubF fl fl' (sizeQ G n .min c) (sizeQ H m' .min d) ∧ SubF fl fl' (sizeQ G n .max c) (sizeQ H m' .max d)) _ _ :=
          hm.imp fun c d hcd => ⟨⟨hcd.1, (hcd.2 m' (by omega)).2⟩, (hcd.2 m' (by omega)).1 .min, (hcd.2 m' (by omega)).1 .max⟩
        unfold extract
        rw [h1, h2]
        refine .bind (.liftB _) fun o _ e => ?_
        subst e
        refine .bind (sub_pickFilter hl) fun r r' e1 => ?_
        have e2 : List.Forall₂ (fun c d => R c d ∧ Sub fl fl' Eq (extract G n c) (extract H m' d : XM ABlob Bytes))
            (if r.2.isEmpty then r.1 else r.2) (if r'.2.isEmpty then r'.1 else r'.2) := by
          rw [forall₂_empty e1.2]
          split
          · exact e1.1
          · exact e1.2
        dsimp only
        generalize (if r.2.isEmpty then r.1 else r.2) = l at e2
        generalize (if r'.2.isEmpty then r'.1 else r'.2) = k at e2
        rw [forall₂_empty e2, e2.length_eq]
        refine .ite (.bind (.liftF (hm2 (m' + 1) (by omega))) fun mn _ e => ?_) (.bind (.lift (.refl _)) fun x _ e => ?_)
        · subst e
          refine .bind .curSize fun z _ e => ?_
          subst e
          exact .ite .throw .abort
        · subst e
          exact .bind (.lift (sim_vecGet e2 x)) fun c d hcd => hcd.2

end

end BS
