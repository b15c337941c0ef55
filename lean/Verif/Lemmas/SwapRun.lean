import Verif.Lemmas.Swap

/-!
# Data with places to fill in: how stamps are run on them
-/

namespace BS
open BlobLike

/-! ## Choices depend on sizes only -/

/-- Only the number of bytes in the blob matters, and the blob stays. -/
def Sized {α : Type} (m : XM ABlob α) : Prop := ∀ fl (a a'' : ABlob), List.length a'' = List.length a →
  m (fl, a'') = ((m (fl, a)).1, ((m (fl, a)).2.1, a''))

namespace Sized
variable {α γ : Type}
theorem pure (x : α) : Sized (Pure.pure x) := fun _ _ _ _ => rfl
theorem lift (o : Out α) : Sized (M.lift o) := fun _ _ _ _ => rfl
theorem liftF (m : M Flags α) : Sized (BS.liftF m) := fun _ _ _ _ => rfl
theorem curSize : Sized BS.curSize := fun fl a a'' h => by
  show (Out.ok (List.length a''), (fl, a'')) = (Out.ok (List.length a), (fl, a''))
  rw [h]
theorem bind {m : XM ABlob α} {f : α → XM ABlob γ} (h : Sized m) (hf : ∀ x, Sized (f x)) : Sized (m >>= f) := by
  intro fl a a'' ha
  have e1 := h fl a a'' ha
  have e2 := h fl a a rfl
  rw [M.bind_apply, M.bind_apply, e1]
  rcases e : m (fl, a) with ⟨o, fl1, a1⟩
  rw [e] at e2
  cases e2
  cases o with
  | ok x => exact hf x fl1 a a'' ha
  | _ => rfl
theorem ite {c : Prop} [Decidable c] {m n : XM ABlob α} (h : Sized m) (h' : Sized n) : Sized (if c then m else n) := by
  split <;> assumption
end Sized

theorem sized_pickFilter (qmin qmax : Id → M Flags Int) (l : List Id) : Sized (pickFilter qmin qmax l) := by
  induction l with
  | nil => exact .pure _
  | cons i l ih =>
    exact .bind (.liftF _) fun _ => .bind .curSize fun _ => .ite (.bind (.liftF _) fun _ => .bind ih fun _ =>
      .ite (.pure _) (.pure _)) ih

theorem sized_lotFilter (rec4 : Bool) (qmin qmax : Id → M Flags Int) (l : List Id) : Sized (lotFilter rec4 qmin qmax l) := by
  induction l with
  | nil => exact .pure _
  | cons i l ih =>
    exact .bind (.liftF _) fun _ => .bind .curSize fun _ => .ite ih (.bind (.liftF _) fun _ => .bind ih fun _ => .pure _)

/-! ## Single stamps -/

theorem Steady.chop (k : Nat) : Steady (BlobLike.chop k : M ABlob ABlob) := by
  intro a p a' h
  rw [chop_abs] at h
  split at h
  · cases h
  · rename_i hl
    injection h with h1 h1'
    injection h1 with h1
    have hp : List.length p = k := by rw [← h1, List.length_take]; exact Nat.min_eq_left (Nat.le_of_not_lt hl)
    refine ⟨p, by rw [← h1, ← h1']; exact (List.take_append_drop _ _).symm, fun a'' _ => ?_⟩
    rw [chop_abs, if_neg (by rw [List.length_append]; omega), ← hp, List.take_left, List.drop_left]

theorem Steady.text (f : UInt8 → UInt8) : Steady (extractText f : M ABlob Bytes) := by
  have h : (chop2 1 (toSz (-1)) : M ABlob ABlob) = (M.get >>= fun b => if size b < 1 then M.throwOOD else
      if toSz (-1) ≤ size b then BlobLike.chop (toSz (-1)) else BlobLike.chop (size b)) := by
    funext b
    show (if size b < 1 then (Out.outOfData, b) else if toSz (-1) ≤ size b then BlobLike.chop (toSz (-1)) b
      else BlobLike.chop (size b) b) = (if size b < 1 then M.throwOOD else
      if toSz (-1) ≤ size b then BlobLike.chop (toSz (-1)) else BlobLike.chop (size b) : M ABlob ABlob) b
    generalize toSz (-1) = k
    split
    · rfl
    · split <;> rfl
  unfold extractText
  rw [h]
  refine .bind (.get (fun b => .ite (.out (o := .outOfData) (fun _ h => by cases h)) (.ite (.chop _) (.chop _))) ?_) fun _ =>
    .bind (.lift _) fun _ => .pure _
  intro b b' h
  have : size b = size b' := h
  simp only [this]

theorem Steady.arith (t : ArithTy) : Steady (extractArithStr t : M ABlob Bytes) := .bind (.value t) fun _ => .lift _

theorem Steady.dict (ws : List Bytes) : Steady (extractDict ws : M ABlob Bytes) :=
  .bind (.uOracle _) fun _ => .bind (.lift _) fun _ => .lift _

theorem Steady.jsonStr : Steady (extractJsonStr : M ABlob Bytes) := .bind (.dict _) fun _ => .pure _

/-- A single stamp that returns makes the same text if other bytes follow. -/
theorem single_steady {G : Graph} (hu : LocalUsers G) {i : Id} {nd : Node} (hG : G i = some nd) (hs : nd.single = true) {n : Nat}
    {fl fl' : Flags} {a a' : ABlob} {s : Bytes} (h : extract G n i (fl, a) = (.ok s, (fl', a'))) :
    ∃ u, a = u ++ a' ∧ ∀ a'' : ABlob, List.length a'' = List.length a' → ∀ m, extract G (m + 1) i (fl, u ++ a'') = (.ok s, (fl, a'')) := by
  cases n with
  | zero => cases h
  | succ n =>
    have key : ∀ (k : M ABlob Bytes), Steady k → (∀ m, extract G (m + 1) i = liftB k) →
        ∃ u, a = u ++ a' ∧ ∀ a'' : ABlob, List.length a'' = List.length a' → ∀ m, extract G (m + 1) i (fl, u ++ a'') = (.ok s, (fl, a'')) := by
      intro k hk he
      rw [he] at h
      have e : k a = (.ok s, a') := by
        have h1 : (k a).1 = .ok s := congrArg Prod.fst h
        have h2 : (k a).2 = a' := congrArg (fun p => p.2.2) h
        exact Prod.ext h1 h2
      obtain ⟨u, rfl, hu⟩ := hk _ _ _ e
      refine ⟨u, rfl, fun a'' ha m => ?_⟩
      rw [he]
      show ((k (u ++ a'')).1, (fl, (k (u ++ a'')).2)) = _
      rw [hu a'' ha]
    cases nd with
    | arith t => exact key _ (.arith t) fun m => by unfold extract; rw [hG]
    | dict ws => exact key _ (.dict ws) fun m => by unfold extract; rw [hG]
    | jsonStr => exact key _ .jsonStr fun m => by unfold extract; rw [hG]
    | latin1 => exact key _ (.text _) fun m => by unfold extract; rw [hG]
    | ascii => exact key _ (.text _) fun m => by unfold extract; rw [hG]
    | user u =>
      have he : ∀ m fl (a : ABlob), extract G (m + 1) i (fl, a) = ((u.behave a).1, (fl, List.drop (u.behave a).2 a)) := by
        intro m fl a
        have e3 : (BlobLike.chop (min (u.behave a).2 (List.length a)) : M ABlob ABlob) a =
            (.ok (List.take (min (u.behave a).2 (List.length a)) a), List.drop (min (u.behave a).2 (List.length a)) a) := by
          rw [chop_abs, if_neg (by omega)]
        have e4 : List.drop (min (u.behave a).2 (List.length a)) a = List.drop (u.behave a).2 a := by
          rcases Nat.le_total (u.behave a).2 (List.length a) with hl | hl
          · rw [Nat.min_eq_left hl]
          · rw [Nat.min_eq_right hl, List.drop_eq_nil_of_le hl, List.drop_length]
        unfold extract
        rw [hG]
        show (liftB (BlobLike.chop (min (u.behave a).2 (List.length a))) >>= fun _ => M.lift (u.behave a).1) (fl, a) = _
        have e5 : (liftB (BlobLike.chop (min (u.behave a).2 (List.length a))) : XM ABlob ABlob) (fl, a) =
            (.ok (List.take (min (u.behave a).2 (List.length a)) a), (fl, List.drop (u.behave a).2 a)) := by
          unfold liftB
          dsimp only
          rw [e3, e4]
        rw [M.bind_ok e5]
        rfl
      rw [he] at h
      injection h with h1 h2
      injection h2 with _ h2
      refine ⟨List.take (u.behave a).2 a, by rw [← h2]; exact (List.take_append_drop _ _).symm, fun a'' ha m => ?_⟩
      have hl : List.length a'' = List.length a - (u.behave a).2 := by rw [ha, ← h2]; exact List.length_drop
      have ht : List.take (u.behave a).2 (List.take (u.behave a).2 a ++ a'') = List.take (u.behave a).2 a := by
        rcases Nat.le_total (u.behave a).2 (List.length a) with hk | hk
        · exact List.take_left' (by rw [List.length_take, Nat.min_eq_left hk])
        · have : a'' = [] := List.eq_nil_of_length_eq_zero (by omega)
          rw [this, List.append_nil, List.take_take, Nat.min_self]
      have hd : List.drop (u.behave a).2 (List.take (u.behave a).2 a ++ a'') = a'' := by
        rcases Nat.le_total (u.behave a).2 (List.length a) with hk | hk
        · exact List.drop_left' (by rw [List.length_take, Nat.min_eq_left hk])
        · have : a'' = [] := List.eq_nil_of_length_eq_zero (by omega)
          rw [this, List.append_nil]
          exact List.drop_eq_nil_of_le (by rw [List.length_take]; omega)
      have hb := hu i u hG a (List.take (u.behave a).2 a ++ a'')
        (by rw [List.length_append, List.length_take]; omega) ht.symm
      rw [he, hb, h1, hd]
    | _ => cases hs

/-! ## Runs -/

/-- `Leaf.Real` for the bytes alone. -/
def Leaf.Runs (G : Graph) (fl : Flags) (l : Leaf) : Prop :=
  ∀ more : ABlob, List.length more = l.room → ∀ n, extract G (n + 1) l.stamp (fl, l.took ++ more) = (.ok l.text, (fl, more))

/-- What is said about each leaf of a run on `N` bytes. -/
def Leaf.Good (G : Graph) (fl : Flags) (N : Nat) (l : Leaf) : Prop :=
  (∃ nd, G l.stamp = some nd ∧ nd.single = true) ∧ l.Runs G fl ∧ l.took.length + l.room ≤ N

theorem Leaf.Good.mono {G : Graph} {fl : Flags} {N M : Nat} {l : Leaf} (h : l.Good G fl N) (hN : N ≤ M) : l.Good G fl M :=
  ⟨h.1, h.2.1, le_trans h.2.2 hN⟩

def tooks (ls : List Leaf) : List Bytes := ls.map Leaf.took
def texts (ls : List Leaf) : List Bytes := ls.map Leaf.text

theorem tooks_append (l k : List Leaf) : tooks (l ++ k) = tooks l ++ tooks k := List.map_append
theorem texts_append (l k : List Leaf) : texts (l ++ k) = texts l ++ texts k := List.map_append
theorem tooks_length (l : List Leaf) : (tooks l).length = l.length := List.length_map _
theorem texts_length (l : List Leaf) : (texts l).length = l.length := List.length_map _
theorem tooks_flatten (l : List (List Leaf)) : tooks l.flatten = (l.map tooks).flatten := List.map_flatten
theorem texts_flatten (l : List (List Leaf)) : texts l.flatten = (l.map texts).flatten := List.map_flatten

theorem alike_tooks {ls ls' : List Leaf} (h : List.Forall₂ Leaf.Alike ls ls') : SameLen (tooks ls) (tooks ls') := by
  induction h with
  | nil => exact .nil
  | cons h _ ih => exact .cons h.size ih

theorem alike_texts {ls ls' : List Leaf} (h : List.Forall₂ Leaf.Alike ls ls') :
    List.Forall₂ (fun x y => y = [] ↔ x = []) (texts ls) (texts ls') := by
  induction h with
  | nil => exact .nil
  | cons h _ ih => exact .cons h.empty ih

theorem alike_flatten {α β : Type} {R : α → β → Prop} {l : List (List α)} {k : List β} (h : List.Forall₂ R l.flatten k) :
    ∃ k', k = k'.flatten ∧ List.Forall₂ (List.Forall₂ R) l k' := by
  induction l generalizing k with
  | nil => cases h; exact ⟨[], rfl, .nil⟩
  | cons x l ih =>
    rw [List.flatten_cons] at h
    have : ∀ (x : List α) (k : List β), List.Forall₂ R (x ++ l.flatten) k → ∃ k1 k2, k = k1 ++ k2 ∧ List.Forall₂ R x k1 ∧
        List.Forall₂ R l.flatten k2 := by
      intro x
      induction x with
      | nil => exact fun k h => ⟨[], k, rfl, .nil, h⟩
      | cons y x ihx =>
        intro k h
        cases h with
        | cons h1 h2 =>
          obtain ⟨k1, k2, rfl, h3, h4⟩ := ihx _ h2
          exact ⟨_ :: k1, k2, rfl, .cons h1 h3, h4⟩
    obtain ⟨k1, k2, rfl, h1, h2⟩ := this x k h
    obtain ⟨k', rfl, h3⟩ := ih h2
    exact ⟨k1 :: k', rfl, .cons h1 h3⟩

/-- What is shown of a run: data and text are forms whose places are those of the leaves. -/
def Swaps (G : Graph) (fl : Flags) (n : Nat) (i : Id) (a : ABlob) (s : Bytes) (a' : ABlob) : Prop :=
  ∃ ls form txt, holes form = ls.length ∧ holes txt = ls.length ∧ a = fill form (tooks ls) ++ a' ∧ s = fill txt (texts ls) ∧
    (∀ l ∈ ls, l.Good G fl (List.length a)) ∧
    ∀ ls', List.Forall₂ Leaf.Alike ls ls' → (∀ l ∈ ls', l.Runs G fl) → ∀ a'' : ABlob, List.length a'' = List.length a' →
      extract G n i (fl, fill form (tooks ls') ++ a'') = (.ok (fill txt (texts ls')), (fl, a''))


section
variable {G : Graph} {fl : Flags} {n : Nat}

theorem alike_holes {forms : List (List Cell)} {lss lss' : List (List Leaf)} (h : List.Forall₂ (fun f ls => holes f = ls.length) forms lss)
    (h' : List.Forall₂ (List.Forall₂ Leaf.Alike) lss lss') : List.Forall₂ (fun f ls => holes f = ls.length) forms lss' := by
  induction h generalizing lss' with
  | nil => cases h'; exact .nil
  | cons h1 _ ih =>
    cases h' with
    | cons h2 h3 => exact .cons (by rw [h1, h2.length_eq]) (ih h3)

theorem holes_tooks {forms : List (List Cell)} {lss : List (List Leaf)} (h : List.Forall₂ (fun f ls => holes f = ls.length) forms lss) :
    List.Forall₂ (fun f xs => holes f = List.length xs) forms (lss.map tooks) := by
  induction h with
  | nil => exact .nil
  | cons h _ ih => exact .cons (by rw [h, tooks_length]) ih

theorem holes_texts {forms : List (List Cell)} {lss : List (List Leaf)} (h : List.Forall₂ (fun f ls => holes f = ls.length) forms lss) :
    List.Forall₂ (fun f xs => holes f = List.length xs) forms (lss.map texts) := by
  induction h with
  | nil => exact .nil
  | cons h _ ih => exact .cons (by rw [h, texts_length]) ih

theorem holes_sum {forms : List (List Cell)} {lss : List (List Leaf)} (h : List.Forall₂ (fun f ls => holes f = ls.length) forms lss) :
    (forms.map holes).sum = lss.flatten.length := by
  induction h with
  | nil => rfl
  | cons h _ ih => rw [List.map_cons, List.sum_cons, List.flatten_cons, List.length_append, ih, h]

theorem swap_each (ih : ∀ i a s fl' a', extract G n i (fl, a) = (.ok s, (fl', a')) → Swaps G fl n i a s a') {N : Nat}
    (pcs : List (Id × ABlob)) (hN : ∀ p ∈ pcs, List.length p.2 ≤ N) (k : Int) {b : ABlob} {xs : List Bytes} {s' : Flags × ABlob}
    (h : extractEach (extract G n) k pcs (fl, b) = (.ok xs, s')) :
    s' = (fl, b) ∧ ∃ lss forms txts, List.Forall₂ (fun f ls => holes f = ls.length) forms lss ∧
      List.Forall₂ (fun f ls => holes f = ls.length) txts lss ∧ lss.length = pcs.length ∧
      pcs.map Prod.snd = List.zipWith fill forms (lss.map tooks) ∧ xs = List.zipWith fill txts (lss.map texts) ∧
      (∀ l ∈ lss.flatten, l.Good G fl N) ∧
      ∀ lss', List.Forall₂ (List.Forall₂ Leaf.Alike) lss lss' → (∀ l ∈ lss'.flatten, l.Runs G fl) → ∀ b'' : ABlob,
        extractEach (extract G n) k ((pcs.map Prod.fst).zip (List.zipWith fill forms (lss'.map tooks))) (fl, b'') =
          (.ok (List.zipWith fill txts (lss'.map texts)), (fl, b'')) := by
  induction pcs generalizing k xs with
  | nil =>
    cases h
    exact ⟨rfl, [], [], [], .nil, .nil, rfl, rfl, rfl, (fun _ h => by cases h), fun lss' h _ b'' => by cases h; rfl⟩
  | cons p pcs ihp =>
    obtain ⟨i, c⟩ := p
    unfold extractEach at h
    obtain ⟨s, s1, h1, h⟩ := M.bind_eq_ok.1 h
    obtain ⟨k', s2, h2, h⟩ := M.bind_eq_ok.1 h
    obtain ⟨ss, s3, h3, h⟩ := M.bind_eq_ok.1 h
    cases h
    have e1 : (extract G n i (fl, c)).1 = .ok s := congrArg Prod.fst h1
    have ek : (extract G n i (fl, c)).2.1 = fl := keeps_extract (β := ABlob) G n i (fl, c) (.inl ⟨s, e1⟩)
    have es : s1 = (fl, b) := by
      have e : ((extract G n i (fl, c)).2.1, b) = s1 := congrArg Prod.snd h1
      rw [← e, ek]
    subst es
    injection h2 with h2 h2'
    subst h2'
    obtain ⟨e3, lss, forms, txts, f1, f2, f3, f4, f5, f6, f7⟩ := ihp (fun p hp => hN p (List.mem_cons_of_mem _ hp)) k' h3
    obtain ⟨ls, form, txt, g1, g2, g3, g4, g5, g6⟩ := ih i c s _ (extract G n i (fl, c)).2.2 (Prod.ext e1 rfl)
    generalize (extract G n i (fl, c)).2.2 = left at g3 g6
    refine ⟨e3, ls :: lss, (form ++ [.fix left]) :: forms, txt :: txts, .cons ?_ f1, .cons g2 f2, by
      rw [List.length_cons, List.length_cons, f3], ?_, ?_, ?_, ?_⟩
    · rw [holes_append, g1]; rfl
    · show c :: pcs.map Prod.snd = fill (form ++ [.fix left]) (tooks ls) :: _
      rw [f4]
      have := fill_append form [.fix left] (tooks ls) [] (by rw [g1, tooks_length])
      rw [List.append_nil] at this
      rw [this, g3]
      simp [fill]
    · rw [f5, g4]; rfl
    · intro l hl
      rw [List.flatten_cons] at hl
      rcases List.mem_append.1 hl with hl | hl
      · exact (g5 l hl).mono (hN (i, c) List.mem_cons_self)
      · exact f6 l hl
    · intro lss' hlss hr b''
      cases hlss with
      | @cons _ ls' _ lss' k1 k2 =>
        rw [List.flatten_cons] at hr
        have r := g6 ls' k1 (fun l hl => hr l (List.mem_append_left _ hl)) left rfl
        have e5 : fill (form ++ [.fix left]) (tooks ls') = fill form (tooks ls') ++ left := by
          have := fill_append form [.fix left] (tooks ls') [] (by rw [g1, tooks_length, k1.length_eq])
          rw [List.append_nil] at this
          rw [this]
          simp [fill]
        show extractEach (extract G n) k ((i, fill (form ++ [.fix left]) (tooks ls')) ::
          (pcs.map Prod.fst).zip (List.zipWith fill forms (lss'.map tooks))) (fl, b'') = (.ok (fill txt (texts ls') :: _), (fl, b''))
        unfold extractEach
        have e6 : onBlob (fill (form ++ [.fix left]) (tooks ls')) (extract G n i) (fl, b'') = (.ok (fill txt (texts ls')), (fl, b'')) := by
          unfold onBlob
          dsimp only
          rw [e5, r]
        rw [M.bind_ok e6]
        have e7 : (M.lift (ckInt (k + 1)) : XM ABlob Int) (fl, b'') = (.ok k', (fl, b'')) := by
          show (ckInt (k + 1), (fl, b'')) = _
          rw [h2]
        rw [M.bind_ok e7, M.bind_ok (f7 lss' k2 (fun l hl => hr l (List.mem_append_right _ hl)) b'')]
        rfl

theorem swap_seq (ih : ∀ i a s fl' a', extract G n i (fl, a) = (.ok s, (fl', a')) → Swaps G fl n i a s a')
    (cs : List Id) {a : ABlob} {xs : List Bytes} {fl' : Flags} {a' : ABlob}
    (h : extractSeq (extract G n) cs (fl, a) = (.ok xs, (fl', a'))) :
    fl' = fl ∧ ∃ lss form txts, holes form = lss.flatten.length ∧
      List.Forall₂ (fun f ls => holes f = ls.length) txts lss ∧ lss.length = cs.length ∧
      a = fill form (tooks lss.flatten) ++ a' ∧ xs = List.zipWith fill txts (lss.map texts) ∧
      (∀ l ∈ lss.flatten, l.Good G fl (List.length a)) ∧
      ∀ lss', List.Forall₂ (List.Forall₂ Leaf.Alike) lss lss' → (∀ l ∈ lss'.flatten, l.Runs G fl) → ∀ a'' : ABlob,
        List.length a'' = List.length a' →
        extractSeq (extract G n) cs (fl, fill form (tooks lss'.flatten) ++ a'') =
          (.ok (List.zipWith fill txts (lss'.map texts)), (fl, a'')) := by
  induction cs generalizing a xs with
  | nil =>
    cases h
    exact ⟨rfl, [], [], [], rfl, .nil, rfl, rfl, rfl, (fun _ h => by cases h), fun lss' h _ a'' _ => by cases h; rfl⟩
  | cons i cs ihc =>
    unfold extractSeq at h
    obtain ⟨s, ⟨fl1, a1⟩, h1, h⟩ := M.bind_eq_ok.1 h
    obtain ⟨ss, s3, h3, h⟩ := M.bind_eq_ok.1 h
    cases h
    have ek : fl1 = fl := by
      have := keeps_extract (β := ABlob) G n i (fl, a) (.inl ⟨s, by rw [h1]⟩)
      rw [h1] at this
      exact this
    subst ek
    obtain ⟨ls, form, txt, g1, g2, g3, g4, g5, g6⟩ := ih i a s _ a1 h1
    obtain ⟨e3, lss, forms, txts, f1, f2, f3, f4, f5, f6, f7⟩ := ihc h3
    refine ⟨e3, ls :: lss, form ++ forms, txt :: txts, ?_, .cons g2 f2, by rw [List.length_cons, List.length_cons, f3], ?_, ?_, ?_, ?_⟩
    · rw [holes_append, g1, f1, List.flatten_cons, List.length_append]
    · rw [List.flatten_cons, tooks_append, fill_append _ _ _ _ (by rw [g1, tooks_length]), g3, f4, List.append_assoc]
    · rw [f5, g4]; rfl
    · have hl1 : List.length a1 ≤ List.length a := by rw [g3, List.length_append]; omega
      intro l hl
      rw [List.flatten_cons] at hl
      rcases List.mem_append.1 hl with hl | hl
      · exact g5 l hl
      · exact (f6 l hl).mono hl1
    · intro lss' hlss hr a'' ha
      cases hlss with
      | @cons _ ls' _ lss' k1 k2 =>
        rw [List.flatten_cons] at hr
        have el : List.length (fill forms (tooks lss'.flatten) ++ a'') = List.length a1 := by
          have : List.Forall₂ Leaf.Alike lss.flatten lss'.flatten := by
            clear f1 f2 f3 f4 f5 f6 f7 hr h3 ihc
            induction k2 with
            | nil => exact .nil
            | cons h _ ih => exact List.rel_append h ih
          rw [f4, List.length_append, List.length_append, (alike_tooks this).fill, ha]
        have r := g6 ls' k1 (fun l hl => hr l (List.mem_append_left _ hl)) _ el
        unfold extractSeq
        rw [List.flatten_cons, tooks_append, fill_append _ _ _ _ (by rw [g1, tooks_length, k1.length_eq]), List.append_assoc,
          M.bind_ok r, M.bind_ok (f7 lss' k2 (fun l hl => hr l (List.mem_append_right _ hl)) a'' ha)]
        rfl

/-- Texts of leaves that are alike: what is written is the same form. -/
theorem same_form {txts : List (List Cell)} {lss : List (List Leaf)} {join : List Bytes → Bytes}
    (hj : WritesForm join lss.length) (ht : List.Forall₂ (fun f ls => holes f = ls.length) txts lss) :
    ∃ txt, holes txt = lss.flatten.length ∧ ∀ lss', List.Forall₂ (List.Forall₂ Leaf.Alike) lss lss' ∨ lss' = lss →
      join (List.zipWith fill txts (lss'.map texts)) = fill txt (texts lss'.flatten) := by
  obtain ⟨c, hc, hw⟩ := hj ((List.zipWith fill txts (lss.map texts)).map List.isEmpty) (by
    rw [List.length_map, List.length_zipWith, List.length_map, ht.length_eq, Nat.min_self])
  refine ⟨insertForms c txts, ?_, fun lss' h => ?_⟩
  · rw [holes_insert (by rw [hc, ht.length_eq]), holes_sum ht]
  · have ht' : List.Forall₂ (fun f ls => holes f = ls.length) txts lss' := by
      rcases h with h | rfl
      · exact alike_holes ht h
      · exact ht
    rw [texts_flatten, fill_insert (by rw [hc, ht.length_eq]) (holes_texts ht')]
    refine hw _ ?_
    rcases h with h | rfl
    · clear hw hc c hj ht'
      induction ht generalizing lss' with
      | nil => cases h; rfl
      | @cons f ls txts lss h1 h2 ih =>
        cases h with
        | @cons _ ls' _ lss' k1 k2 =>
          show (fill f (texts ls')).isEmpty :: (List.zipWith fill txts (lss'.map texts)).map List.isEmpty =
            (fill f (texts ls)).isEmpty :: (List.zipWith fill txts (lss.map texts)).map List.isEmpty
          rw [ih _ k2]
          congr 1
          have := fill_empty (c := f) (alike_texts k1)
          rw [← List.isEmpty_iff, ← List.isEmpty_iff] at this
          exact Bool.eq_iff_iff.2 this
    · rfl

theorem fill_mem_le {c : List Cell} {xs : List Bytes} (h : holes c = xs.length) : ∀ x ∈ xs, x.length ≤ (fill c xs).length := by
  induction c generalizing xs with
  | nil =>
    cases xs with
    | nil => simp
    | cons => cases h
  | cons d c ih =>
    cases d with
    | fix b =>
      intro x hx
      have := ih h x hx
      show x.length ≤ (b ++ fill c xs).length
      rw [List.length_append]; omega
    | hole =>
      cases xs with
      | nil => cases h
      | cons y xs =>
        intro x hx
        show x.length ≤ (y ++ fill c xs).length
        rw [List.length_append]
        rcases List.mem_cons.1 hx with rfl | hx
        · omega
        · have := ih (Nat.succ.inj h) x hx; omega

theorem swap_pieces (ih : ∀ i a s fl' a', extract G n i (fl, a) = (.ok s, (fl', a')) → Swaps G fl n i a s a')
    {m : M ABlob (List ABlob)} (hm : CutsForm m) {a a1 : ABlob} {ps : List ABlob} (h1 : m a = (.ok ps, a1)) {ids : List Id}
    (hi : ids.length = ps.length) {xs : List Bytes} {s' : Flags × ABlob}
    (h : extractEach (extract G n) 0 (ids.zip ps) (fl, a1) = (.ok xs, s')) :
    s' = (fl, a1) ∧ ∃ lss form txts, holes form = lss.flatten.length ∧ List.Forall₂ (fun f ls => holes f = ls.length) txts lss ∧
      lss.length = ids.length ∧ a = fill form (tooks lss.flatten) ++ a1 ∧ xs = List.zipWith fill txts (lss.map texts) ∧
      (∀ l ∈ lss.flatten, l.Good G fl (List.length a)) ∧
      ∀ lss', List.Forall₂ (List.Forall₂ Leaf.Alike) lss lss' → (∀ l ∈ lss'.flatten, l.Runs G fl) → ∀ a'' : ABlob,
        List.length a'' = List.length a1 → ∃ ps', ps'.length = ids.length ∧
          m (fill form (tooks lss'.flatten) ++ a'') = (.ok ps', a'') ∧
          extractEach (extract G n) 0 (ids.zip ps') (fl, a'') = (.ok (List.zipWith fill txts (lss'.map texts)), (fl, a'')) := by
  obtain ⟨cc, c1, rfl, c3⟩ := hm _ _ _ h1
  have hN : ∀ p ∈ ids.zip ps, List.length p.2 ≤ List.length (fill cc ps ++ a1) := by
    intro p hp
    have := fill_mem_le c1 p.2 (List.of_mem_zip hp).2
    rw [List.length_append]
    exact le_trans this (by omega)
  obtain ⟨e4, lss, forms, txts, f1, f2, f3, f4, f5, f6, f7⟩ := swap_each ih _ hN 0 h
  rw [List.map_snd_zip (by omega)] at f4
  rw [List.map_fst_zip (by omega)] at f7
  have el : lss.length = ids.length := by rw [f3, List.length_zip]; omega
  have eh : holes cc = forms.length := by rw [c1, f1.length_eq, el, hi]
  refine ⟨e4, lss, insertForms cc forms, txts, ?_, f2, el, ?_, f5, f6, ?_⟩
  · rw [holes_insert eh, holes_sum f1]
  · rw [tooks_flatten, fill_insert eh (holes_tooks f1), ← f4]
  · intro lss' hl hr a'' ha
    have hh' := alike_holes f1 hl
    have sl : SameLen ps (List.zipWith fill forms (lss'.map tooks)) := by
      rw [f4]
      clear * - hl f1
      induction f1 generalizing lss' with
      | nil => cases hl; exact .nil
      | cons h1 _ ih =>
        cases hl with
        | cons k1 k2 => exact .cons ((alike_tooks k1).fill _) (ih _ k2)
    refine ⟨_, by rw [hi]; exact sl.length_eq.symm, ?_, f7 lss' hl hr a''⟩
    rw [tooks_flatten, fill_insert eh (holes_tooks hh')]
    exact c3 _ a'' sl ha

theorem ite_bindX {α γ : Type} {p : Prop} [Decidable p] (m k : XM ABlob α) (f : α → XM ABlob γ) :
    ((if p then m else k) >>= f) = if p then m >>= f else k >>= f := by split <;> rfl

/-- The choice of a lottery. -/
def lotChoice (G : Graph) (n : Nat) (rec4 : Bool) (stamps : List Id) (osz o : Nat) : XM ABlob Id := do
  let l1 ← lotFilter rec4 (sizeQ G n .min) (sizeQ G n .max) stamps
  let l ← (if l1.isEmpty then lotFilter false (sizeQ G n .min) (sizeQ G n .max) stamps else pure l1)
  if l.isEmpty then M.throwOOD
  else do
    let k ← M.lift (scaledIndex o (uMax osz) l.length)
    M.lift (vecGet l k)

/-- The choice of a picker. -/
def pickChoice (G : Graph) (n : Nat) (i : Id) (pool : List Id) (o : Nat) : XM ABlob Id := do
  let r ← pickFilter (sizeQ G n .min) (sizeQ G n .max) pool
  let l := if r.2.isEmpty then r.1 else r.2
  if l.isEmpty then do
    let mn ← liftF (sizeQ G (n + 1) .min i)
    let sz ← curSize
    if sz < toSz mn then M.throwOOD else M.out .abort
  else do
    let k ← M.lift (oracleProportion o 0 (toSz ((l.length : Int) - 1)))
    M.lift (vecGet l k)

theorem sized_lotChoice (rec4 : Bool) (stamps : List Id) (osz o : Nat) : Sized (lotChoice G n rec4 stamps osz o) := by
  refine .bind (sized_lotFilter _ _ _ _) fun _ => .bind (.ite (sized_lotFilter _ _ _ _) (.pure _)) fun _ => .ite ?_
    (.bind (.lift _) fun _ => .lift _)
  exact fun _ _ _ _ => rfl

theorem sized_pickChoice (i : Id) (pool : List Id) (o : Nat) : Sized (pickChoice G n i pool o) := by
  refine .bind (sized_pickFilter _ _ _) fun _ => .ite (.bind (.liftF _) fun _ => .bind .curSize fun _ => .ite ?_ ?_)
    (.bind (.lift _) fun _ => .lift _)
  · exact fun _ _ _ _ => rfl
  · exact fun _ _ _ _ => rfl

theorem extract_lottery_eq {i : Id} {rec4 : Bool} {stamps : List Id} {osz : Nat} {smin smax : Int}
    (hG : G i = some (.lottery rec4 stamps osz smin smax)) :
    (extract G (n + 1) i : XM ABlob Bytes) = liftB (uOracle osz) >>= fun o => lotChoice G n rec4 stamps osz o >>= extract G n := by
  unfold lotChoice
  conv_lhs => unfold extract
  rw [hG]
  simp only [M.bind_assoc, ite_bindX]
  rfl

theorem extract_picker_eq {i : Id} {pool : List Id} (hG : G i = some (.picker pool)) :
    (extract G (n + 1) i : XM ABlob Bytes) = liftB oracle >>= fun o => pickChoice G n i pool o >>= extract G n := by
  unfold pickChoice
  conv_lhs => unfold extract
  rw [hG]
  simp only [M.bind_assoc, ite_bindX]
  rfl

theorem liftB_run {α : Type} {m : M ABlob α} {b b1 : ABlob} {x : α} (h : m b = (.ok x, b1)) (fl : Flags) :
    liftB m (fl, b) = (.ok x, (fl, b1)) := by
  unfold liftB
  dsimp only
  rw [h]

theorem liftF_run {α : Type} {m : M Flags α} {x : α} (h : m fl = (.ok x, fl)) (b : ABlob) :
    liftF m (fl, b) = (.ok x, (fl, b)) := by
  unfold liftF
  dsimp only
  rw [h]

theorem swap_extract (hu : LocalUsers G) (hw : WriteForms G) (n : Nat) (i : Id) (a : ABlob) (s : Bytes) (fl' : Flags) (a' : ABlob)
    (h : extract G n i (fl, a) = (.ok s, (fl', a'))) : Swaps G fl n i a s a' := by
  induction n generalizing i a s fl' a' with
  | zero => cases h
  | succ n ih =>
    cases hG : G i with
    | none => unfold extract at h; rw [hG] at h; cases h
    | some nd =>
      by_cases hs : nd.single = true
      · obtain ⟨u, rfl, hr⟩ := single_steady hu hG hs h
        refine ⟨[⟨i, List.length a', u, s⟩], [.hole], [.hole], rfl, rfl, ?_, ?_, ?_, ?_⟩
        · show u ++ a' = u ++ [] ++ a'
          rw [List.append_nil]
        · show s = s ++ []
          rw [List.append_nil]
        · intro l hl
          rw [List.mem_singleton] at hl
          subst hl
          exact ⟨⟨nd, hG, hs⟩, hr, by rw [List.length_append]⟩
        · intro ls' hl hr' a'' ha
          cases hl with
          | @cons _ l' _ _ h1 h2 =>
            cases h2
            have := hr' l' List.mem_cons_self a'' (by rw [h1.room, ha]) n
            rw [h1.stamp] at this
            show extract G (n + 1) i (fl, (l'.took ++ []) ++ a'') = (.ok (l'.text ++ []), (fl, a''))
            rw [List.append_nil, List.append_nil]
            exact this
      · have hwi := hw i nd hG
        -- a stamp that reads a number, chooses by it and by sizes alone, and runs what it chose
        have choose : ∀ {m : M ABlob Nat} {f : Nat → XM ABlob Id}, Steady m → (∀ o, Sized (f o)) →
            (extract G (n + 1) i : XM ABlob Bytes) = (liftB m >>= fun o => f o >>= extract G n) →
            (∀ o s s' j, f o s = (.ok j, s') → s'.1 = s.1) → Swaps G fl (n + 1) i a s a' := by
          intro m f hm hf he hk
          rw [he] at h
          obtain ⟨o, ⟨fl1, a1⟩, h1, h⟩ := M.bind_eq_ok.1 h
          obtain ⟨j, ⟨fl2, a2⟩, h2, h3⟩ := M.bind_eq_ok.1 h
          obtain ⟨k1, e1⟩ := liftB_ok h1
          dsimp only at k1 e1
          subst e1
          have e2 : fl2 = fl1 := hk _ _ _ _ h2
          subst e2
          have e3 := hf o fl2 a1 a1 rfl
          rw [h2] at e3
          cases e3
          obtain ⟨u, rfl, hu1⟩ := hm _ _ _ k1
          obtain ⟨ls, form, txt, g1, g2, g3, g4, g5, g6⟩ := ih j a1 s fl' a' h3
          refine ⟨ls, .fix u :: form, txt, g1, g2, ?_, g4, fun l hl => (g5 l hl).mono (by rw [List.length_append]; omega), ?_⟩
          · show u ++ a1 = u ++ fill form (tooks ls) ++ a'
            rw [List.append_assoc, ← g3]
          · intro ls' hl hr a'' ha
            show extract G (n + 1) i (fl2, u ++ fill form (tooks ls') ++ a'') = _
            have el : List.length (fill form (tooks ls') ++ a'') = List.length a1 := by
              rw [g3, List.length_append, List.length_append, (alike_tooks hl).fill, ha]
            have e4 := hf o fl2 a1 _ el
            rw [h2] at e4
            rw [List.append_assoc, he, M.bind_ok (liftB_run (hu1 _ el) fl2), M.bind_ok e4]
            exact g6 ls' hl hr a'' ha
        cases nd with
        | vec c join =>
          unfold extract at h
          rw [hG] at h
          obtain ⟨mn, s1, h1, h⟩ := M.bind_eq_ok.1 h
          obtain ⟨mx, s2, h2, h⟩ := M.bind_eq_ok.1 h
          obtain ⟨ps, ⟨fl3, a3⟩, h3, h⟩ := M.bind_eq_ok.1 h
          obtain ⟨xs, s4, h4, h⟩ := M.bind_eq_ok.1 h
          cases h
          obtain ⟨q1, rfl⟩ := liftF_ok (keeps_sizeQ _ _ _ _) h1
          obtain ⟨q2, rfl⟩ := liftF_ok (keeps_sizeQ _ _ _ _) h2
          obtain ⟨q3, e3⟩ := liftB_ok h3
          dsimp only at q1 q2 q3 e3
          subst e3
          have em : ∀ l : List ABlob, (l.map fun b => (c, b)) = (List.replicate l.length c).zip l := by
            intro l
            induction l with
            | nil => rfl
            | cons x l ih => rw [List.map_cons, ih]; rfl
          rw [em] at h4
          obtain ⟨e4, lss, form, txts, f1, f2, f3, f4, f5, f6, f7⟩ := swap_pieces ih (form_vecSplit n mn mx) q3
            (List.length_replicate) h4
          cases e4
          rw [List.length_replicate] at f3 f7
          obtain ⟨txt, t1, t2⟩ := same_form (hwi lss.length) f2
          refine ⟨lss.flatten, form, txt, f1, t1, f4, ?_, f6, ?_⟩
          · rw [f5]
            exact t2 lss (.inr rfl)
          · intro ls' hls hr a'' ha
            obtain ⟨lss', rfl, hl⟩ := alike_flatten hls
            obtain ⟨ps', k1, k2, k3⟩ := f7 lss' hl hr a'' ha
            rw [← k1, ← em] at k3
            rw [← t2 lss' (.inl hl)]
            unfold extract
            rw [hG]
            dsimp only
            rw [M.bind_ok (liftF_run q1 _), M.bind_ok (liftF_run q2 _), M.bind_ok (liftB_run k2 _), M.bind_ok k3]
            rfl
        | set cs join unb =>
          unfold extract at h
          rw [hG] at h
          obtain ⟨mns, s1, h1, h⟩ := M.bind_eq_ok.1 h
          obtain ⟨mxs, s2, h2, h⟩ := M.bind_eq_ok.1 h
          obtain ⟨ps, ⟨fl3, a3⟩, h3, h⟩ := M.bind_eq_ok.1 h
          obtain ⟨xs, s4, h4, h⟩ := M.bind_eq_ok.1 h
          cases h
          obtain ⟨q1, rfl⟩ := liftF_ok (keeps_queryAll (keeps_sizeQ _ _ _) _) h1
          obtain ⟨q2, rfl⟩ := liftF_ok (keeps_queryAll (keeps_sizeQ _ _ _) _) h2
          obtain ⟨q3, e3⟩ := liftB_ok h3
          dsimp only at q1 q2 q3 e3
          subst e3
          have hl : cs.length = ps.length := by
            rw [setSplit_length q3, List.length_zip, ← (queryAll_ok (keeps_sizeQ _ _ _) q1).2.length_eq,
              ← (queryAll_ok (keeps_sizeQ _ _ _) q2).2.length_eq, Nat.min_self]
          obtain ⟨e4, lss, form, txts, f1, f2, f3, f4, f5, f6, f7⟩ := swap_pieces ih (form_setSplit _) q3 hl h4
          cases e4
          have hwi : WritesForm join cs.length := hwi
          rw [← f3] at hwi
          obtain ⟨txt, t1, t2⟩ := same_form hwi f2
          refine ⟨lss.flatten, form, txt, f1, t1, f4, ?_, f6, ?_⟩
          · rw [f5]
            exact t2 lss (.inr rfl)
          · intro ls' hls hr a'' ha
            obtain ⟨lss', rfl, hl⟩ := alike_flatten hls
            obtain ⟨ps', k1, k2, k3⟩ := f7 lss' hl hr a'' ha
            rw [← t2 lss' (.inl hl)]
            unfold extract
            rw [hG]
            dsimp only
            rw [M.bind_ok (liftF_run q1 _), M.bind_ok (liftF_run q2 _), M.bind_ok (liftB_run k2 _), M.bind_ok k3]
            rfl
        | seq cs join unb =>
          unfold extract at h
          rw [hG] at h
          obtain ⟨xs, ⟨fl4, a4⟩, h4, h⟩ := M.bind_eq_ok.1 h
          cases h
          obtain ⟨rfl, lss, form, txts, f1, f2, f3, f4, f5, f6, f7⟩ := swap_seq ih cs h4
          have hwi : WritesForm join cs.length := hwi
          rw [← f3] at hwi
          obtain ⟨txt, t1, t2⟩ := same_form hwi f2
          refine ⟨lss.flatten, form, txt, f1, t1, f4, ?_, f6, ?_⟩
          · rw [f5]
            exact t2 lss (.inr rfl)
          · intro ls' hls hr a'' ha
            obtain ⟨lss', rfl, hl⟩ := alike_flatten hls
            rw [← t2 lss' (.inl hl)]
            unfold extract
            rw [hG]
            dsimp only
            rw [M.bind_ok (f7 lss' hl hr a'' ha)]
            rfl
        | unary op c =>
          unfold extract at h
          rw [hG] at h
          obtain ⟨x, ⟨fl4, a4⟩, h4, h⟩ := M.bind_eq_ok.1 h
          cases h
          obtain ⟨ls, form, txt, g1, g2, g3, g4, g5, g6⟩ := ih c a x _ _ h4
          have et : ∀ ls' : List Leaf, ls'.length = ls.length →
              fill (.fix (op ++ [40]) :: (txt ++ [.fix [41]])) (texts ls') = unaryText op (fill txt (texts ls')) := by
            intro ls' hl
            have := fill_append txt [.fix [41]] (texts ls') [] (by rw [g2, texts_length, hl])
            rw [List.append_nil] at this
            show (op ++ [40]) ++ fill (txt ++ [.fix [41]]) (texts ls') = _
            rw [this]
            simp [fill, unaryText]
          refine ⟨ls, form, .fix (op ++ [40]) :: (txt ++ [.fix [41]]), g1, ?_, g3, ?_, g5, ?_⟩
          · show holes (txt ++ [.fix [41]]) = _
            rw [holes_append, g2]; rfl
          · rw [et ls rfl, ← g4]
          · intro ls' hl hr a'' ha
            rw [et ls' hl.length_eq.symm]
            unfold extract
            rw [hG]
            dsimp only
            rw [M.bind_ok (g6 ls' hl hr a'' ha)]
            rfl
        | lottery rec4 stamps osz smin smax =>
          refine choose (.uOracle _) (fun o => sized_lotChoice rec4 stamps osz o) (extract_lottery_eq hG) ?_
          intro o s s' j hc
          unfold lotChoice at hc
          obtain ⟨l1, s1, h1, hb⟩ := M.bind_eq_ok.1 hc
          obtain ⟨l, s2, h2, hd⟩ := M.bind_eq_ok.1 hb
          have e1 := (lotFilter_ok (keeps_sizeQ G n .min) (keeps_sizeQ G n .max) h1).1
          subst e1
          have e2 : s2 = s1 := by
            split at h2
            · exact (lotFilter_ok (keeps_sizeQ G n .min) (keeps_sizeQ G n .max) h2).1
            · exact (Prod.mk.inj h2).2.symm
          subst e2
          split at hd
          · cases hd
          · obtain ⟨k, s3, h3, he⟩ := M.bind_eq_ok.1 hd
            have e3 := (Prod.mk.inj h3).2
            have e4 := (Prod.mk.inj he).2
            rw [← e4, ← e3]
        | picker pool =>
          refine choose .oracle (fun o => sized_pickChoice i pool o) (extract_picker_eq hG) ?_
          intro o s s' j hc
          unfold pickChoice at hc
          obtain ⟨l1, s1, h1, hd⟩ := M.bind_eq_ok.1 hc
          have e1 := (pickFilter_ok (keeps_sizeQ G n .min) (keeps_sizeQ G n .max) h1).1
          subst e1
          generalize (if l1.2.isEmpty = true then l1.1 else l1.2) = l at hd
          split at hd
          · obtain ⟨mn, s3, h3, hf⟩ := M.bind_eq_ok.1 hd
            obtain ⟨sz, s4, h4, hg⟩ := M.bind_eq_ok.1 hf
            split at hg <;> cases hg
          · obtain ⟨k, s3, h3, he⟩ := M.bind_eq_ok.1 hd
            have e3 := (Prod.mk.inj h3).2
            have e4 := (Prod.mk.inj he).2
            rw [← e4, ← e3]
        | _ => exact absurd rfl hs

end

end BS
