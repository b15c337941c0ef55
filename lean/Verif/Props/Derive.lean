import Verif.Spec.Derive
import Verif.Props.Compose
import Verif.Props.Safety
import Verif.Props.Dict
import Verif.Expr

/-!
# C74: every text is put together from the texts of single stamps, each made from its own bytes
-/

namespace BS

theorem Apart.prepend {ps : List Bytes} {d : Bytes} (u : Bytes) (h : Apart ps d) : Apart ps (u ++ d) := by
  cases h with
  | nil => exact .nil _
  | cons skip p h => rw [← List.append_assoc, ← List.append_assoc]; exact .cons _ _ h

theorem Apart.append {ps qs : List Bytes} {d e : Bytes} (h : Apart ps d) (h' : Apart qs e) : Apart (ps ++ qs) (d ++ e) := by
  induction h with
  | nil d => exact h'.prepend _
  | cons skip p h ih =>
    rw [List.cons_append, List.append_assoc (skip ++ p)]
    exact .cons _ _ ih

theorem Apart.right {ps : List Bytes} {d : Bytes} (e : Bytes) (h : Apart ps d) : Apart ps (d ++ e) := by
  have := h.append (.nil e)
  rwa [List.append_nil] at this

/-- Pieces of pieces. -/
theorem Apart.nested {us : List (List Bytes)} {ps : List Bytes} {d : Bytes} (h : Apart ps d)
    (hp : List.Forall₂ Apart us ps) : Apart us.flatten d := by
  induction h generalizing us with
  | nil => cases hp; exact .nil _
  | cons skip p h ih =>
    cases hp with
    | cons h1 h2 =>
      rw [List.flatten_cons, List.append_assoc]
      exact (h1.append (ih h2)).prepend _

theorem Apart.length_le {ps : List Bytes} {d : Bytes} (h : Apart ps d) : ∀ p ∈ ps, p.length ≤ d.length := by
  induction h with
  | nil => simp
  | cons skip p h ih =>
    intro q hq
    rw [List.length_append, List.length_append]
    rcases List.mem_cons.1 hq with rfl | hq
    · omega
    · have := ih q hq; omega

/-! ## Splitting -/

/-- On success, what is left is a suffix. -/
def Eats {α : Type} (m : M ABlob α) : Prop := ∀ a x a', m a = (.ok x, a') → ∃ u, a = u ++ a'

/-- On success, the pieces lie one after the other in what was used. -/
def Cuts (m : M ABlob (List ABlob)) : Prop := ∀ a l a', m a = (.ok l, a') → ∃ u, a = u ++ a' ∧ Apart l u

namespace Eats
variable {α γ : Type}
theorem pure (x : α) : Eats (Pure.pure x) := by intro a y a' h; cases h; exact ⟨[], rfl⟩
theorem lift (o : Out α) : Eats (M.lift o) := by intro a y a' h; cases h; exact ⟨[], rfl⟩
theorem get : Eats M.get := by intro a y a' h; cases h; exact ⟨[], rfl⟩
theorem bind {m : M ABlob α} {f : α → M ABlob γ} (h : Eats m) (hf : ∀ x, Eats (f x)) : Eats (m >>= f) := by
  intro a y a' e
  obtain ⟨x, a1, h1, h2⟩ := M.bind_eq_ok.1 e
  obtain ⟨u, rfl⟩ := h _ _ _ h1
  obtain ⟨v, rfl⟩ := hf x _ _ _ h2
  exact ⟨u ++ v, by rw [List.append_assoc]⟩
theorem ite {c : Prop} [Decidable c] {m n : M ABlob α} (h : Eats m) (h' : Eats n) :
    Eats (if c then m else n) := by split <;> assumption
theorem chop (k : Nat) : Eats (BlobLike.chop k : M ABlob ABlob) := by
  intro a y a' h
  rw [chop_abs] at h
  split at h
  · cases h
  · cases h; exact ⟨a.take k, (List.take_append_drop k a).symm⟩
theorem oracle : Eats (BS.oracle : M ABlob Nat) := by
  refine .bind (.bind (.chop _) fun _ => .bind (.lift _) fun _ => .pure _) fun v => ?_
  cases v <;> exact .pure _
end Eats

namespace Cuts
variable {α : Type}
theorem nil : Cuts (Pure.pure []) := by intro a l a' h; cases h; exact ⟨[], rfl, .nil _⟩
theorem out {o : Out (List ABlob)} (h : ∀ l, o ≠ .ok l) : Cuts (M.out o) := by
  intro a l a' e; cases e; exact absurd rfl (h l)
theorem bind {m : M ABlob α} {f : α → M ABlob (List ABlob)} (h : Eats m) (hf : ∀ x, Cuts (f x)) : Cuts (m >>= f) := by
  intro a y a' e
  obtain ⟨x, a1, h1, h2⟩ := M.bind_eq_ok.1 e
  obtain ⟨u, rfl⟩ := h _ _ _ h1
  obtain ⟨v, rfl, hv⟩ := hf x _ _ _ h2
  exact ⟨u ++ v, by rw [List.append_assoc], hv.prepend u⟩
theorem ite {c : Prop} [Decidable c] {m n : M ABlob (List ABlob)} (h : Cuts m) (h' : Cuts n) :
    Cuts (if c then m else n) := by split <;> assumption
theorem cons {r : M ABlob (List ABlob)} (k : Nat) (h : Cuts r) :
    Cuts (BlobLike.chop k >>= fun c => r >>= fun l => Pure.pure (c :: l)) := by
  intro a y a' e
  obtain ⟨c, a1, h1, e⟩ := M.bind_eq_ok.1 e
  obtain ⟨l, a2, h2, e⟩ := M.bind_eq_ok.1 e
  cases e
  obtain ⟨v, rfl, hv⟩ := h _ _ _ h2
  rw [chop_abs] at h1
  split at h1
  · cases h1
  · injection h1 with h1 h1'
    cases h1
    refine ⟨a.take k ++ v, ?_, Apart.cons [] _ hv⟩
    rw [List.append_assoc, ← h1', List.take_append_drop]
end Cuts

theorem cuts_fixedLoop (n : Nat) (mn : Int) : Cuts (fixedLoop n mn) := by
  induction n with
  | zero => exact .out (by simp)
  | succ n ih => exact .bind .get fun _ => .ite (.cons _ ih) .nil

theorem eats_sizeOracles (n : Nat) (t : Int) : Eats (sizeOracles n t) := by
  induction n generalizing t with
  | zero => exact .pure _
  | succ n ih => exact .bind .oracle fun _ => .bind (.lift _) fun _ => .bind (ih _) fun _ => .pure _

theorem cuts_unbChopLoop (mn total var : Int) (os : List Nat) (r : FV) : Cuts (unbChopLoop mn total var os r) := by
  induction os generalizing r with
  | nil => exact .nil
  | cons o os ih => exact .bind (.lift _) fun _ => .cons _ (ih _)

theorem cuts_vecUnbounded (mn : Int) : Cuts (vecUnbounded mn) := by
  unfold vecUnbounded
  exact .bind .get fun _ => .ite (.out (by simp)) (.bind .oracle fun _ => .bind (eats_sizeOracles _ _) fun _ =>
    .bind .get fun _ => .bind (.lift _) fun _ => .bind (.lift _) fun _ => cuts_unbChopLoop _ _ _ _ _)

theorem cuts_variatedLoop (n : Nat) (mn mx : Int) : Cuts (variatedLoop n mn mx) := by
  induction n with
  | zero => exact .out (by simp)
  | succ n ih =>
    exact .bind (.lift _) fun _ => .bind .get fun _ => .ite .nil (.bind .oracle fun _ => .bind (.lift _) fun _ =>
      .bind .get fun _ => .cons _ ih)

theorem cuts_vecSplit (n : Nat) (mn mx : Int) : Cuts (vecSplit n mn mx) := by
  unfold vecSplit
  exact .bind .get fun _ => .ite (.out (by simp)) (.ite (cuts_fixedLoop _ _) (.ite (cuts_vecUnbounded _)
    (.bind (.lift _) fun _ => cuts_variatedLoop _ _ _)))

theorem eats_setModLoop (nUnb : Nat) (ss : List SizePair) (p u : FV) : Eats (setModLoop nUnb ss p u) := by
  induction ss generalizing p u with
  | nil => exact .pure _
  | cons s ss ih =>
    exact .ite (.bind (ih _ _) fun _ => .pure _) (.ite (.ite (.bind (ih _ _) fun _ => .pure _)
      (.bind .oracle fun _ => .bind (ih _ _) fun _ => .pure _)) (.bind .oracle fun _ => .bind (.lift _) fun _ =>
      .bind (ih _ _) fun _ => .pure _))

theorem cuts_setChopLoop (kv ku : FV) (ss : List SizePair) (ms : List FV) (v u : FV) :
    Cuts (setChopLoop kv ku ss ms v u) := by
  induction ss generalizing ms v u with
  | nil => unfold setChopLoop; exact .nil
  | cons s ss ih =>
    cases ms with
    | nil => unfold setChopLoop; exact .nil
    | cons m ms =>
      unfold setChopLoop
      exact .ite (.bind (.lift _) fun _ => .bind (.lift _) fun _ => .cons _ (ih _ _ _)) (.ite (.cons _ (ih _ _ _))
        (.bind (.lift _) fun _ => .bind (.lift _) fun _ => .bind (.lift _) fun _ => .cons _ (ih _ _ _)))

theorem cuts_setSplit (ss : List SizePair) : Cuts (setSplit ss) := by
  unfold setSplit setLimit
  exact .bind (.lift _) fun _ => .bind .get fun _ => .ite (.out (by simp)) (.bind
    (.ite (.bind .oracle fun _ => .bind (.lift _) fun _ => .pure _) (.pure _)) fun _ =>
    .bind (eats_setModLoop _ _ _ _) fun _ => .bind (.lift _) fun _ => .bind (.lift _) fun _ =>
      cuts_setChopLoop _ _ _ _ _ _)

theorem eats_uOracle (k : Nat) : Eats (uOracle k : M ABlob Nat) := by
  unfold uOracle
  cases uOracleTy k with
  | none => intro a x a' h; cases h
  | some ty =>
    refine .bind (.bind (.chop _) fun _ => .bind (.lift _) fun _ => .pure _) fun v => ?_
    cases v <;> exact .pure _

/-! ## Runs -/

section
variable {G : Graph} {fl : Flags}

/-- A relation between object, data, text and what is left that all ways of making stamps of stamps preserve holds
of every run. -/
theorem run_induct (Q : Id → ABlob → Bytes → ABlob → Prop)
    (single : ∀ {i nd a s a'}, G i = some nd → nd.single = true → ARun G fl i a (.ok s) a' → Q i a s a')
    (list : ∀ {i c join ps u a' xs}, G i = some (.vec c join) → Apart ps u →
      List.Forall₂ (fun p x => ∃ l, Q c p x l) ps xs → Q i (u ++ a') (join xs) a')
    (set : ∀ {i cs join unb ps u a' xs}, G i = some (.set cs join unb) → Apart ps u → ps.length = cs.length →
      List.Forall₂ (fun (q : Id × Bytes) x => ∃ l, Q q.1 q.2 x l) (cs.zip ps) xs → Q i (u ++ a') (join xs) a')
    (seq : ∀ {i cs join unb a xs a'}, G i = some (.seq cs join unb) →
      (∀ (R : List Id → ABlob → List Bytes → ABlob → Prop), (∀ a, R [] a [] a) →
        (∀ {i is a a' a'' x xs}, Q i a x a' → R is a' xs a'' → R (i :: is) a (x :: xs) a'') → R cs a xs a') →
      Q i a (join xs) a')
    (unary : ∀ {i op c a x a'}, G i = some (.unary op c) → Q c a x a' → Q i a (op ++ [40] ++ x ++ [41]) a')
    (lottery : ∀ {i rec4 stamps osz smin smax j u a x a'}, G i = some (.lottery rec4 stamps osz smin smax) →
      j ∈ stamps → Q j a x a' → Q i (u ++ a) x a')
    (picker : ∀ {i pool j u a x a'}, G i = some (.picker pool) → j ∈ pool → Q j a x a' → Q i (u ++ a) x a')
    {i : Id} {a a' : ABlob} {s : Bytes} (h : ARun G fl i a (.ok s) a') : Q i a s a' := by
  obtain ⟨n, h⟩ := h
  induction n generalizing i a a' s with
  | zero => cases h
  | succ n ih =>
    cases hG : G i with
    | none => unfold extract at h; rw [hG] at h; cases h
    | some nd =>
      by_cases hs : nd.single = true
      · exact single hG hs ⟨n + 1, h⟩
      · cases nd with
        | vec c join =>
          obtain ⟨mn, mx, ps, xs, -, -, -, h1, h2, rfl⟩ := extract_vec_ok hG h
          obtain ⟨u, rfl, hu⟩ := cuts_vecSplit _ _ _ _ _ _ h1
          exact list hG hu (h2.imp fun _ _ ⟨l, hl⟩ => ⟨l, ih hl⟩)
        | set cs join unb =>
          obtain ⟨mns, mxs, ps, xs, -, h1, h2, h3, h4, rfl⟩ := extract_set_ok hG h
          have hl : ps.length = cs.length := by rw [setSplit_length h3, (haveSizes_of h1 h2).length_eq]
          obtain ⟨u, rfl, hu⟩ := cuts_setSplit _ _ _ _ h3
          exact set hG hu hl (h4.imp fun _ _ ⟨l, hl⟩ => ⟨l, ih hl⟩)
        | seq cs join unb =>
          obtain ⟨xs, -, h1, rfl⟩ := extract_seq_ok hG h
          refine seq hG fun R hnil hcons => ?_
          clear hG h hs
          induction h1 with
          | nil b => exact hnil b
          | cons h _ ih' => exact hcons (ih h) ih'
        | unary op c =>
          obtain ⟨x, -, h1, rfl⟩ := extract_unary_ok hG h
          exact unary hG (ih h1)
        | lottery rec4 stamps osz smin smax =>
          obtain ⟨o, b1, j, mn, -, h1, hj, -, -, h2⟩ := extract_lottery_ok hG h
          obtain ⟨u, rfl⟩ := eats_uOracle _ _ _ _ h1
          exact lottery hG hj (ih h2)
        | picker pool =>
          obtain ⟨o, b1, j, mn, -, h1, hj, -, -, h2, -⟩ := extract_picker_ok hG h
          obtain ⟨u, rfl⟩ := Eats.oracle _ _ _ h1
          exact picker hG hj (ih h2)
        | _ => exact absurd rfl hs

/-! ## C74 -/

/-- The stamp makes the text from exactly the bytes it took, when `more` follows. -/
def Use.Real (G : Graph) (fl : Flags) (u : Use) : Prop :=
  ∃ more, ARun G fl u.stamp (u.took ++ more) (.ok u.text) more

/-- What C74 says about one run. -/
def Made (G : Graph) (fl : Flags) (i : Id) (a : ABlob) (s : Bytes) (a' : ABlob) : Prop :=
  ∃ us used, a = used ++ a' ∧ Composed G i us s ∧ Apart (us.map Use.took) used ∧ ∀ u ∈ us, u.Real G fl

theorem made_zip {cs : List Id} {ps : List Bytes} {xs : List Bytes} (hl : ps.length = cs.length)
    (h : List.Forall₂ (fun (q : Id × Bytes) x => ∃ l, Made G fl q.1 q.2 x l) (cs.zip ps) xs) {d : Bytes}
    (hd : Apart ps d) : ∃ us, ComposedAll G cs us xs ∧ Apart (us.map Use.took) d ∧ ∀ u ∈ us, u.Real G fl := by
  induction cs generalizing ps xs d with
  | nil => cases h; exact ⟨[], .nil, .nil _, by simp⟩
  | cons c cs ih =>
    cases hd with
    | nil => simp at hl
    | @cons skip p ps rest hd =>
      rw [List.zip_cons_cons] at h
      cases h with
      | @cons _ x _ xs h1 h2 =>
        obtain ⟨l, us, used, e, m1, m2, m3⟩ := h1
        dsimp only at e m1
        obtain ⟨vs, k1, k2, k3⟩ := ih (by simpa using hl) h2 hd
        refine ⟨us ++ vs, .cons m1 k1, ?_, ?_⟩
        · rw [List.map_append, e, List.append_assoc skip]
          exact ((m2.right l).append k2).prepend skip
        · intro u hu
          rcases List.mem_append.1 hu with hu | hu
          · exact m3 u hu
          · exact k3 u hu

theorem made_run {i : Id} {a a' : ABlob} {s : Bytes} (h : ARun G fl i a (.ok s) a') : Made G fl i a s a' := by
  refine run_induct (Made G fl) ?_ ?_ ?_ ?_ ?_ ?_ ?_ h
  · intro i nd a s a' hG hn h
    obtain ⟨n, h⟩ := h
    have := suf_extract G n i (fl, a)
    rw [h] at this
    obtain ⟨took, rfl⟩ := this
    refine ⟨[⟨i, took, s⟩], took, rfl, .single ⟨i, took, s⟩ hG hn, ?_, ?_⟩
    · have := Apart.cons [] took (.nil [])
      simpa using this
    · intro u hu
      rw [List.mem_singleton] at hu
      subst hu
      exact ⟨a', n, h⟩
  · intro i c join ps u a' xs hG hu h
    have e : List.Forall₂ (fun (q : Id × Bytes) x => ∃ l, Made G fl q.1 q.2 x l) ((List.replicate ps.length c).zip ps) xs := by
      clear hu
      induction h with
      | nil => exact .nil
      | cons h _ ih => exact .cons h ih
    obtain ⟨us, k1, k2, k3⟩ := made_zip (by simp) e hu
    exact ⟨us, u, rfl, .list hG k1, k2, k3⟩
  · intro i cs join unb ps u a' xs hG hu hl h
    obtain ⟨us, k1, k2, k3⟩ := made_zip hl h hu
    exact ⟨us, u, rfl, .set hG k1, k2, k3⟩
  · intro i cs join unb a xs a' hG h
    have := h (fun cs a xs a' => ∃ us used, a = used ++ a' ∧ ComposedAll G cs us xs ∧ Apart (us.map Use.took) used ∧
      ∀ u ∈ us, u.Real G fl) (fun a => ⟨[], [], rfl, .nil, .nil _, by simp⟩) (by
        rintro i is a a' a'' x xs ⟨us, used, rfl, m1, m2, m3⟩ ⟨vs, used', rfl, k1, k2, k3⟩
        refine ⟨us ++ vs, used ++ used', by rw [List.append_assoc], .cons m1 k1, ?_, ?_⟩
        · rw [List.map_append]; exact m2.append k2
        · intro u hu
          rcases List.mem_append.1 hu with hu | hu
          · exact m3 u hu
          · exact k3 u hu)
    obtain ⟨us, used, e, k1, k2, k3⟩ := this
    exact ⟨us, used, e, .seq hG k1, k2, k3⟩
  · rintro i op c a x a' hG ⟨us, used, e, m1, m2, m3⟩
    exact ⟨us, used, e, .unary hG m1, m2, m3⟩
  · rintro i rec4 stamps osz smin smax j u a x a' hG hj ⟨us, used, rfl, m1, m2, m3⟩
    exact ⟨us, u ++ used, by rw [List.append_assoc], .lottery hG hj m1, m2.prepend u, m3⟩
  · rintro i pool j u a x a' hG hj ⟨us, used, rfl, m1, m2, m3⟩
    exact ⟨us, u ++ used, by rw [List.append_assoc], .picker hG hj m1, m2.prepend u, m3⟩

end

/-- **C74**: the text of any stamp, over any grammar, is put together from the texts of single stamps in the way
the grammar says. Each of these texts was made from bytes of its own: the stamp makes it from exactly these bytes,
and the bytes of different uses do not overlap and lie in the used part of the data in the order of the texts. -/
theorem C74_composed {G : Graph} {fl : Flags} {i : Id} {b : Blob} {bs s left : Bytes} (hr : Reachable b)
    (hh : Holds b bs) (h : Returns G fl i b s left) :
    ∃ us used, bs = used ++ left ∧ Composed G i us s ∧ Apart (us.map Use.took) used ∧
      ∀ u ∈ us, ∃ more, ∀ b', Reachable b' → Holds b' (u.took ++ more) → Returns G fl u.stamp b' u.text more := by
  obtain ⟨us, used, e, h1, h2, h3⟩ := made_run ((returns_iff hr hh).1 h)
  refine ⟨us, used, e, h1, h2, fun u hu => ?_⟩
  obtain ⟨more, hm⟩ := h3 u hu
  exact ⟨more, fun b' hr' hh' => (returns_iff hr' hh').2 hm⟩

/-- What is put together from a number made of the byte 7 and one made of the byte 12 by the expression stamp. -/
example : Composed (exprGraph exampleOps 5) 0 [⟨1, [7], str "7"⟩, ⟨1, [12], str "12"⟩] (str "(7 + 12)") := by
  have h7 : Composed (exprGraph exampleOps 5) 0 [⟨1, [7], str "7"⟩] (str "7") :=
    .lottery rfl (by decide) (.single ⟨1, [7], str "7"⟩ rfl rfl)
  have h12 : Composed (exprGraph exampleOps 5) 0 [⟨1, [12], str "12"⟩] (str "12") :=
    .lottery rfl (by decide) (.single ⟨1, [12], str "12"⟩ rfl rfl)
  exact .lottery (j := 3) rfl (by decide) (.set (cs := [0, 0]) (join := binaryText (str "+")) (unb := true) rfl (.cons h7 (.cons h12 .nil)))

/-- Pieces that lie apart, pieces that would overlap, and pieces in the wrong order. -/
example : Apart [[7], [12, 13]] [0, 7, 0, 12, 13] ∧ ¬ Apart [[7], [7]] [0, 7] ∧ ¬ Apart [[12], [7]] [7, 12] := by
  refine ⟨.cons [0] [7] (.cons [0] [12, 13] (.nil [])), ?_, ?_⟩
  · intro h
    generalize hd : ([0, 7] : Bytes) = d at h
    have := congrArg List.length hd
    cases h with
    | cons skip p h =>
      cases h with
      | cons skip' p' h =>
        match skip, hd with
        | [], hd => simp at hd
        | [_], hd => simp at hd
        | _ :: _ :: _, _ => simp at this
  · intro h
    generalize hd : ([7, 12] : Bytes) = d at h
    have := congrArg List.length hd
    cases h with
    | cons skip p h =>
      cases h with
      | cons skip' p' h =>
        match skip, hd with
        | [], hd => simp at hd
        | [_], hd => simp at hd
        | _ :: _ :: _, _ => simp at this

/-- **C74**, rule: to show that all texts of a grammar have a property it is enough to look at the single stamps and
at each way of putting texts together once. -/
theorem C74_rule {G : Graph} {fl : Flags} {P : Id → Bytes → Prop} (hP : Inherited G fl P) {i : Id} {b : Blob}
    {s left : Bytes} (hr : Reachable b) (h : Returns G fl i b s left) : P i s := by
  have hh : Holds b b.abs := (holds_iff hr.valid _).2 rfl
  have hlen := holds_length_lt hr.valid hh
  refine (run_induct (G := G) (fl := fl)
    (fun i a s a' => a.length < 9223372036854775808 → P i s ∧ a'.length < 9223372036854775808)
    ?_ ?_ ?_ ?_ ?_ ?_ ?_ ((returns_iff hr hh).1 h) hlen).1
  · intro i nd a s a' hG hn h hl
    obtain ⟨b, hr, hh⟩ := exists_blob hl
    refine ⟨hP.single hG hn hr ((returns_iff hr hh).2 h), ?_⟩
    obtain ⟨n, h⟩ := h
    have := (suf_extract G n i (fl, a)).length_le
    rw [h] at this
    exact lt_of_le_of_lt this hl
  · intro i c join ps u a' xs hG hu h hl
    rw [List.length_append] at hl
    refine ⟨hP.list hG ?_, by omega⟩
    replace hu := hu.length_le
    clear hG
    induction h with
    | nil => simp
    | cons h _ ih =>
      obtain ⟨l, h⟩ := h
      rw [List.forall_mem_cons] at hu
      intro x hx
      rcases List.mem_cons.1 hx with rfl | hx
      · exact (h (by omega)).1
      · exact ih hu.2 x hx
  · intro i cs join unb ps u a' xs hG hu hl h hb
    rw [List.length_append] at hb
    refine ⟨hP.set hG ?_, by omega⟩
    replace hu := hu.length_le
    clear hG
    induction cs generalizing ps xs with
    | nil => cases h; exact .nil
    | cons c cs ih =>
      cases ps with
      | nil => simp at hl
      | cons p ps =>
        rw [List.zip_cons_cons] at h
        rw [List.forall_mem_cons] at hu
        cases h with
        | cons h1 h2 =>
          obtain ⟨l, h1⟩ := h1
          exact .cons (h1 (by dsimp only; omega)).1 (ih (by simpa using hl) h2 hu.2)
  · intro i cs join unb a xs a' hG h hl
    obtain ⟨h1, h2⟩ := h (fun cs a xs a' => a.length < 9223372036854775808 → List.Forall₂ P cs xs ∧
      a'.length < 9223372036854775808) (fun a hl => ⟨.nil, hl⟩) (by
        intro i is a a' a'' x xs hx hxs hl
        obtain ⟨k1, k2⟩ := hx hl
        obtain ⟨k3, k4⟩ := hxs k2
        exact ⟨.cons k1 k3, k4⟩) hl
    exact ⟨hP.seq hG h1, h2⟩
  · intro i op c a x a' hG h hl
    exact ⟨hP.unary hG (h hl).1, (h hl).2⟩
  · intro i rec4 stamps osz smin smax j u a x a' hG hj h hl
    rw [List.length_append] at hl
    have h := h (by omega)
    exact ⟨hP.lottery hG hj h.1, h.2⟩
  · intro i pool j u a x a' hG hj h hl
    rw [List.length_append] at hl
    have h := h (by omega)
    exact ⟨hP.picker hG hj h.1, h.2⟩

/-- A grammar that refers to itself: a word, a function of an expression, or a list of expressions. -/
def balancedExample : Graph
  | 0 => some (.lottery true [1, 2, 3] 1 1 (-1))
  | 1 => some (.dict [str "x", str "y"])
  | 2 => some (.unary (str "sin") 0)
  | 3 => some (.enumerator 0 (str ", ") (str "(") (str ")"))
  | _ => none

/-- All its texts have as many opening as closing brackets. -/
example {b : Blob} {s left : Bytes} (hr : Reachable b) (h : Returns balancedExample Flags.init 0 b s left) :
    s.count 40 = s.count 41 := by
  refine C74_rule (P := fun _ s => s.count 40 = s.count 41) ⟨?_, ?_, ?_, ?_, ?_, ?_, ?_⟩ hr h
  · intro i nd b s left hG hn hr h
    match i, hG with
    | 0, hG => cases hG; cases hn
    | 1, _ =>
      have hh : Holds b b.abs := (holds_iff hr.valid _).2 rfl
      obtain ⟨k, -, -, hk⟩ := C12_dict_picks_word (G := balancedExample) (i := 1) (ws := [str "x", str "y"]) rfl
        (by decide) (by decide) Flags.init
      obtain ⟨h1, h2⟩ := hk b _ hr hh
      by_cases hl : b.abs.length < k
      · obtain ⟨b1, hx, -⟩ := h1 hl
        obtain ⟨b2, hy, -⟩ := h
        cases (hx.unique hy).1
      · obtain ⟨w, hw, b1, hx, -⟩ := h2 (by omega)
        obtain ⟨b2, hy, -⟩ := h
        cases (hx.unique hy).1
        clear hx hy h1 h2 hk
        revert hw
        revert s
        decide
    | 2, hG => cases hG; cases hn
    | 3, hG => cases hG; cases hn
    | _ + 4, hG => cases hG
  · intro i c join xs hG hx
    match i, hG with
    | 0, hG => cases hG
    | 1, hG => cases hG
    | 2, hG => cases hG
    | 3, hG =>
      cases hG
      have : ∀ (xs : List Bytes) (res : Bytes), (∀ x ∈ xs, x.count 40 = x.count 41) → res.count 40 = res.count 41 →
          (joinLoop (str ", ") res xs).count 40 = (joinLoop (str ", ") res xs).count 41 := by
        intro xs
        induction xs with
        | nil => intro res _ h; exact h
        | cons x xs ih =>
          intro res hx h
          rw [List.forall_mem_cons] at hx
          refine ih _ hx.2 ?_
          split
          · rw [List.count_append, List.count_append, h, hx.1]
          · rw [List.count_append, List.count_append, List.count_append, List.count_append, h, hx.1]; rfl
      show (str "(" ++ joinLoop (str ", ") [] xs ++ str ")").count 40 = (str "(" ++ joinLoop (str ", ") [] xs ++ str ")").count 41
      rw [List.count_append, List.count_append, List.count_append, List.count_append, this xs [] hx rfl]
      show 1 + _ + 0 = 0 + _ + 1
      omega
    | _ + 4, hG => cases hG
  · intro i cs join unb xs hG
    match i, hG with
    | 0, hG => cases hG
    | 1, hG => cases hG
    | 2, hG => cases hG
    | 3, hG => cases hG
    | _ + 4, hG => cases hG
  · intro i cs join unb xs hG
    match i, hG with
    | 0, hG => cases hG
    | 1, hG => cases hG
    | 2, hG => cases hG
    | 3, hG => cases hG
    | _ + 4, hG => cases hG
  · intro i op c x hG hx
    match i, hG with
    | 0, hG => cases hG
    | 1, hG => cases hG
    | 2, hG =>
      cases hG
      rw [List.count_append, List.count_append, List.count_append, List.count_append, List.count_append,
        List.count_append, hx]
      show 0 + 1 + _ + 0 = 0 + 0 + _ + 1
      omega
    | 3, hG => cases hG
    | _ + 4, hG => cases hG
  · exact fun _ _ h => h
  · exact fun _ _ h => h

end BS
