import Verif.Spec.Length
import Verif.Lemmas.Work
import Verif.Props.JsonOut

/-!
# Length of a text against calls and bytes
-/

namespace BS
open BlobLike

/-! ## Stamps that call no other -/

theorem intDec_short {v : Int} (hv : v.natAbs < 10 ^ 20) : (intDec v).length ≤ 21 := by
  have := natDec_length (k := 20) (by norm_num) hv
  unfold intDec
  split
  · rw [List.length_cons]; omega
  · omega

theorem toXString_short {n : Nat} (hn : 1 ≤ n) {l s : Bytes} (h : toXString n l = .ok s) : s.length ≤ l.length := by
  unfold toXString at h
  split at h
  · cases h; exact le_refl _
  split at h
  · cases h
    rw [List.length_append, List.length_take, List.length_singleton]
    omega
  · cases h

theorem decode_short {t : ArithTy} {b : Bytes} (hb : b.length ≤ t.size) {i : Int} (h : decode t b = .int i) :
    i.natAbs < 10 ^ 20 := by
  have h1 := leNat_lt b
  have h2 : t.size ≤ 8 := by cases t <;> decide
  have h3 : leNat b < 256 ^ 8 := lt_of_lt_of_le h1 (Nat.pow_le_pow_right (by norm_num) (le_trans hb h2))
  have h4 : (2 : Int) ^ (8 * t.size) ≤ 2 ^ 64 := pow_le_pow_right₀ (by norm_num) (by omega)
  have h5 : (0 : Int) < 2 ^ (8 * t.size) := by positivity
  unfold decode at h
  norm_num at h3 h4 ⊢
  dsimp only at h
  split at h
  · split at h <;> · cases h; omega
  · cases h

/-- Printing a number takes at most 1057 characters. -/
theorem arith_short {t : ArithTy} {a : ABlob} {s : Bytes} {a' : ABlob} (h : extractArithStr t a = (.ok s, a')) :
    s.length ≤ 1057 := by
  rw [extractArithStr_abs] at h
  split at h
  · cases h
  have h := (Prod.mk.inj h).1
  have hl : (a.take t.size).length ≤ t.size := by rw [List.length_take]; omega
  cases e : decode t (a.take t.size) with
  | int i =>
    have hi := intDec_short (decode_short hl e)
    rw [e] at h
    cases t with
    | i8 => have := toXString_short (by norm_num) (show toXString 4 (intDec i) = .ok s from h); omega
    | _ => cases h; omega
  | bits b =>
    rw [e] at h
    cases t with
    | float => rw [toString_float] at h; cases h; exact (fmtG999_buffer b (.inr ⟨rfl, rfl⟩)).le
    | double => rw [toString_double] at h; cases h; exact (fmtG999_buffer b (.inl ⟨rfl, rfl⟩)).le
    | _ => unfold decode at e; simp [ArithTy.isInt] at e; split at e <;> cases e

theorem text_short {f : UInt8 → UInt8} {a a' : ABlob} {s : Bytes} (h : extractText f a = (.ok s, a')) :
    s.length + a'.length = a.length := by
  obtain ⟨c, a1, h1, h⟩ := M.bind_eq_ok.1 h
  have h0 := (tri_chop2 (mn := 1) (mx := toSz (-1)) (by decide) (List.suffix_refl a)).2.2 c (by rw [h1])
  rw [h1] at h0
  obtain ⟨v, a2, h2, h⟩ := M.bind_eq_ok.1 h
  have h3 : (if List.length c = 0 then Out.ub .ptrArith else Out.ok c) = Out.ok v := (Prod.mk.inj h2).1
  cases (Prod.mk.inj h2).2
  cases h
  split at h3
  · cases h3
  cases h3
  rw [List.length_map]
  exact h0.2

theorem alone_short {G : Graph} {c : Nat} (ht : Terse G c) {n : Nat} {i : Id} {nd : Node} (hG : G i = some nd)
    (ha : nd.Alone) {fl fl' : Flags} {a a' : ABlob} {v : Bytes}
    (h : extract G (n + 1) i (fl, a) = (.ok v, (fl', a'))) :
    v.length ≤ (c + 1057) * (a.length - a'.length + 1) := by
  have hs := alone_shrinks hG ha h
  have big : ∀ x : Nat, c + 1057 ≤ (c + 1057) * (x + 1) := fun x => Nat.le_mul_of_pos_right _ (Nat.succ_pos x)
  have bytes : ∀ x : Nat, x ≤ (c + 1057) * (x + 1) := fun x => by
    have := Nat.mul_le_mul (show 1 ≤ c + 1057 by omega) (le_refl (x + 1))
    omega
  have hb := big (a.length - a'.length)
  have hK : c ≤ c + 1057 ∧ 1057 ≤ c + 1057 := ⟨Nat.le_add_right _ _, Nat.le_add_left _ _⟩
  generalize c + 1057 = K at *
  unfold extract at h
  rw [hG] at h
  cases nd with
  | arith t =>
    have e : extractArithStr t a = (.ok v, a') := Prod.ext (Prod.mk.inj h).1 (Prod.mk.inj (Prod.mk.inj h).2).2
    have := arith_short e
    omega
  | dict ws =>
    have e : extractDict ws a = (.ok v, a') := Prod.ext (Prod.mk.inj h).1 (Prod.mk.inj (Prod.mk.inj h).2).2
    obtain ⟨o, a1, _, e⟩ := M.bind_eq_ok.1 e
    obtain ⟨z, a2, _, e⟩ := M.bind_eq_ok.1 e
    have := ht.dict i ws hG v (vecGet_ok (Prod.mk.inj e).1)
    omega
  | jsonStr =>
    have e : extractJsonStr a = (.ok v, a') := Prod.ext (Prod.mk.inj h).1 (Prod.mk.inj (Prod.mk.inj h).2).2
    have := (jsonStr_short e).1
    omega
  | latin1 =>
    have e : extractText latin1Char a = (.ok v, a') := Prod.ext (Prod.mk.inj h).1 (Prod.mk.inj (Prod.mk.inj h).2).2
    have h1 := text_short e
    have h2 := bytes (a.length - a'.length)
    omega
  | ascii =>
    have e : extractText asciiChar a = (.ok v, a') := Prod.ext (Prod.mk.inj h).1 (Prod.mk.inj (Prod.mk.inj h).2).2
    have h1 := text_short e
    have h2 := bytes (a.length - a'.length)
    omega
  | user u =>
    obtain ⟨w, s1, h1, h⟩ := M.bind_eq_ok.1 h
    cases (Prod.mk.inj h1).2
    have ew : w = a := (Out.ok.inj (Prod.mk.inj h1).1).symm
    subst ew
    obtain ⟨sz, s2, h2, h⟩ := M.bind_eq_ok.1 h
    cases (Prod.mk.inj h2).2
    have es : sz = List.length w := (Out.ok.inj (Prod.mk.inj h2).1).symm
    subst es
    obtain ⟨b, s3, h3, h⟩ := M.bind_eq_ok.1 h
    cases (Prod.mk.inj h).2
    have hv : (u.behave w).1 = .ok v := (Prod.mk.inj h).1
    have e : (chop (min (u.behave w).2 (List.length w)) : M ABlob ABlob) w = (.ok b, a') :=
      Prod.ext (Prod.mk.inj h3).1 (Prod.mk.inj (Prod.mk.inj h3).2).2
    have h0 := (tri_chop _ (List.suffix_refl w)).2.2 b (by rw [e])
    rw [e] at h0
    dsimp only at h0
    have hu := ht.user i u hG w v (u.behave w).2 (Prod.ext hv rfl)
    have : w.length - a'.length = min (u.behave w).2 (List.length w) := by omega
    rw [this]
    refine le_trans hu (Nat.mul_le_mul_right _ (by omega))
  | _ => exact absurd ha id

/-! ## All stamps -/

/-- What holds of a run that returns. -/
def Wo {α : Type} (m : WM ABlob α) (w : Nat × (Flags × ABlob)) (Q : α → Nat × (Flags × ABlob) → Prop) : Prop :=
  ∀ v, (m w).1 = .ok v → Q v (m w).2

namespace Wo
variable {α γ : Type} {w : Nat × (Flags × ABlob)}

theorem pure {a : α} {Q : α → Nat × (Flags × ABlob) → Prop} (h : Q a w) : Wo (Pure.pure a) w Q :=
  fun v hv => by cases hv; exact h

theorem out {o : Out α} {Q : α → Nat × (Flags × ABlob) → Prop} (h : ∀ v, o = .ok v → Q v w) : Wo (M.out o) w Q := h

theorem bind {m : WM ABlob α} {f : α → WM ABlob γ} {Q : α → Nat × (Flags × ABlob) → Prop}
    {P : γ → Nat × (Flags × ABlob) → Prop} (h : Wo m w Q) (hf : ∀ a w', Q a w' → Wo (f a) w' P) : Wo (m >>= f) w P := by
  unfold Wo
  rw [M.bind_apply]
  rcases hm : m w with ⟨o, w'⟩
  unfold Wo at h
  rw [hm] at h
  cases o with
  | ok a => exact hf a w' (h a rfl)
  | _ => exact fun v hv => by cases hv

theorem lift {o : Out α} {f : α → WM ABlob γ} {P : γ → Nat × (Flags × ABlob) → Prop}
    (h : ∀ v, o = .ok v → Wo (f v) w P) : Wo (M.lift o >>= f) w P := by
  refine .bind (Q := fun v w' => w' = w ∧ o = .ok v) (fun v hv => ⟨rfl, hv⟩) ?_
  rintro v w' ⟨rfl, hv⟩
  exact h v hv

theorem free {m : XM ABlob α} {f : α → WM ABlob γ} {P : γ → Nat × (Flags × ABlob) → Prop}
    (h : ∀ v s', m w.2 = (.ok v, s') → Wo (f v) (w.1, s') P) : Wo (liftW m >>= f) w P := by
  refine .bind (Q := fun v w' => ∃ s', w' = (w.1, s') ∧ m w.2 = (.ok v, s')) (fun v hv => ⟨_, rfl, Prod.ext hv rfl⟩) ?_
  rintro v w' ⟨s', rfl, hv⟩
  exact h v s' hv

theorem mono {m : WM ABlob α} {Q Q' : α → Nat × (Flags × ABlob) → Prop} (h : Wo m w Q)
    (hQ : ∀ v w', Q v w' → Q' v w') : Wo m w Q' := fun v hv => hQ _ _ (h v hv)

theorem ite {c : Prop} [Decidable c] {m n : WM ABlob α} {Q : α → Nat × (Flags × ABlob) → Prop} (h1 : c → Wo m w Q)
    (h2 : ¬ c → Wo n w Q) : Wo (if c then m else n) w Q := by
  split
  · exact h1 ‹_›
  · exact h2 ‹_›

end Wo

/-- Each call pays for `2 * D` characters and each byte for `D`. -/
def Paid (D : Nat) (m : WM ABlob Bytes) : Prop :=
  ∀ (k : Nat) (fl : Flags) (a : ABlob), Wo m (k, (fl, a)) fun v w' =>
    w'.2.2.length ≤ a.length ∧ v.length + D + D * (2 * k + w'.2.2.length) ≤ D * (2 * w'.1 + a.length)

theorem lengths_cons (c : Nat) (x : Bytes) (xs : List Bytes) : lengths c (x :: xs) = x.length + c + lengths c xs := by
  unfold lengths; rw [List.map_cons, List.sum_cons]

theorem lengths_mono {c d : Nat} (h : c ≤ d) (xs : List Bytes) : lengths c xs ≤ lengths d xs := by
  induction xs with
  | nil => exact le_refl _
  | cons x xs ih => rw [lengths_cons, lengths_cons]; omega

theorem wo_each {D : Nat} {ex : Id → WM ABlob Bytes} (h : ∀ i, Paid D (ex i)) :
    ∀ (l : List (Id × ABlob)) (z : Int) (k : Nat) (fl : Flags) (a : ABlob),
    Wo (extractEachW ex z l) (k, (fl, a)) fun v w' =>
      w'.2.2 = a ∧ lengths D v + D * (2 * k) ≤ D * (2 * w'.1 + (l.map fun p => List.length p.2).sum)
  | [], _, k, fl, a => .pure ⟨rfl, by show 0 + _ ≤ D * (2 * k + 0); exact (Nat.zero_add _).le⟩
  | (i, c) :: r, z, k, fl, a => by
    unfold extractEachW
    refine .bind (Q := fun v w' => w'.2.2 = a ∧ v.length + D + D * (2 * k) ≤ D * (2 * w'.1 + List.length c)) ?_ ?_
    · intro v hv
      obtain ⟨_, h2⟩ := h i k fl c v hv
      refine ⟨rfl, le_trans ?_ h2⟩
      exact Nat.add_le_add_left (Nat.mul_le_mul_left _ (Nat.le_add_right _ _)) _
    · rintro s ⟨k1, fl1, a1⟩ ⟨e, h1⟩
      dsimp only at e h1
      subst e
      refine .lift fun z' _ => ?_
      refine .bind (wo_each h r z' k1 fl1 a1) ?_
      rintro ss ⟨k2, fl2, a2⟩ ⟨e, h2⟩
      dsimp only at e h2
      refine .pure ⟨e, ?_⟩
      rw [lengths_cons, List.map_cons, List.sum_cons]
      dsimp only
      linarith

theorem wo_seq {D : Nat} {ex : Id → WM ABlob Bytes} (h : ∀ i, Paid D (ex i)) :
    ∀ (l : List Id) (k : Nat) (fl : Flags) (a : ABlob),
    Wo (extractSeqW ex l) (k, (fl, a)) fun v w' =>
      w'.2.2.length ≤ a.length ∧ lengths D v + D * (2 * k + w'.2.2.length) ≤ D * (2 * w'.1 + a.length)
  | [], k, fl, a => .pure ⟨le_refl _, by show 0 + _ ≤ D * (2 * k + a.length); exact (Nat.zero_add _).le⟩
  | i :: r, k, fl, a => by
    unfold extractSeqW
    refine .bind (h i k fl a) ?_
    rintro s ⟨k1, fl1, a1⟩ ⟨e1, h1⟩
    dsimp only at e1 h1
    refine .bind (wo_seq h r k1 fl1 a1) ?_
    rintro ss ⟨k2, fl2, a2⟩ ⟨e2, h2⟩
    dsimp only at e2 h2
    refine .pure ⟨le_trans e2 e1, ?_⟩
    rw [lengths_cons]
    dsimp only
    linarith

theorem zip_lengths_le : ∀ (cs : List Id) (bs : List ABlob),
    ((cs.zip bs).map fun p => List.length p.2).sum ≤ totalLen bs
  | [], bs => by simp
  | _ :: _, [] => by simp
  | c :: cs, b :: bs => by
    have := zip_lengths_le cs bs
    simp only [List.zip_cons_cons, List.map_cons, List.sum_cons, totalLen] at this ⊢
    omega

theorem paid_extract {G : Graph} {c : Nat} (ht : Terse G c) (n : Nat) (i : Id) : Paid (c + 1057) (extractW G n i) := by
  induction n generalizing i with
  | zero => exact fun k fl a => .out fun v hv => by cases hv
  | succ n ih =>
    intro k fl a
    unfold extractW
    refine .bind (Q := fun _ w' => w' = (k + 1, (fl, a))) (fun _ _ => rfl) ?_
    rintro _ _ rfl
    cases hG : G i with
    | none => exact .out fun v hv => by cases hv
    | some nd =>
      have leaf : nd.Alone → Wo (liftW (extract G (n + 1) i)) (k + 1, (fl, a)) fun v w' => w'.2.2.length ≤ a.length ∧
          v.length + (c + 1057) + (c + 1057) * (2 * k + w'.2.2.length) ≤ (c + 1057) * (2 * w'.1 + a.length) := by
        intro hA v hv
        rcases e : extract G (n + 1) i (fl, a) with ⟨o, fl', a'⟩
        have hv' : (extract G (n + 1) i (fl, a)).1 = .ok v := hv
        rw [e] at hv'
        cases hv'
        have hs : (liftW (extract G (n + 1) i) (k + 1, (fl, a))).2 = (k + 1, (fl', a')) := by
          show (k + 1, (extract G (n + 1) i (fl, a)).2) = _
          rw [e]
        rw [hs]
        have h1 := alone_shrinks hG hA e
        have h2 := alone_short ht hG hA e
        refine ⟨h1, ?_⟩
        obtain ⟨x, hx⟩ := Nat.exists_eq_add_of_le h1
        rw [hx, Nat.add_sub_cancel_left] at h2
        dsimp only
        rw [hx]
        linarith
      have lists : ∀ (join : List Bytes → Bytes), (∀ xs, (join xs).length ≤ lengths c xs + c) → ∀ (xs : List Bytes) (k' x y : Nat),
          lengths (c + 1057) xs + (c + 1057) * (2 * (k + 1) + x) ≤ (c + 1057) * (2 * k' + y) →
          (join xs).length + (c + 1057) + (c + 1057) * (2 * k + x) ≤ (c + 1057) * (2 * k' + y) := by
        intro join hj xs k' x y h
        have h1 := hj xs
        have h2 := lengths_mono (show c ≤ c + 1057 by omega) xs
        linarith
      cases nd with
      | vec j join =>
        refine .free fun mn s1 e1 => ?_
        obtain ⟨rfl, _⟩ := keepsX_liftF e1
        refine .free fun mx s2 e2 => ?_
        obtain ⟨rfl, _⟩ := keepsX_liftF e2
        refine .free fun bs s3 e3 => ?_
        obtain ⟨fl3, a3⟩ := s3
        have e3' : vecSplit n mn mx a = (.ok bs, a3) := Prod.ext (Prod.mk.inj e3).1 (Prod.mk.inj (Prod.mk.inj e3).2).2
        have hc := ((tri_vecSplit n mn mx (List.suffix_refl a)).2.2 bs (by rw [e3'])).1
        rw [e3'] at hc
        dsimp only at hc
        refine .bind (wo_each ih _ 0 (k + 1) fl3 a3) ?_
        rintro xs ⟨k4, fl4, a4⟩ ⟨e, h4⟩
        dsimp only at e h4
        subst e
        rw [List.map_map] at h4
        refine .pure ⟨by show a4.length ≤ _; omega, lists join (ht.vec i j join hG) xs k4 _ _ ?_⟩
        have h5 : (bs.map ((fun p : Id × ABlob => List.length p.2) ∘ fun b => (j, b))).sum = totalLen bs := rfl
        rw [h5] at h4
        dsimp only
        have := Nat.mul_le_mul_left (c + 1057) hc
        linarith
      | set cs join unb =>
        refine .free fun mns s1 e1 => ?_
        obtain ⟨fl1, a1⟩ := s1
        obtain rfl : a = a1 := (Prod.mk.inj (Prod.mk.inj e1).2).2
        refine .free fun mxs s2 e2 => ?_
        obtain ⟨fl2, a2⟩ := s2
        obtain rfl : a = a2 := (Prod.mk.inj (Prod.mk.inj e2).2).2
        refine .free fun bs s3 e3 => ?_
        obtain ⟨fl3, a3⟩ := s3
        have e3' : setSplit (mns.zip mxs) a = (.ok bs, a3) :=
          Prod.ext (Prod.mk.inj e3).1 (Prod.mk.inj (Prod.mk.inj e3).2).2
        have hc := (tri_setSplit (mns.zip mxs) (List.suffix_refl a)).2.2 bs (by rw [e3'])
        rw [e3'] at hc
        unfold Cut at hc
        dsimp only at hc
        refine .bind (wo_each ih _ 0 (k + 1) fl3 a3) ?_
        rintro xs ⟨k4, fl4, a4⟩ ⟨e, h4⟩
        dsimp only at e h4
        subst e
        refine .pure ⟨by show a4.length ≤ _; omega, lists join (ht.set i cs join unb hG) xs k4 _ _ ?_⟩
        have h5 := zip_lengths_le cs bs
        dsimp only
        have := Nat.mul_le_mul_left (c + 1057)
          (show ((cs.zip bs).map fun p => List.length p.2).sum + a4.length ≤ a.length by omega)
        linarith
      | seq cs join unb =>
        refine .bind (wo_seq ih cs (k + 1) fl a) ?_
        rintro xs ⟨k4, fl4, a4⟩ ⟨e, h4⟩
        exact .pure ⟨e, lists join (ht.seq i cs join unb hG) xs k4 _ _ h4⟩
      | unary op j =>
        refine .bind (ih j (k + 1) fl a) ?_
        rintro x ⟨k4, fl4, a4⟩ ⟨e, h4⟩
        refine .pure ⟨e, ?_⟩
        have h5 := ht.unary i op j hG
        unfold unaryText
        simp only [List.length_append, List.length_cons, List.length_nil]
        dsimp only at h4
        linarith
      | lottery rec4 stamps osz smin smax =>
        refine .free fun o s1 e1 => ?_
        obtain ⟨fl1, a1⟩ := s1
        have e1' : uOracle osz a = (.ok o, a1) := Prod.ext (Prod.mk.inj e1).1 (Prod.mk.inj (Prod.mk.inj e1).2).2
        have hc := (tri_uOracle osz (List.suffix_refl a)).2.2 o (by rw [e1'])
        rw [e1'] at hc
        obtain ⟨_, _, _, hw, hl⟩ := hc
        dsimp only at hl
        refine .free fun l1 s2 e2 => ?_
        obtain rfl := (lotFilter_ok (keeps_sizeQ G n .min) (keeps_sizeQ G n .max) e2).1
        refine .free fun l s3 e3 => ?_
        obtain rfl : s3 = (fl1, a1) := by
          split at e3
          · exact (lotFilter_ok (keeps_sizeQ G n .min) (keeps_sizeQ G n .max) e3).1
          · exact (Prod.mk.inj e3).2.symm
        refine .ite (fun _ => .out fun v hv => by cases hv) fun _ => ?_
        refine .lift fun z _ => .lift fun j _ => ?_
        refine (ih j (k + 1) fl1 a1).mono ?_
        rintro v ⟨k4, fl4, a4⟩ ⟨f1, f2⟩
        dsimp only at f1 f2
        refine ⟨by show a4.length ≤ _; omega, ?_⟩
        have := Nat.mul_le_mul_left (c + 1057) (show a1.length ≤ a.length by omega)
        dsimp only
        linarith
      | picker pool =>
        refine .free fun o s1 e1 => ?_
        obtain ⟨fl1, a1⟩ := s1
        have e1' : oracle a = (.ok o, a1) := Prod.ext (Prod.mk.inj e1).1 (Prod.mk.inj (Prod.mk.inj e1).2).2
        have hc := (tri_oracle (List.suffix_refl a)).2.2 o (by rw [e1'])
        rw [e1'] at hc
        obtain ⟨_, hl⟩ := hc
        dsimp only at hl
        refine .free fun r s2 e2 => ?_
        obtain rfl := (pickFilter_ok (keeps_sizeQ G n .min) (keeps_sizeQ G n .max) e2).1
        refine .ite (fun _ => ?_) fun _ => ?_
        · refine .free fun mn s3 e3 => ?_
          refine .free fun sz s4 e4 => ?_
          exact .ite (fun _ => .out fun v hv => by cases hv) fun _ => .out fun v hv => by cases hv
        · refine .lift fun z _ => .lift fun j _ => ?_
          refine (ih j (k + 1) fl1 a1).mono ?_
          rintro v ⟨k4, fl4, a4⟩ ⟨f1, f2⟩
          dsimp only at f1 f2
          refine ⟨by show a4.length ≤ _; omega, ?_⟩
          have := Nat.mul_le_mul_left (c + 1057) (show a1.length ≤ a.length by omega)
          dsimp only
          linarith
      | _ => exact leaf trivial

end BS
