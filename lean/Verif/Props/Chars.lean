import Verif.Spec.Chars
import Verif.Props.JsonOut

/-!
# C65: texts are free of NUL
-/

namespace BS
open BlobLike

theorem AllIn.append {P : UInt8 → Prop} {s t : Bytes} (h : AllIn P s) (h' : AllIn P t) : AllIn P (s ++ t) := by
  intro c hc
  rcases List.mem_append.1 hc with hc | hc
  · exact h c hc
  · exact h' c hc

theorem AllIn.cons {P : UInt8 → Prop} {x : UInt8} {t : Bytes} (h : P x) (h' : AllIn P t) : AllIn P (x :: t) := by
  intro c hc
  rcases List.mem_cons.1 hc with rfl | hc
  · exact h
  · exact h' c hc

theorem AllIn.nil {P : UInt8 → Prop} : AllIn P [] := fun _ h => by cases h

theorem AllIn.mono {P Q : UInt8 → Prop} (h : ∀ c, P c → Q c) {s : Bytes} (hs : AllIn P s) : AllIn Q s :=
  fun c hc => h c (hs c hc)

theorem allIn_joinLoop {P : UInt8 → Prop} {sep : Bytes} (hs : AllIn P sep) {xs : List Bytes} {r : Bytes}
    (hr : AllIn P r) (h : ∀ x ∈ xs, AllIn P x) : AllIn P (joinLoop sep r xs) := by
  induction xs generalizing r with
  | nil => exact hr
  | cons x xs ih =>
    unfold joinLoop
    refine ih (.append ?_ (h x (by simp))) fun y hy => h y (by simp [hy])
    split
    · exact hr
    · exact hr.append hs

/-- `StampStrEnumerator` adds its separator and its brackets. -/
theorem nodeIn_enumerator {P : UInt8 → Prop} {c : Id} {sep l r : Bytes} (hs : AllIn P sep) (hl : AllIn P l)
    (hr : AllIn P r) : NodeIn P (.enumerator c sep l r) :=
  fun _ h => (hl.append (allIn_joinLoop hs .nil h)).append hr

/-- `StampText` adds spaces. -/
theorem nodeIn_text {P : UInt8 → Prop} {c : Id} (h : P 32) : NodeIn P (.text c) :=
  fun _ hx => allIn_joinLoop (.cons h .nil) .nil hx

/-- `StampMathBinaryOp` adds its name, parentheses and spaces. -/
theorem nodeIn_binary {P : UInt8 → Prop} {op : Bytes} {a b : Id} (ho : AllIn P op) (h1 : P 32) (h2 : P 40)
    (h3 : P 41) : NodeIn P (.binary op a b) := by
  intro xs h
  rcases xs with _ | ⟨x, _ | ⟨y, _ | ⟨z, r⟩⟩⟩
  · exact .nil
  · exact .nil
  · have hx := h x (by simp)
    have hy := h y (by simp)
    exact (((((AllIn.cons h2 .nil).append hx).append (.cons h1 .nil)).append ho).append (.cons h1 .nil)).append hy |>.append
      (.cons h3 .nil)
  · exact .nil

/-- `StampJSONHashEl` adds a colon and a space. -/
theorem nodeIn_hashEl {P : UInt8 → Prop} {a b : Id} (h1 : P 32) (h2 : P 58) : NodeIn P (.hashEl a b) := by
  intro xs h
  rcases xs with _ | ⟨x, _ | ⟨y, _ | ⟨z, r⟩⟩⟩
  · exact .nil
  · exact .nil
  · exact ((h x (by simp)).append (.cons h2 (.cons h1 .nil))).append (h y (by simp))
  · exact .nil

/-! ## Numbers -/

/-- A character numbers are made of. -/
def IsNum (c : UInt8) : Prop := c ∈ numberChars

theorem isNum_digit {c : UInt8} (h : IsDigit c) : IsNum c := by
  obtain ⟨h1, h2⟩ := h
  have : ∀ k : Fin 10, UInt8.ofNat (48 + k.val) ∈ numberChars := by decide +kernel
  have e := this ⟨c.toNat - 48, by omega⟩
  rw [show 48 + (⟨c.toNat - 48, by omega⟩ : Fin 10).val = c.toNat by simp only; omega, UInt8.ofNat_toNat] at e
  exact e

theorem num_int {s : Bytes} {i : Int} (h : DenotesInt s i) : AllIn IsNum s := by
  rcases h with ⟨_, h, _⟩ | ⟨_, l, rfl, h, _⟩
  · exact fun c hc => isNum_digit (h.2.1 c hc)
  · exact .cons (by unfold IsNum; decide +kernel) fun c hc => isNum_digit (h.2.1 c hc)

theorem num_rat {s : Bytes} {q : ℚ} (h : DenotesQ s q) : AllIn IsNum s := by
  obtain ⟨neg, ip, fp, ep, _, _, rfl, h1, h2, h3, _⟩ := h
  have hd : ∀ {l : Bytes}, (∀ c ∈ l, IsDigit c) → AllIn IsNum l := fun h c hc => isNum_digit (h c hc)
  refine ((AllIn.append ?_ (hd h1.2.1)).append ?_).append ?_
  · cases neg
    · exact .nil
    · exact .cons (by unfold IsNum; decide +kernel) .nil
  · cases h2 with
    | none => exact .nil
    | some hn h => exact .cons (by unfold IsNum; decide +kernel) (hd h)
  · cases h3 with
    | none => exact .nil
    | plus hn h => exact .cons (by unfold IsNum; decide +kernel) (.cons (by unfold IsNum; decide +kernel) (hd h))
    | minus hn h => exact .cons (by unfold IsNum; decide +kernel) (.cons (by unfold IsNum; decide +kernel) (hd h))

theorem num_g999 {eb mb : Nat} (n : Nat) (hf : (eb = 11 ∧ mb = 52) ∨ (eb = 8 ∧ mb = 23)) :
    AllIn IsNum (fmtG999 (decodeBits eb mb n)) := by
  cases h : decodeBits eb mb n with
  | nan s => cases s <;> (unfold AllIn IsNum; decide +kernel)
  | inf s => cases s <;> (unfold AllIn IsNum; decide +kernel)
  | fin s q =>
    obtain ⟨m, k, rfl, h1, h2, h3⟩ := decodeBits_fin hf h
    exact num_rat (fmtG999_exact h1 h2 h3 s)

theorem num_toString {t : ArithTy} {v : Bytes} {s : Bytes} (h : toStringPrecise t (decode t v) = .ok s) :
    AllIn (fun c => IsNum c ∨ (t = .i8 ∧ c = 0)) s := by
  have hint : ∀ i, AllIn (fun c => IsNum c ∨ (t = .i8 ∧ c = 0)) (intDec i) :=
    fun i => (num_int (intDec_spec i)).mono fun _ => .inl
  unfold decode at h
  dsimp only at h
  by_cases ht : t = .i8
  · subst ht
    rw [if_pos (by rfl)] at h
    have key : ∀ i, toXString 4 (intDec i) = .ok s → AllIn (fun c => IsNum c ∨ (ArithTy.i8 = .i8 ∧ c = 0)) s := by
      intro i h
      unfold toXString at h
      split at h
      · rw [← Out.ok.inj h]; exact hint i
      · split at h
        · rw [← Out.ok.inj h]
          exact .append (fun c hc => hint i c (List.mem_of_mem_take hc)) (.cons (.inr ⟨rfl, rfl⟩) .nil)
        · cases h
    split at h <;> exact key _ h
  · by_cases hd : t = .double
    · subst hd
      rw [if_neg (by simp [ArithTy.isInt]), toString_double] at h
      rw [← Out.ok.inj h]
      exact (num_g999 _ (.inl ⟨rfl, rfl⟩)).mono fun _ => .inl
    by_cases hf : t = .float
    · subst hf
      rw [if_neg (by simp [ArithTy.isInt]), toString_float] at h
      rw [← Out.ok.inj h]
      exact (num_g999 _ (.inr ⟨rfl, rfl⟩)).mono fun _ => .inl
    · have e : ∀ i, toStringPrecise t (.int i) = .ok (intDec i) := by
        intro i
        cases t <;> first | rfl | exact absurd rfl ht
      rw [if_pos (by cases t <;> first | rfl | exact absurd rfl hd | exact absurd rfl hf)] at h
      split at h <;> (rw [e] at h; rw [← Out.ok.inj h]; exact hint _)

/-! ## Every stamp -/

theorem forall₂_right {α γ : Type} {R : α → γ → Prop} {l : List α} {xs : List γ} (h : List.Forall₂ R l xs) :
    ∀ x ∈ xs, ∃ p ∈ l, R p x := by
  induction h with
  | nil => simp
  | cons h _ ih =>
    intro x hx
    rcases List.mem_cons.1 hx with rfl | hx
    · exact ⟨_, by simp, h⟩
    · obtain ⟨p, hp, hr⟩ := ih x hx
      exact ⟨p, by simp [hp], hr⟩

theorem SeqRuns.right {β : Type} {ex : Id → XM β Bytes} {fl : Flags} {is : List Id} {b b' : β} {xs : List Bytes}
    (h : SeqRuns ex fl is b xs b') : ∀ x ∈ xs, ∃ i b1 b2, ex i (fl, b1) = (.ok x, (fl, b2)) := by
  induction h with
  | nil => simp
  | cons h _ ih =>
    intro x hx
    rcases List.mem_cons.1 hx with rfl | hx
    · exact ⟨_, _, _, h⟩
    · exact ih x hx

theorem chars_main {P : UInt8 → Prop} {G : Graph} (hG : GraphIn P G) (n : Nat) :
    ∀ (i : Id) (fl fl' : Flags) (a a' : ABlob) (s : Bytes),
      extract G n i (fl, a) = (.ok s, (fl', a')) → AllIn P s := by
  induction n with
  | zero => intro i fl fl' a a' s h; cases h
  | succ n ih =>
    intro i fl fl' a a' s h
    rcases hi : G i with _ | nd
    · unfold extract at h; rw [hi] at h; cases h
    have hn := hG i nd hi
    have h0 := h
    unfold extract at h
    rw [hi] at h
    dsimp only at h
    cases nd with
    | arith t =>
      have h1 := (liftB_ok h).1
      rw [extractArithStr_abs] at h1
      split at h1
      · cases h1
      · refine (num_toString (Prod.mk.inj h1).1).mono ?_
        rintro c (hc | ⟨ht, rfl⟩)
        · exact hn.1 c hc
        · exact hn.2 ht
    | dict ws =>
      obtain ⟨o, a1, -, h1⟩ := M.bind_eq_ok.1 (liftB_ok h).1
      obtain ⟨k, a2, -, h2⟩ := M.bind_eq_ok.1 h1
      exact hn s (vecGet_ok (Prod.mk.inj h2).1)
    | jsonStr =>
      obtain ⟨w, a1, h1, h2⟩ := M.bind_eq_ok.1 (liftB_ok h).1
      obtain ⟨o, a2, -, h1⟩ := M.bind_eq_ok.1 h1
      obtain ⟨k, a3, -, h1⟩ := M.bind_eq_ok.1 h1
      cases h2
      have hw := vecGet_ok (Prod.mk.inj h1).1
      refine ((AllIn.cons hn.1 .nil).append fun c hc => ?_).append (.cons hn.1 .nil)
      have := lcAlphaSmall_letters w hw c hc
      exact hn.2 c this.1 this.2
    | latin1 =>
      obtain ⟨p, a1, -, h1⟩ := M.bind_eq_ok.1 (liftB_ok h).1
      obtain ⟨v, a2, -, h2⟩ := M.bind_eq_ok.1 h1
      cases h2
      intro c hc
      obtain ⟨d, -, rfl⟩ := List.mem_map.1 hc
      refine hn _ ?_
      unfold latin1Char
      split
      · decide
      · assumption
    | ascii =>
      obtain ⟨p, a1, -, h1⟩ := M.bind_eq_ok.1 (liftB_ok h).1
      obtain ⟨v, a2, -, h2⟩ := M.bind_eq_ok.1 h1
      cases h2
      intro c hc
      obtain ⟨d, -, rfl⟩ := List.mem_map.1 hc
      have : 0 < (asciiChar d).toNat ∧ (asciiChar d).toNat < 128 := by
        have hall : ∀ k : Fin 256, 0 < (asciiChar (UInt8.ofNat k.val)).toNat ∧
            (asciiChar (UInt8.ofNat k.val)).toNat < 128 := by decide +kernel
        have := hall ⟨d.toNat, d.toNat_lt⟩
        simpa only [UInt8.ofNat_toNat] using this
      exact hn _ this.1 this.2
    | user u =>
      obtain ⟨v, s1, -, h1⟩ := M.bind_eq_ok.1 h
      obtain ⟨sz, s2, -, h2⟩ := M.bind_eq_ok.1 h1
      obtain ⟨_, s3, -, h3⟩ := M.bind_eq_ok.1 h2
      exact hn v s (Prod.mk.inj h3).1
    | vec c join =>
      obtain ⟨mn, mx, parts, xs, _, _, _, _, h4, rfl⟩ := extract_vec_ok hi h0
      refine hn xs fun x hx => ?_
      obtain ⟨p, -, left, hy⟩ := forall₂_right h4 x hx
      exact ih _ _ _ _ _ _ hy
    | set cs join unb =>
      obtain ⟨mns, mxs, parts, xs, _, _, _, _, h4, rfl⟩ := extract_set_ok hi h0
      refine hn xs fun x hx => ?_
      obtain ⟨p, -, left, hy⟩ := forall₂_right h4 x hx
      exact ih _ _ _ _ _ _ hy
    | seq cs join unb =>
      obtain ⟨xs, _, h4, rfl⟩ := extract_seq_ok hi h0
      refine hn xs fun x hx => ?_
      obtain ⟨j, b1, b2, hy⟩ := h4.right x hx
      exact ih _ _ _ _ _ _ hy
    | unary op c =>
      obtain ⟨x, _, h1, rfl⟩ := extract_unary_ok hi h0
      exact ((hn.1.append (.cons hn.2.1 .nil)).append (ih _ _ _ _ _ _ h1)).append (.cons hn.2.2 .nil)
    | lottery rec4 stamps osz smin smax =>
      obtain ⟨o, b1, j, mn, _, _, _, _, _, h1⟩ := extract_lottery_ok hi h0
      exact ih _ _ _ _ _ _ h1
    | picker pool =>
      obtain ⟨o, b1, j, mn, _, _, _, _, _, h1, _⟩ := extract_picker_ok hi h0
      exact ih _ _ _ _ _ _ h1

/-- **C65**, general form: a text consists of characters that the stamps it comes from may add. -/
theorem C65_chars {P : UInt8 → Prop} {G : Graph} (hG : GraphIn P G) {fl : Flags} {i : Id} {b : Blob}
    {bs s left : Bytes} (hr : Reachable b) (hh : Holds b bs) (h : Returns G fl i b s left) : AllIn P s := by
  obtain ⟨n, hn⟩ := Returns.inv hr hh h
  exact chars_main hG n _ _ _ _ _ _ (hn n le_rfl)

/-- **C65**: without `char` stamps, and with word lists, operator names and user-written parts free of
NUL, no text contains a NUL. Missing: `char` stamps, for which it is violated (`C65_violated`). -/
theorem C65_noNul_partial {G : Graph} (hG : GraphIn (· ≠ 0) G) {fl : Flags} {i : Id} {b : Blob}
    {bs s left : Bytes} (hr : Reachable b) (hh : Holds b bs) (h : Returns G fl i b s left) : (0 : UInt8) ∉ s :=
  fun h0 => C65_chars hG hr hh h 0 h0 rfl

/-- Printable ASCII. -/
def IsPrint (c : UInt8) : Prop := 32 ≤ c.toNat ∧ c.toNat ≤ 126

theorem jsonGraph_print : GraphIn IsPrint jsonGraph := by
  have hnum : ∀ c ∈ numberChars, IsPrint c := by unfold IsPrint; decide +kernel
  have hw : NodeIn IsPrint .jsonStr := ⟨by unfold IsPrint; decide, fun c h1 h2 => ⟨by omega, by omega⟩⟩
  have he : ∀ (c : Id) (l r : UInt8), IsPrint l → IsPrint r → NodeIn IsPrint (.enumerator c [44, 32] [l] [r]) :=
    fun c l r hl hr => nodeIn_enumerator (by unfold AllIn IsPrint; decide) (.cons hl .nil) (.cons hr .nil)
  intro i nd h
  rcases i with _ | _ | _ | _ | _ | _ | _ | _ | i
  · cases h; trivial
  · cases h; exact ⟨hnum, fun h => by cases h⟩
  · cases h; exact ⟨hnum, fun h => by cases h⟩
  · cases h; exact hw
  · cases h; exact he _ _ _ (by unfold IsPrint; decide) (by unfold IsPrint; decide)
  · cases h; exact he _ _ _ (by unfold IsPrint; decide) (by unfold IsPrint; decide)
  · cases h; exact nodeIn_hashEl (by unfold IsPrint; decide) (by unfold IsPrint; decide)
  · cases h; exact hw
  · cases h

/-- **C65** for JSON, from blobs of any size: one line of printable ASCII. -/
theorem C65_json {b : Blob} {bs s left : Bytes} {fl : Flags} (hr : Reachable b) (hh : Holds b bs)
    (h : Returns jsonGraph fl 0 b s left) : ∀ c ∈ s, 32 ≤ c.toNat ∧ c.toNat ≤ 126 :=
  C65_chars jsonGraph_print hr hh h

/-- A list of `char` numbers. -/
def charList : Graph
  | 0 => some (.enumerator 1 [44] [] [])
  | 1 => some (.arith .i8)
  | _ => none

/-- **C65 is violated** by `char`: the text of the list of -128 and 5 is `-12`, a NUL, `,5`. -/
theorem C65_violated {b : Blob} (hr : Reachable b) (hh : Holds b [128, 5]) :
    Returns charList Flags.init 0 b [45, 49, 50, 0, 44, 53] [] := by
  refine Returns.intro hr.valid hh (Extracts.intro (n := 5) (extract_eval ?_ ?_) (by simp)) <;> decide +kernel

/-- An instance of `C65_noNul_partial`: a sum of two texts. -/
example {b : Blob} {bs s left : Bytes} (hr : Reachable b) (hh : Holds b bs)
    (h : Returns (fun i => match i with | 0 => some (.binary [43] 1 2) | 1 => some .latin1 | 2 => some (.text 1) | _ => none)
      Flags.init 0 b s left) : (0 : UInt8) ∉ s := by
  refine C65_noNul_partial ?_ hr hh h
  intro i nd hi
  rcases i with _ | _ | _ | i
  · cases hi; exact nodeIn_binary (by unfold AllIn; decide) (by decide) (by decide) (by decide)
  · cases hi; exact fun c hc => hc
  · cases hi; exact nodeIn_text (by decide)
  · cases hi

end BS
