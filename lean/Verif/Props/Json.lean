import Verif.Spec.Json
import Verif.Lemmas.Infix
import Verif.Lemmas.Invert
import Verif.Props.Format
import Verif.Props.Enough

/-!
# C42: what `StampJSON` prints
-/

namespace BS

theorem JsonNumber.ofInt {l : Bytes} {i : Int} (h : DenotesInt l i) : JsonNumber l := by
  rcases h with ⟨_, h, _⟩ | ⟨_, l', rfl, h, _⟩
  · exact ⟨[], l, [], [], .inl rfl, h, .inl rfl, .inl rfl, by simp⟩
  · exact ⟨[45], l', [], [], .inr rfl, h, .inl rfl, .inl rfl, by simp⟩

theorem JsonNumber.ofQ {l : Bytes} {q : ℚ} (h : DenotesQ l q) : JsonNumber l := by
  obtain ⟨neg, ip, fp, ep, f, e, rfl, h1, h2, h3, _⟩ := h
  refine ⟨_, ip, fp, ep, ?_, h1, ?_, ?_, rfl⟩
  · cases neg <;> simp
  · cases h2 with
    | none => exact .inl rfl
    | some hn hd => exact .inr ⟨_, hn, hd, rfl⟩
  · cases h3 with
    | none => exact .inl rfl
    | plus hn hd => exact .inr ⟨101, [43], _, .inl rfl, .inr (.inl rfl), hn, hd, rfl⟩
    | minus hn hd => exact .inr ⟨101, [45], _, .inl rfl, .inr (.inr rfl), hn, hd, rfl⟩

theorem letter_utf8 {c : UInt8} (h1 : 97 ≤ c.toNat) (h2 : c.toNat ≤ 122) :
    ∃ ch : Char, 32 ≤ ch.toNat ∧ ch ≠ '"' ∧ ch ≠ '\\' ∧ String.utf8EncodeChar ch = [c] := by
  have h : ∀ k < 26, 32 ≤ (Char.ofNat (97 + k)).toNat ∧ Char.ofNat (97 + k) ≠ '"' ∧ Char.ofNat (97 + k) ≠ '\\' ∧
      String.utf8EncodeChar (Char.ofNat (97 + k)) = [UInt8.ofNat (97 + k)] := by decide +kernel
  have := h (c.toNat - 97) (by omega)
  rw [show 97 + (c.toNat - 97) = c.toNat by omega, UInt8.ofNat_toNat] at this
  exact ⟨_, this⟩

theorem word_chars {w : Bytes} (h : ∀ c ∈ w, 97 ≤ c.toNat ∧ c.toNat ≤ 122) : JsonChars w := by
  induction w with
  | nil => exact .nil
  | cons c w ih =>
    obtain ⟨ch, h1, h2, h3, h4⟩ := letter_utf8 (h c (by simp)).1 (h c (by simp)).2
    have := JsonChars.plain ch h1 h2 h3 (ih fun c hc => h c (by simp [hc]))
    rw [h4] at this
    exact this

theorem lcAlphaSmall_letters : ∀ w ∈ lcAlphaSmall, ∀ c ∈ w, 97 ≤ c.toNat ∧ c.toNat ≤ 122 := by decide +kernel

/-- No value is empty. -/
theorem JsonNumber.ne {s : Bytes} (h : JsonNumber s) : s ≠ [] := by
  obtain ⟨sg, ip, fp, ep, _, ⟨h, _⟩, _, _, rfl⟩ := h
  cases ip with
  | nil => exact absurd rfl h
  | cons c l => simp

theorem JsonValue.ne {lax : Bool} {s : Bytes} (h : JsonValue lax s) : s ≠ [] := by
  cases h with
  | lit h => rcases h with rfl | rfl | rfl <;> decide
  | num h => exact h.ne
  | str h => obtain ⟨cs, _, rfl⟩ := h; simp
  | nonfinite _ h =>
    simp only [List.mem_cons, List.not_mem_nil, or_false] at h
    rcases h with rfl | rfl | rfl | rfl <;> decide
  | _ => simp

theorem intercalate_shift (sep w x : Bytes) (xs : List Bytes) :
    (sep ++ w).intercalate (x :: xs) = sep.intercalate (x :: xs.map (w ++ ·)) := by
  induction xs generalizing x with
  | nil => simp [List.intercalate]
  | cons y ys ih =>
    have h := ih y
    simp only [List.intercalate, List.map_cons, intersperse_cons, List.flatten_cons, List.append_assoc] at h ⊢
    rw [h]
    cases ys with
    | nil => simp
    | cons z zs => simp only [List.map_cons, intersperse_cons, List.flatten_cons, List.append_assoc]

theorem ws_space : JsonWs [32] := by intro c hc; simp at hc; exact .inl hc
theorem ws_nil : JsonWs [] := by intro c hc; simp at hc

/-- What an enumerator prints between its brackets. -/
theorem commaJoin (xs : List Bytes) (x : Bytes) (hx : x ≠ []) :
    joinLoop [44, 32] [] (x :: xs) = [44].intercalate (x :: xs.map ([32] ++ ·)) := by
  rw [joinLoop_head _ (by simpa using hx)]
  exact intercalate_shift [44] [32] x xs

theorem enum_array {lax : Bool} {xs : List Bytes} (h : ∀ x ∈ xs, JsonValue lax x) :
    JsonValue lax (enumJoin [44, 32] [91] [93] xs) := by
  cases xs with
  | nil => exact .emptyArray ws_nil
  | cons x xs =>
    unfold enumJoin
    rw [commaJoin xs x (h x (by simp)).ne]
    have := JsonValue.array (lax := lax) (l := ([], x, []) :: xs.map fun y => ([32], y, [])) (by simp) (by
      intro t ht
      simp only [List.mem_cons, List.mem_map] at ht
      rcases ht with rfl | ⟨y, _, rfl⟩
      · exact ⟨ws_nil, ws_nil⟩
      · exact ⟨ws_space, ws_nil⟩) (by
      intro t ht
      simp only [List.mem_cons, List.mem_map] at ht
      rcases ht with rfl | ⟨y, hy, rfl⟩
      · exact h x (by simp)
      · exact h y (by simp [hy]))
    simpa [Function.comp_def] using this

/-- What the hash element prints: a name, a colon, a space and a value. -/
def IsPair (lax : Bool) (x : Bytes) : Prop :=
  ∃ n v, JsonString n ∧ JsonValue lax v ∧ x = n ++ [58, 32] ++ v

theorem enum_object {lax : Bool} {xs : List Bytes} (h : ∀ x ∈ xs, IsPair lax x) :
    JsonValue lax (enumJoin [44, 32] [123] [125] xs) := by
  have hne : ∀ x ∈ xs, x ≠ [] := by
    intro x hx
    obtain ⟨n, v, _, _, rfl⟩ := h x hx
    simp
  cases xs with
  | nil => exact .emptyObject ws_nil
  | cons x xs =>
    unfold enumJoin
    rw [commaJoin xs x (hne x (by simp))]
    have hp : ∀ ys : List Bytes, (∀ y ∈ ys, IsPair lax y) → ∀ w, JsonWs w → ∃ l : List JsonMember,
        (∀ m ∈ l, JsonWs m.w1 ∧ JsonWs m.w2 ∧ JsonWs m.w3 ∧ JsonWs m.w4) ∧ (∀ m ∈ l, JsonString m.name) ∧
        (∀ m ∈ l, JsonValue lax m.value) ∧ l.map JsonMember.text = ys.map (w ++ ·) := by
      intro ys hys w hw
      induction ys with
      | nil => exact ⟨[], by simp⟩
      | cons y ys ih =>
        obtain ⟨l, h1, h2, h3, h4⟩ := ih fun z hz => hys z (by simp [hz])
        obtain ⟨n, v, hn, hv, rfl⟩ := hys y (by simp)
        refine ⟨⟨w, n, [], [32], v, []⟩ :: l, ?_, ?_, ?_, ?_⟩
        · intro m hm
          rcases List.mem_cons.1 hm with rfl | hm
          · exact ⟨hw, ws_nil, ws_space, ws_nil⟩
          · exact h1 m hm
        · intro m hm
          rcases List.mem_cons.1 hm with rfl | hm
          · exact hn
          · exact h2 m hm
        · intro m hm
          rcases List.mem_cons.1 hm with rfl | hm
          · exact hv
          · exact h3 m hm
        · rw [List.map_cons, h4]; simp [JsonMember.text]
    obtain ⟨l0, a1, a2, a3, a4⟩ := hp [x] (fun y hy => h y (by simp at hy; simp [hy])) [] ws_nil
    obtain ⟨l, b1, b2, b3, b4⟩ := hp xs (fun y hy => h y (by simp [hy])) [32] ws_space
    have := JsonValue.object (lax := lax) (l := l0 ++ l) (by
      rintro e
      have := (List.append_eq_nil_iff.1 e).1
      subst this
      simp at a4)
      (fun m hm => (List.mem_append.1 hm).elim (a1 m) (b1 m))
      (fun m hm => (List.mem_append.1 hm).elim (a2 m) (b2 m))
      (fun m hm => (List.mem_append.1 hm).elim (a3 m) (b3 m))
    rw [List.map_append, a4, b4] at this
    simpa using this

/-! ## The leaves -/

theorem i64_json {a a' : ABlob} {s : Bytes} (h : extractArithStr .i64 a = (.ok s, a')) : JsonNumber s := by
  rw [extractArithStr_abs] at h
  split at h
  · cases h
  · rename_i ha
    have h1 := (Prod.mk.inj h).1
    unfold decode at h1
    dsimp only at h1
    rw [if_pos (by rfl)] at h1
    split at h1 <;> · cases h1; exact .ofInt (intDec_spec _)

theorem double_json {n : Nat} (lax : Bool) (h : lax = true ∨ n / 2 ^ 52 % 2 ^ 11 ≠ 2047) :
    JsonValue lax (fmtG999 (decodeBits 11 52 n)) := by
  cases hd : decodeBits 11 52 n with
  | fin s q =>
    obtain ⟨m, k, rfl, h1, h2, h3⟩ := decodeBits_fin (.inl ⟨rfl, rfl⟩) hd
    exact .num (.ofQ (fmtG999_exact h1 h2 h3 s))
  | inf s =>
    rcases h with h | h
    · exact .nonfinite h (by cases s <;> decide)
    · unfold decodeBits at hd
      dsimp only at hd
      rw [if_neg (by simpa using h)] at hd
      split at hd <;> cases hd
  | nan s =>
    rcases h with h | h
    · exact .nonfinite h (by cases s <;> decide)
    · unfold decodeBits at hd
      dsimp only at hd
      rw [if_neg (by simpa using h)] at hd
      split at hd <;> cases hd

theorem f64_json {lax : Bool} {a a' : ABlob} {s : Bytes} (hw : lax = true ∨ FiniteWindows a)
    (h : extractArithStr .double a = (.ok s, a')) : JsonValue lax s := by
  rw [extractArithStr_abs] at h
  split at h
  · cases h
  · rename_i ha
    have h1 := (Prod.mk.inj h).1
    have e : decode .double (a.take ArithTy.double.size) = .bits (leNat (a.take 8)) := rfl
    rw [e, toString_double] at h1
    have h2 := Out.ok.inj h1
    rw [← h2]
    refine double_json lax (hw.imp_right fun hw => ?_)
    rw [leNat_eq]
    refine hw _ (List.take_prefix _ _).isInfix ?_
    have : ¬ a.length < 8 := ha
    rw [List.length_take]
    omega

theorem str_json {a a' : ABlob} {s : Bytes} (h : (extractJsonStr : M ABlob Bytes) a = (.ok s, a')) :
    JsonString s := by
  obtain ⟨w, a1, h1, h2⟩ := M.bind_eq_ok.1 h
  cases h2
  obtain ⟨e1, e2⟩ := extractDict_abs lcAlphaSmall (by decide +kernel) (by decide +kernel) a
  by_cases hl : a.length < (chooseStampSize lcAlphaSmall.length).1
  · rw [e1 hl] at h1; cases h1
  · obtain ⟨i, hi, _, e⟩ := e2 (by omega)
    rw [e] at h1
    have e3 : lcAlphaSmall[i] = w := Out.ok.inj (Prod.mk.inj h1).1
    refine ⟨w, word_chars (lcAlphaSmall_letters w ?_), by simp⟩
    rw [← e3]; exact List.getElem_mem hi

/-! ## All objects of the JSON stamp -/

theorem json_main {lax : Bool} (n : Nat) : ∀ (i : Nat) (fl fl' : Flags) (a a' : ABlob) (s : Bytes),
    (lax = true ∨ FiniteWindows a) → extract jsonGraph n i (fl, a) = (.ok s, (fl', a')) →
    (i ≤ 5 → JsonValue lax s) ∧ (i = 6 → IsPair lax s) ∧ (i = 7 → JsonString s) := by
  induction n with
  | zero => intro i fl fl' a a' s _ h; cases h
  | succ n ih =>
    intro i fl fl' a a' s hw h
    have hinf : ∀ {p : ABlob}, p <:+: a → lax = true ∨ FiniteWindows p := fun hp =>
      hw.imp_right fun hw w hw' hl => hw w (hw'.trans hp) hl
    have hxs : ∀ {c : Nat} {join : List Bytes → Bytes} {P : Bytes → Prop}, jsonGraph i = some (.vec c join) →
        (∀ fl fl' (p p' : ABlob) x, (lax = true ∨ FiniteWindows p) →
          extract jsonGraph n c (fl, p) = (.ok x, (fl', p')) → P x) →
        ∃ xs, (∀ x ∈ xs, P x) ∧ s = join xs := by
      intro c join P hG hP
      obtain ⟨mn, mx, parts, xs, _, _, _, h3, h4, rfl⟩ := extract_vec_ok hG h
      have hp := (pieces_vecSplit (infix_closed a) _ _ _ _ _ _ (List.infix_refl a) h3).2
      refine ⟨xs, ?_, rfl⟩
      clear h3 h
      induction h4 with
      | nil => simp
      | cons hx hr ih' =>
        obtain ⟨left, hx⟩ := hx
        intro x hm
        rcases List.mem_cons.1 hm with rfl | hm
        · exact hP _ _ _ _ _ (hinf (hp _ (by simp))) hx
        · exact ih' (fun p hp' => hp p (by simp [hp'])) x hm
    rcases i with _ | _ | _ | _ | _ | _ | _ | _ | i
    · refine ⟨fun _ => ?_, by simp, by simp⟩
      obtain ⟨o, a1, j, mn, _, ho, hj, _, _, hx, _⟩ := extract_picker_ok (i := 0) rfl h
      have := ih j _ _ _ _ _ (hinf (SufOk.oracle (infix_closed a) _ _ _ (List.infix_refl a) ho)) hx
      simp only [List.mem_cons, List.not_mem_nil, or_false] at hj
      exact this.1 (by rcases hj with rfl | rfl | rfl | rfl | rfl <;> norm_num)
    · exact ⟨fun _ => .num (i64_json (liftB_ok h).1), by simp, by simp⟩
    · exact ⟨fun _ => f64_json hw (liftB_ok h).1, by simp, by simp⟩
    · exact ⟨fun _ => .str (str_json (liftB_ok h).1), by simp, by simp⟩
    · refine ⟨fun _ => ?_, by simp, by simp⟩
      obtain ⟨xs, hx, rfl⟩ := hxs (P := JsonValue lax) rfl
        fun fl fl' p p' x hw hx => (ih 0 fl fl' p p' x hw hx).1 (by norm_num)
      exact enum_array hx
    · refine ⟨fun _ => ?_, by simp, by simp⟩
      obtain ⟨xs, hx, rfl⟩ := hxs (P := IsPair lax) rfl
        fun fl fl' p p' x hw hx => (ih 6 fl fl' p p' x hw hx).2.1 rfl
      exact enum_object hx
    · refine ⟨by simp, fun _ => ?_, by simp⟩
      obtain ⟨xs, _, hs, rfl⟩ := extract_seq_ok (i := 6) (G := jsonGraph) rfl h
      cases hs with
      | cons hx hs =>
        cases hs with
        | cons hy hs =>
          cases hs
          rename_i b' x y
          have hsuf := suf_extract jsonGraph n 7 (fl, a)
          rw [hx] at hsuf
          exact ⟨_, _, (ih 7 _ _ _ _ _ hw hx).2.2 rfl,
            (ih 0 _ _ _ _ _ (hinf (List.IsSuffix.isInfix hsuf)) hy).1 (by norm_num), rfl⟩
    · exact ⟨by simp, by simp, fun _ => str_json (liftB_ok h).1⟩
    · cases h

/-- **C42**, the part that holds for every blob: what `StampJSON` returns is a JSON text but for
doubles that are infinite or NaN, spelt `inf`, `-inf`, `nan` and `-nan`. Missing: those are not JSON
(`C42_violated`). -/
theorem C42_json_partial {b : Blob} {bs s left : Bytes} {fl : Flags} (hr : Reachable b) (hh : Holds b bs)
    (h : Returns jsonGraph fl 0 b s left) : LaxJsonText s := by
  obtain ⟨n, hn⟩ := Returns.inv hr hh h
  exact ⟨[], s, [], ws_nil, ws_nil, (json_main n 0 _ _ _ _ _ (.inl rfl) (hn n le_rfl)).1 (by norm_num), by simp⟩

/-- **C42**, in full, for blobs in which no eight bytes in a row are an infinite double or a NaN. -/
theorem C42_json_finite_partial {b : Blob} {bs s left : Bytes} {fl : Flags} (hr : Reachable b) (hh : Holds b bs)
    (hw : FiniteWindows bs) (h : Returns jsonGraph fl 0 b s left) : JsonText s := by
  obtain ⟨n, hn⟩ := Returns.inv hr hh h
  exact ⟨[], s, [], ws_nil, ws_nil, (json_main n 0 _ _ _ _ _ (.inr hw) (hn n le_rfl)).1 (by norm_num), by simp⟩

/-- The first byte of a JSON text. -/
theorem JsonValue.head {s : Bytes} (h : JsonValue false s) :
    ∃ c l, s = c :: l ∧ (IsDigit c ∨ c ∈ ([45, 34, 91, 123, 116, 102, 110] : Bytes)) := by
  cases h with
  | lit h => rcases h with rfl | rfl | rfl <;> exact ⟨_, _, rfl, .inr (by decide)⟩
  | num h =>
    obtain ⟨sg, ip, fp, ep, hs, ⟨h, hd, _⟩, _, _, rfl⟩ := h
    rcases hs with rfl | rfl
    · cases ip with
      | nil => exact absurd rfl h
      | cons c l => exact ⟨c, l ++ (fp ++ ep), by simp, .inl (hd c (by simp))⟩
    · exact ⟨45, ip ++ (fp ++ ep), by simp, .inr (by decide)⟩
  | str h => obtain ⟨cs, _, rfl⟩ := h; exact ⟨_, _, rfl, .inr (by decide)⟩
  | nonfinite h => cases h
  | _ => exact ⟨_, _, rfl, .inr (by decide)⟩

theorem inf_not_json : ¬ JsonText (str "inf") := by
  rintro ⟨w, v, w', hw, _, hv, e⟩
  obtain ⟨c, l, rfl, hc⟩ := hv.head
  have e' : str "inf" = [105, 110, 102] := by decide
  rw [e'] at e
  cases w with
  | nil =>
    simp only [List.nil_append, List.cons_append, List.cons.injEq] at e
    rw [← e.1] at hc
    rcases hc with hc | hc
    · exact absurd hc.2 (by decide)
    · exact absurd hc (by decide)
  | cons x w =>
    simp only [List.cons_append, List.cons.injEq] at e
    have := hw x (by simp)
    rw [← e.1] at this
    exact absurd this (by decide)

/-- Ten bytes: the middle candidate, then the infinite double. -/
def jsonInf : Bytes := [255, 127, 0, 0, 0, 0, 0, 0, 240, 127]

/-- **C42 is violated** by infinite doubles: on these ten bytes `StampJSON` returns `inf`. -/
theorem C42_violated {b : Blob} (hr : Reachable b) (hh : Holds b jsonInf) :
    Returns jsonGraph Flags.init 0 b (str "inf") [] ∧ ¬ JsonText (str "inf") := by
  refine ⟨Returns.intro hr.valid hh (Extracts.intro (n := 9) (extract_eval ?_ ?_) (by simp)), inf_not_json⟩ <;>
    decide +kernel

example : ¬ FiniteWindows jsonInf := fun h => h (jsonInf.drop 2) (List.drop_suffix _ _).isInfix rfl (by decide)

/-- A string, from a blob without non-finite doubles. -/
example {b : Blob} (hr : Reachable b) (hh : Holds b (255 :: 255 :: List.replicate 8 0)) :
    ∃ s left, Returns jsonGraph Flags.init 0 b s left ∧ JsonText s ∧ s = str "\"a\"" := by
  have h : Returns jsonGraph Flags.init 0 b (str "\"a\"") (List.replicate 7 0) := by
    refine Returns.intro hr.valid hh (Extracts.intro (n := 9) (extract_eval ?_ ?_) (by simp)) <;> decide +kernel
  refine ⟨_, _, h, C42_json_finite_partial hr hh ?_ h, rfl⟩
  have hf : ∀ k ≤ 10, littleEndian (((255 :: 255 :: List.replicate 8 0 : Bytes).drop k).take 8) / 2 ^ 52 % 2 ^ 11
      ≠ 2047 := by decide
  rintro w ⟨l, r, e⟩ hl
  have hk : l.length ≤ 10 := by
    have := congrArg List.length e
    simp at this
    omega
  have := hf l.length hk
  rw [← e, List.append_assoc, List.drop_left, ← hl, List.take_left] at this
  exact this

/-- An array of two numbers. -/
example : JsonText (str "[1, -2]") := by
  refine ⟨[], _, [], ws_nil, ws_nil, enum_array (xs := [intDec 1, intDec (-2)]) ?_, by decide⟩
  intro x hx
  simp only [List.mem_cons, List.not_mem_nil, or_false] at hx
  rcases hx with rfl | rfl <;> exact .num (.ofInt (intDec_spec _))

end BS
