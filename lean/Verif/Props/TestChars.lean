import Verif.TestChars
import Verif.Spec.TestChars
import Verif.Props.Format
import Verif.Props.Bin
import Verif.Props.Short
import Verif.Props.Compose

/-!
# C78: the stamps of the library's own tests
-/

namespace BS
open BlobLike

theorem takeWhile_append_zero (v : Bytes) : (v ++ [0]).takeWhile (· ≠ 0) = v.takeWhile (· ≠ 0) := by
  induction v with
  | nil => rfl
  | cons c v ih =>
    rw [List.cons_append, List.takeWhile_cons, List.takeWhile_cons, ih]

theorem cText_takeWhile (p : Bytes) : CText p (p.takeWhile (· ≠ 0)) := by
  refine ⟨fun h => by simpa using List.all_takeWhile (l := p) (p := (· ≠ 0)) |> fun h' => List.all_eq_true.1 h' 0 h, ?_⟩
  induction p with
  | nil => exact .inl rfl
  | cons c p ih =>
    rw [List.takeWhile_cons]
    by_cases hc : c = 0
    · subst hc
      exact .inr ⟨p, rfl⟩
    · rw [if_pos (by simpa using hc)]
      rcases ih with h | ⟨rest, h⟩
      · exact .inl (by rw [h])
      · exact .inr ⟨rest, by rw [List.cons_append, ← h]⟩

theorem CText.unique {p s : Bytes} (h : CText p s) : s = p.takeWhile (· ≠ 0) := by
  obtain ⟨h0, h⟩ := h
  have hs : s.takeWhile (· ≠ 0) = s := by
    have := List.takeWhile_append_of_pos (p := (· ≠ 0)) (l₁ := s) (l₂ := [])
      fun x hx => by simpa using fun e : x = 0 => h0 (e ▸ hx)
    simpa using this
  rcases h with rfl | ⟨rest, rfl⟩
  · exact hs.symm
  · rw [List.takeWhile_append_of_pos fun x hx => by simpa using fun e : x = 0 => h0 (e ▸ hx)]
    simp

theorem charsV_abs {mn mx : Nat} (h0 : 0 < mn) (h : mn ≤ mx) (a : ABlob) :
    charsV mn mx a = if a.length < mn then (.outOfData, a)
      else (.ok ((a.take mx).takeWhile (· ≠ 0)), a.drop mx) := by
  unfold charsV
  have hc : (chop2 mn mx : M ABlob ABlob) a
      = if a.length < mn then (.outOfData, a) else (.ok (a.take mx), a.drop mx) := by
    unfold chop2
    simp only [BlobLike.size, BlobLike.chop]
    split
    · rfl
    · split
      · rw [if_neg (by omega)]
      · rw [if_neg (by omega), List.take_of_length_le (by omega), List.drop_of_length_le (by omega),
          List.take_of_length_le (by omega), List.drop_of_length_le (by omega)]
  by_cases hn : a.length < mn
  · rw [if_pos hn] at hc ⊢; exact M.bind_ood hc
  · rw [if_neg hn] at hc ⊢
    rw [M.bind_ok hc]
    have : bytes (a.take mx : ABlob) = .ok (a.take mx) := by
      simp only [BlobLike.bytes]
      rw [if_neg (by rw [List.length_take]; omega)]
    rw [this, ← takeWhile_append_zero]
    rfl

theorem charsStamp_abs {mn mx : Nat} (h0 : 0 < mn) (h : mn ≤ mx) (a : ABlob) :
    (charsStamp mn mx).run a = charsV mn mx a := by
  rw [charsV_abs h0 h]
  have hv : ((fun b => (view b, b)) : M ABlob Bytes) a = (.ok a, a) := rfl
  unfold UserStamp.run
  refine (M.bind_ok (m := ((fun b => (view b, b)) : M ABlob Bytes)) hv).trans ?_
  refine (M.bind_ok (m := M.get) (a := a) (s' := a) rfl).trans ?_
  by_cases hn : a.length < mn
  · have e : (charsStamp mn mx).behave a = (.outOfData, 0) := if_pos hn
    rw [e, if_pos hn]
    show (chop (min 0 a.length) >>= fun _ => M.lift .outOfData : M ABlob Bytes) a = _
    rw [Nat.zero_min]
    rfl
  · have e : (charsStamp mn mx).behave a = (.ok ((a.take mx).takeWhile (· ≠ 0)), min mx a.length) := if_neg hn
    rw [e, if_neg hn]
    have hc : (chop (min (min mx a.length) a.length) : M ABlob ABlob) a = (.ok (a.take mx), a.drop mx) := by
      show (if a.length < _ then _ else _) = _
      rw [if_neg (by omega)]
      by_cases hm : mx ≤ a.length
      · rw [Nat.min_eq_left hm, Nat.min_eq_left hm]
      · rw [Nat.min_eq_right (by omega : a.length ≤ mx), Nat.min_self, List.take_of_length_le (by omega),
          List.drop_of_length_le (by omega), List.take_of_length_le (by omega), List.drop_of_length_le (by omega)]
    exact M.bind_ok hc

theorem sim_charsV {mn mx : Nat} (h0 : 0 < mn) (h : mn ≤ mx) : Sim BR Eq (charsV mn mx) (charsV mn mx) := by
  refine .bind (sim_chop2_sz mn mx h0 h) ?_
  rintro c c' ⟨hc, hn⟩
  rw [sim_bytes hc hn]
  refine .bind .lift ?_
  rintro v _ rfl
  exact .pure rfl

/-- **C78**, `StampTwoChars` (2 and 2) and `StampSeveralChars` (2 and 8): with fewer bytes than the minimum they throw
and take nothing; otherwise they take as many bytes as they may and return them up to the first NUL. -/
theorem C78_chars {mn mx : Nat} (h0 : 0 < mn) (h : mn ≤ mx) {b : Blob} {bs : Bytes} (hr : Reachable b)
    (hh : Holds b bs) :
    (bs.length < mn → ∃ b', charsV mn mx b = (.outOfData, b') ∧ Holds b' bs) ∧
    (mn ≤ bs.length → ∃ p s left b', bs = p ++ left ∧ p.length = min mx bs.length ∧ CText p s ∧
      charsV mn mx b = (.ok s, b') ∧ Holds b' left) := by
  obtain ⟨e1, e2⟩ := (sim_charsV h0 h).run hr.valid
  rw [(holds_iff hr.valid _).1 hh, charsV_abs h0 h] at e1 e2
  have hp : charsV mn mx b = ((charsV mn mx b).1, (charsV mn mx b).2) := rfl
  constructor
  · intro hn
    rw [if_pos hn] at e1 e2
    exact ⟨_, hp.trans (by rw [e1]), (holds_iff e2.1 _).2 e2.2⟩
  · intro hn
    rw [if_neg (by omega)] at e1 e2
    exact ⟨bs.take mx, _, bs.drop mx, _, (List.take_append_drop mx bs).symm, List.length_take, cText_takeWhile _,
      hp.trans (by rw [e1]), (holds_iff e2.1 _).2 e2.2⟩

/-- **C78**, `StampTwoChars`: with two bytes or more it takes two, otherwise it throws and takes nothing. -/
theorem C78_two {b : Blob} {bs : Bytes} (hr : Reachable b) (hh : Holds b bs) :
    (bs.length < 2 → ∃ b', twoCharsV b = (.outOfData, b') ∧ Holds b' bs) ∧
    (∀ x y rest, bs = x :: y :: rest → ∃ s b', CText [x, y] s ∧ twoCharsV b = (.ok s, b') ∧ Holds b' rest) := by
  obtain ⟨h1, h2⟩ := C78_chars (mn := 2) (mx := 2) (by decide) le_rfl hr hh
  refine ⟨h1, ?_⟩
  rintro x y rest rfl
  obtain ⟨p, s, left, b', e, hl, ht, hv, hb⟩ := h2 (by simp)
  have hl : p.length = 2 := by rw [hl]; simp
  obtain ⟨u, v, rfl⟩ := List.length_eq_two.1 hl
  simp only [List.cons_append, List.nil_append, List.cons.injEq] at e
  obtain ⟨rfl, rfl, rfl⟩ := e
  exact ⟨s, b', ht, hv, hb⟩

/-- **C78**, `StampSeveralChars`: with eight bytes or more it takes eight, with two to eight all of them, otherwise it
throws and takes nothing. -/
theorem C78_several {b : Blob} {bs : Bytes} (hr : Reachable b) (hh : Holds b bs) :
    (bs.length < 2 → ∃ b', severalCharsV b = (.outOfData, b') ∧ Holds b' bs) ∧
    (2 ≤ bs.length → bs.length ≤ 8 → ∃ s b', CText bs s ∧ severalCharsV b = (.ok s, b') ∧ Holds b' []) ∧
    (∀ p left, bs = p ++ left → p.length = 8 →
      ∃ s b', CText p s ∧ severalCharsV b = (.ok s, b') ∧ Holds b' left) := by
  obtain ⟨h1, h2⟩ := C78_chars (mn := 2) (mx := 8) (by decide) (by decide) hr hh
  refine ⟨h1, fun h3 h4 => ?_, ?_⟩
  · obtain ⟨p, s, left, b', e, hl, ht, hv, hb⟩ := h2 h3
    have h5 : left = [] := by
      have := congrArg List.length e
      rw [List.length_append] at this
      exact List.length_eq_zero_iff.1 (by omega)
    subst h5
    rw [List.append_nil] at e
    subst e
    exact ⟨s, b', ht, hv, hb⟩
  · rintro q rest rfl hq
    obtain ⟨p, s, left, b', e, hl, ht, hv, hb⟩ := h2 (by rw [List.length_append]; omega)
    obtain ⟨rfl, rfl⟩ := List.append_inj e (by rw [hl, List.length_append]; omega)
    exact ⟨s, b', ht, hv, hb⟩

/-- **C78**: as objects under other stamps they do the same. -/
theorem C78_object {mn mx : Nat} (h0 : 0 < mn) (h : mn ≤ mx) {b : Blob} (hr : Reachable b) :
    ((charsStamp mn mx).run b).1 = (charsV mn mx b).1 ∧
    ∀ bs, Holds ((charsStamp mn mx).run b).2 bs ↔ Holds (charsV mn mx b).2 bs := by
  obtain ⟨e1, e2⟩ := (sim_charsV h0 h).run hr.valid
  obtain ⟨f1, f2⟩ := (sim_userRun (charsStamp mn mx)).run hr.valid
  rw [charsStamp_abs h0 h] at f1 f2
  exact ⟨f1.trans e1.symm, fun bs => by rw [holds_iff e2.1, holds_iff f2.1, e2.2, f2.2]⟩

theorem extract_user (G : Graph) {i : Id} {u : UserStamp} (hG : G i = some (.user u)) (n : Nat) (fl : Flags) (a : ABlob) :
    extract G (n + 1) i (fl, a) = ((u.run a).1, (fl, (u.run a).2)) := by
  unfold extract
  rw [hG]
  have hc : (chop (min (u.behave a).2 a.length) : M ABlob ABlob) a
      = (.ok (a.take (min (u.behave a).2 a.length)), a.drop (min (u.behave a).2 a.length)) := by
    show (if a.length < _ then _ else _) = _
    rw [if_neg (by omega)]
  have e : u.run a = ((u.behave a).1, a.drop (min (u.behave a).2 a.length)) := by
    unfold UserStamp.run
    refine (M.bind_ok (m := ((fun b => (view b, b)) : M ABlob Bytes)) (a := a) (s' := a) rfl).trans ?_
    refine (M.bind_ok (m := M.get) (a := a) (s' := a) rfl).trans ?_
    exact M.bind_ok hc
  rw [e]
  refine (M.bind_ok (m := liftB ((fun b => (view b, b)) : M ABlob Bytes)) (a := a) (s' := (fl, a)) rfl).trans ?_
  refine (M.bind_ok (m := curSize) (a := a.length) (s' := (fl, a)) rfl).trans ?_
  refine (M.bind_ok (a := a.take (min (u.behave a).2 a.length)) (s' := (fl, a.drop (min (u.behave a).2 a.length))) ?_).trans rfl
  show ((chop _ : M ABlob ABlob) a).1 |> fun o => (o, (fl, ((chop _ : M ABlob ABlob) a).2)) = _
  rw [hc]

/-- What a stamp over characters gives. -/
theorem chars_gives {G : Graph} {fl : Flags} {i : Id} {mn mx : Nat} (h0 : 0 < mn) (h : mn ≤ mx)
    (hG : G i = some (.user (charsStamp mn mx))) {p : Bytes} (h1 : mn ≤ p.length) :
    Gives G fl i p ((p.take mx).takeWhile (· ≠ 0)) := by
  refine Gives.intro (n := 1) (left := p.drop mx) ?_
  rw [extract_user G hG 0 fl p, charsStamp_abs h0 h, charsV_abs h0 h, if_neg (by omega)]

theorem chars_sizes {G : Graph} {fl : Flags} {i : Id} {mn mx : Nat} (hG : G i = some (.user (charsStamp mn mx))) :
    HasMin G fl i mn ∧ HasMax G fl i mx := by
  constructor
  · refine .intro (n := 1) ?_
    unfold sizeQ; rw [hG]; rfl
  · refine .intro (n := 1) ?_
    unfold sizeQ; rw [hG]; rfl

/-- **C78**: the stamps keep what `minSize()` promises, as the theorems about stamps that refuse short data, and that
give data back, ask for. -/
theorem C78_exacting {mn mx : Nat} (h : mn ≤ mx) :
    (Node.user (charsStamp mn mx)).Exacting ∧ (Node.user (charsStamp mn mx)).Harmless := by
  refine ⟨⟨Int.natCast_nonneg mn, fun bs hn => ?_, fun bs hn => ?_⟩, fun bs hn => ?_⟩
  · have hn : bs.length < mn := Int.ofNat_lt.1 hn
    show (if bs.length < mn then _ else _ : Out Bytes × Nat).1 = _
    rw [if_pos hn]
  · have hn : mn ≤ bs.length := Int.ofNat_le.1 hn
    have e : (charsStamp mn mx).behave bs = (.ok ((bs.take mx).takeWhile (· ≠ 0)), min mx bs.length) := if_neg (by omega)
    rw [e]
    refine ⟨⟨_, rfl⟩, ?_⟩
    show (mn : Int) ≤ (min mx bs.length : Nat)
    exact_mod_cast le_min h hn
  · by_cases hb : bs.length < mn
    · show (if bs.length < mn then _ else _ : Out Bytes × Nat).2 = 0
      rw [if_pos hb]
    · have e : (charsStamp mn mx).behave bs = (.ok ((bs.take mx).takeWhile (· ≠ 0)), min mx bs.length) := if_neg hb
      rw [e] at hn
      cases hn

/-- **C78**, `StampTwoCharsList`: with fewer than two bytes it throws and takes nothing. Otherwise it cuts the blob
into pairs, leaving an odd byte, and returns the texts of the pairs in brackets, with commas after the first text that
is not empty: empty texts before it leave no trace. -/
theorem C78_list {fl : Flags} {b : Blob} {bs : Bytes} (hr : Reachable b) (hh : Holds b bs) (hl : bs.length < 2 ^ 32) :
    (bs.length < 2 → Throws twoCharsList fl 0 b bs) ∧
    (2 ≤ bs.length → ∃ parts xs left, bs = parts.flatten ++ left ∧ (∀ p ∈ parts, p.length = 2) ∧ left.length < 2 ∧
      List.Forall₂ CText parts xs ∧
      Returns twoCharsList fl 0 b
        ("(".toUTF8.toList ++ (", ".toUTF8.toList).intercalate (xs.dropWhile (·.isEmpty)) ++ ")".toUTF8.toList) left) := by
  have hG : twoCharsList 0 = some (.enumerator 1 (str ", ") (str "(") (str ")")) := rfl
  have hs := chars_sizes (G := twoCharsList) (fl := fl) (i := 1) (mn := 2) (mx := 2) rfl
  obtain ⟨c1, c2⟩ := C16_fixed_pieces (n := 2) (by decide) (by decide) hr hh
  constructor
  · intro hn
    exact ((C67_list hG hr).2 bs).2 ⟨_, _, hs.1, hs.2, .inl (c1 hn)⟩
  · intro hn
    obtain ⟨parts, left, h1, h2, h3, h4, h5⟩ := c2 hn
    refine ⟨parts, parts.map (·.takeWhile (· ≠ 0)), left, h2.symm, h4, h5, ?_, ?_⟩
    · rw [List.forall₂_map_right_iff, List.forall₂_same]
      exact fun p _ => cText_takeWhile p
    · refine ((C67_list hG hr).1 _ _).2 ⟨_, _, parts, parts.map (·.takeWhile (· ≠ 0)), hs.1, hs.2, h1, ?_, ?_, ?_⟩
      · rw [List.forall₂_map_right_iff, List.forall₂_same]
        intro p hp
        have := chars_gives (G := twoCharsList) (fl := fl) (i := 1) (mn := 2) (mx := 2) (by decide) le_rfl rfl
          (p := p) (h4 p hp).ge
        rwa [List.take_of_length_le (h4 p hp).le] at this
      · rw [h3]; show bs.length / 2 ≤ 2147483647; omega
      · have e1 : "(".toUTF8.toList = str "(" := by decide +kernel
        have e2 : ")".toUTF8.toList = str ")" := by decide +kernel
        have e3 : ", ".toUTF8.toList = str ", " := by decide +kernel
        rw [enumJoin, joinLoop_eq, e1, e2, e3]

/-- t/100 1-3, 5-9: two characters of "1234567"; eight and two of "1234567890"; one byte is too few. -/
example : twoCharsV (str "1234567" : ABlob) = (.ok (str "12"), str "34567") ∧
    severalCharsV (str "1234567890" : ABlob) = (.ok (str "12345678"), str "90") ∧
    severalCharsV (str "90" : ABlob) = (.ok (str "90"), []) ∧
    severalCharsV (str "9" : ABlob) = (.outOfData, str "9") ∧
    twoCharsV (str "1" : ABlob) = (.outOfData, str "1") := by
  decide +kernel

/-- Seven bytes, of which the first is NUL and so is the fourth. -/
example : (extract twoCharsList 5 0 (Flags.init, ([0, 65, 66, 0, 67, 68, 69] : ABlob))).1 = .ok (str "(B, CD)") ∧
    CText [0, 65] [] ∧ CText [66, 0] [66] ∧ CText [67, 68] [67, 68] := by
  refine ⟨by decide +kernel, ⟨by decide, .inr ⟨[65], rfl⟩⟩, ⟨by decide, .inr ⟨[], rfl⟩⟩, ⟨by decide, .inl rfl⟩⟩

/-- t/100 10. -/
example {b : Blob} (hr : Reachable b) (hh : Holds b (str "1")) : Throws twoCharsList Flags.init 0 b (str "1") :=
  (C78_list hr hh (by decide +kernel)).1 (by decide +kernel)

end BS
