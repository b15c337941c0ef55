import Verif.Lemmas.UnbExact
import Verif.Lemmas.UnbRuns
import Verif.Spec.JsonTree
import Verif.Props.JsonOut
import Verif.Props.FloatText

/-!
# Exactly which JSON values `StampJSON` makes (C61, C62)
-/

namespace BS

/-! ## What the leaves return -/

theorem i64_tree (full : Prop) {a a' : ABlob} {s : Bytes} (h : extractArithStr .i64 a = (.ok s, a')) :
    ∃ t, JRoom full t 10 ∧ JText t s := by
  rw [extractArithStr_abs] at h
  split at h
  · cases h
  · rename_i ha
    have ha : ¬ a.length < 8 := ha
    obtain ⟨i, e, hr, _⟩ := decode_range .i64 rfl (bs := a.take 8)
      (by rw [List.length_take]; show min 8 _ = 8; omega)
    have h1 := (Prod.mk.inj h).1
    have e' : decode .i64 (a.take ArithTy.i64.size) = .int i := e
    rw [e'] at h1
    have h2 : intDec i = s := Out.ok.inj h1
    rw [if_pos (by rfl)] at hr
    exact ⟨.int i, .int hr.1 hr.2, .int (h2 ▸ intDec_spec i)⟩

theorem dbl_tree (full : Prop) {a a' : ABlob} {s : Bytes} (h : extractArithStr .double a = (.ok s, a')) :
    ∃ t, JRoom full t 10 ∧ JText t s := by
  rw [extractArithStr_abs] at h
  split at h
  · cases h
  · rename_i ha
    have ha : ¬ a.length < 8 := ha
    have h1 := (Prod.mk.inj h).1
    have e : decode .double (a.take ArithTy.double.size) = .bits (leNat (a.take 8)) := rfl
    rw [e, toString_double] at h1
    have h2 := Out.ok.inj h1
    have hlt := leNat_lt (a.take 8)
    rw [List.length_take, Nat.min_eq_left (by omega)] at hlt
    generalize leNat (a.take 8) = n at *
    have hs : n / 2 ^ 63 < 2 := by omega
    have he : n / 2 ^ 52 % 2048 < 2048 := by omega
    have hm : n % 2 ^ 52 < 2 ^ 52 := by omega
    have hn : n = n / 2 ^ 63 * 2 ^ 63 + n / 2 ^ 52 % 2048 * 2 ^ 52 + n % 2 ^ 52 := by omega
    refine ⟨.dbl (n / 2 ^ 63) (n / 2 ^ 52 % 2048) (n % 2 ^ 52), .dbl hs he hm, ?_⟩
    by_cases h7 : n / 2 ^ 52 % 2048 = 2047
    · rw [h7] at hn ⊢
      refine .inf ?_
      rw [← h2, decode_nonfinite hs (mb := 52) (eb := 11) hm hn]
    · exact .dbl (by omega) (h2 ▸ double_exact hs (by omega) hm hn)

theorem word_tree {a a' : ABlob} {s : Bytes} (h : (extractJsonStr : M ABlob Bytes) a = (.ok s, a')) :
    ∃ w ∈ lcAlphaSmall, s = quoted w ∧ a' = a.drop 1 ∧ 1 ≤ a.length := by
  obtain ⟨w, a1, h1, h2⟩ := M.bind_eq_ok.1 h
  cases h2
  obtain ⟨e1, e2⟩ := extractDict_abs lcAlphaSmall (by decide +kernel) (by decide +kernel) a
  have hc : chooseStampSize lcAlphaSmall.length = (1, 255) := by decide +kernel
  rw [hc] at e1 e2
  by_cases hl : a.length < 1
  · rw [e1 hl] at h1; cases h1
  · obtain ⟨i, hi, _, e⟩ := e2 (by show 1 ≤ _; omega)
    rw [e] at h1
    have e3 : lcAlphaSmall[i] = w := Out.ok.inj (Prod.mk.inj h1).1
    exact ⟨w, e3 ▸ List.getElem_mem hi, rfl, (Prod.mk.inj h1).2.symm, by omega⟩

theorem JText.ne_nil {t : JTree} {s : Bytes} (h : JText t s) : s ≠ [] := by
  cases h with
  | int h =>
    rcases h with ⟨_, h, _⟩ | ⟨_, _, rfl, _⟩
    · exact h.1
    · simp
  | dbl _ h =>
    obtain ⟨_, ip, _, _, _, _, rfl, h, _⟩ := h
    have := h.1
    simp [this]
  | inf h => rw [h]; split <;> split <;> decide
  | word => simp [quoted]
  | arr => simp
  | obj => simp

/-! ## The galley inside -/

theorem jsonSize_run {n : Nat} (hn : 9 ≤ n) {sel : Sel} {j : Id} {v w : Int}
    (h : (sizeQ jsonGraph 9 sel j Flags.init).1 = .ok v) (hq : sizeQ jsonGraph n sel j Flags.init = (.ok w, Flags.init)) :
    w = v := by
  rcases fle_sizeQ jsonGraph hn sel j Flags.init with e | e
  · rw [h] at e; cases e
  · rw [e, hq] at h; exact Out.ok.inj h

theorem jsonSize_ok {n : Nat} (hn : 9 ≤ n) {sel : Sel} {j : Id} {v : Int}
    (h : (sizeQ jsonGraph 9 sel j Flags.init).1 = .ok v) : sizeQ jsonGraph n sel j Flags.init = (.ok v, Flags.init) := by
  have h2 : sizeQ jsonGraph 9 sel j Flags.init = (.ok v, Flags.init) :=
    Prod.ext h ((keeps_sizeQ jsonGraph 9 sel j Flags.init).2.2 _ _ (Prod.ext h rfl))
  rcases fle_sizeQ jsonGraph hn sel j Flags.init with e | e
  · rw [h] at e; cases e
  · rw [← e, h2]

theorem extract_lift {G : Graph} {n m : Nat} (h : n ≤ m) {i : Id} {s : Flags × ABlob} {x : Bytes} {s' : Flags × ABlob}
    (e : extract G n i s = (.ok x, s')) : extract G m i s = (.ok x, s') := by
  rcases fle_extract (β := ABlob) G h i s with e' | e'
  · rw [e] at e'; cases e'
  · rw [← e', e]

/-- Elements and the room they need, from the pieces. -/
theorem pieces_trees {P : ABlob → Bytes → Prop} {Q : JTree → Nat → Bytes → Prop} {g : Nat → Nat}
    {ps : List ABlob} {xs : List Bytes} (h : List.Forall₂ P ps xs)
    (hP : ∀ p ∈ ps, ∀ x, P p x → ∃ t r, Q t r x ∧ g r ≤ p.length) :
    ∃ q : List (JTree × Nat × Bytes), q.map (fun z => z.2.2) = xs ∧ (∀ z ∈ q, Q z.1 z.2.1 z.2.2) ∧
      q.length = ps.length ∧ (q.map fun z => 2 + g z.2.1).sum ≤ 2 * ps.length + ps.flatten.length := by
  induction h with
  | nil => exact ⟨[], rfl, by simp, rfl, by simp⟩
  | cons hx _ ih =>
    rename_i p x ps xs _
    obtain ⟨q, h1, h2, h3, h4⟩ := ih fun p' hp' => hP p' (by simp [hp'])
    obtain ⟨t, r, h5, h6⟩ := hP p (by simp) x hx
    refine ⟨(t, r, x) :: q, by simp [h1], ?_, by simp [h3], ?_⟩
    · intro z hz
      rcases List.mem_cons.1 hz with rfl | hz
      · exact h5
      · exact h2 z hz
    · simp only [List.map_cons, List.sum_cons, List.length_cons, List.flatten_cons, List.length_append]
      omega

/-- What the galley of an array or a hash does, when it returns: the pieces and what is left of them. -/
theorem json_galley {m : Nat} (hm : m = 10 ∨ m = 18) {n : Nat} {a a' : ABlob} {parts : List ABlob}
    (hl : a.length < 2 ^ 31) (hge : m + 4 ≤ a.length) (h : vecSplit n (m : Int) (-1) a = (.ok parts, a')) :
    (∀ p ∈ parts, m ≤ p.length) ∧ 2 + 2 * parts.length + parts.flatten.length ≤ a.length ∧
      (a.length ≤ 786421 → parts ≠ []) ∧ parts.length ≤ 65535 := by
  rw [vecSplit_enough (by omega) (by rcases hm with rfl | rfl <;> decide) (by omega), if_neg (by omega), if_pos rfl] at h
  obtain ⟨h1, h2, h3, h4⟩ := vecUnbounded_ok (m := m) (by rcases hm with rfl | rfl <;> norm_num) hl h
  refine ⟨h2, ?_, fun hs => ?_, ?_⟩
  · have := congrArg List.length h3
    rw [List.length_append, List.length_drop] at this
    omega
  · have ho := leNat_lt (a.take 2)
    rw [List.length_take, Nat.min_eq_left (by omega)] at ho
    have := (countTarget_range (cm := (a.length - 2) / (m + 2)) (co := leNat (a.take 2))
      (by rw [Nat.le_div_iff_mul_le (by omega)]; omega)
      (by rcases hm with rfl | rfl <;> omega) (by omega)).1
    intro e
    rw [e] at h1
    simp at h1
    omega
  · rw [h1]
    unfold countTarget
    dsimp only
    split <;> omega

theorem extract_name (n : Nat) : (extract jsonGraph (n + 1) 7 : XM ABlob Bytes) = liftB extractJsonStr := by
  rfl

theorem str_colon : str ": " = [58, 32] := by decide

theorem annotate {α γ : Type} {R : α → γ → Prop} {l : List α} (h : ∀ x ∈ l, ∃ y, R x y) :
    ∃ m : List (α × γ), m.map Prod.fst = l ∧ ∀ z ∈ m, R z.1 z.2 := by
  induction l with
  | nil => exact ⟨[], rfl, by simp⟩
  | cons x l ih =>
    obtain ⟨m, e, hm⟩ := ih fun x hx => h x (by simp [hx])
    obtain ⟨y, hy⟩ := h x (by simp)
    refine ⟨(x, y) :: m, by simp [e], ?_⟩
    intro z hz
    rcases List.mem_cons.1 hz with rfl | hz
    · exact hy
    · exact hm z hz

theorem enumJoin_ne {sep l r : Bytes} {xs : List Bytes} (h : ∀ x ∈ xs, x ≠ []) :
    enumJoin sep l r xs = l ++ (sep.intercalate xs ++ r) := by
  unfold enumJoin
  cases xs with
  | nil => simp [joinLoop, List.intercalate]
  | cons x xs =>
    have hx := h x (by simp)
    have e : joinLoop sep [] (x :: xs) = joinLoop sep x xs := by
      show joinLoop sep (([] : Bytes) ++ x) xs = _
      rw [List.nil_append]
    rw [e, joinLoop_nonempty sep x hx, List.append_assoc]

/-- **C61**, on the bytes. -/
theorem json_tree (full : Prop) (L : Nat) : ∀ (n : Nat) (a a' : ABlob) (fl' : Flags) (s : Bytes),
    a.length ≤ L → a.length < 2 ^ 31 → (full → a.length ≤ 786423) →
    extract jsonGraph n 0 (Flags.init, a) = (.ok s, (fl', a')) →
    ∃ t r, (JRoom full t r ∧ JText t s) ∧ r ≤ a.length ∧ (16 ≤ a.length → t.container = true) := by
  induction L with
  | zero =>
    intro n a a' fl' s hL _ _ h
    exfalso
    cases n with
    | zero => cases h
    | succ n =>
      obtain ⟨o, a1, _, _, _, ho, _⟩ := extract_picker_ok (i := 0) rfl h
      rw [oracle_abs, if_pos (by omega)] at ho
      cases ho
  | succ L ih =>
    intro n a a' fl' s hL hB hF h
    have h := extract_lift (m := (n + 12) + 1) (by omega) h
    obtain ⟨o, a1, j, mn, _, ho, hj, hmn, hle, hx, hun⟩ := extract_picker_ok (i := 0) rfl h
    rw [oracle_abs] at ho
    split at ho
    · cases ho
    rename_i h2
    obtain ⟨-, rfl⟩ := Prod.mk.inj ho
    have hdl : (a.drop 2).length = a.length - 2 := List.length_drop
    have hsz : BlobLike.size (a.drop 2) = a.length - 2 := hdl
    rw [hsz] at hle hun
    generalize ha1 : a.drop 2 = a1 at *
    -- a container is chosen as soon as an array can take everything
    have hcont : 16 ≤ a.length → j = 4 ∨ j = 5 := by
      intro h16
      obtain ⟨mx, hmx, hor⟩ := hun ⟨4, by simp, ⟨14, jsonSize_ok (by omega) (by decide +kernel), by show 14 ≤ _; omega⟩,
        -1, jsonSize_ok (by omega) (by decide +kernel), .inl rfl⟩
      simp only [List.mem_cons, List.not_mem_nil, or_false] at hj
      rcases hj with rfl | rfl | rfl | rfl | rfl
      · have := jsonSize_run (by omega) (v := 8) (by decide +kernel) hmx
        subst this
        exfalso; rcases hor with e | e
        · cases e
        · have : a.length - 2 ≤ 8 := e
          omega
      · have := jsonSize_run (by omega) (v := 8) (by decide +kernel) hmx
        subst this
        exfalso; rcases hor with e | e
        · cases e
        · have : a.length - 2 ≤ 8 := e
          omega
      · have := jsonSize_run (by omega) (v := 8) (by decide +kernel) hmx
        subst this
        exfalso; rcases hor with e | e
        · cases e
        · have : a.length - 2 ≤ 8 := e
          omega
      · exact .inl rfl
      · exact .inr rfl
    simp only [List.mem_cons, List.not_mem_nil, or_false] at hj
    rcases hj with rfl | rfl | rfl | rfl | rfl
    · have := jsonSize_run (by omega) (v := 8) (by decide +kernel) hmn
      subst this
      have hle : 8 ≤ a.length - 2 := hle
      obtain ⟨t, h1, h2⟩ := i64_tree full (liftB_ok hx).1
      exact ⟨t, 10, ⟨h1, h2⟩, by omega, fun h => absurd (hcont h) (by decide)⟩
    · have := jsonSize_run (by omega) (v := 8) (by decide +kernel) hmn
      subst this
      have hle : 8 ≤ a.length - 2 := hle
      obtain ⟨t, h1, h2⟩ := dbl_tree full (liftB_ok hx).1
      exact ⟨t, 10, ⟨h1, h2⟩, by omega, fun h => absurd (hcont h) (by decide)⟩
    · have := jsonSize_run (by omega) (v := 8) (by decide +kernel) hmn
      subst this
      have hle : 8 ≤ a.length - 2 := hle
      obtain ⟨w, h1, h2, _⟩ := word_tree (liftB_ok hx).1
      exact ⟨.word w, 10, ⟨.word h1, h2 ▸ .word⟩, by omega, fun h => absurd (hcont h) (by decide)⟩
    · have := jsonSize_run (by omega) (v := 14) (by decide +kernel) hmn
      subst this
      have hle : 14 ≤ a.length - 2 := hle
      obtain ⟨mn, mx, parts, xs, _, q1, q2, h3, h4, rfl⟩ := extract_vec_ok (G := jsonGraph) (i := 4) rfl hx
      have := jsonSize_run (by omega) (v := 10) (by decide +kernel) q1
      subst this
      have := jsonSize_run (by omega) (v := -1) (by decide +kernel) q2
      subst this
      obtain ⟨g1, g2, g3, g4⟩ := json_galley (m := 10) (.inl rfl) (by omega) (by omega) h3
      have hpl : ∀ p ∈ parts, p.length ≤ parts.flatten.length := fun p hp =>
        (List.sublist_flatten_of_mem hp).length_le
      obtain ⟨q, e1, e2, e3, e4⟩ := pieces_trees (Q := fun t r x => JRoom full t r ∧ JText t x) (g := id) h4
        (by
          rintro p hp x ⟨left, hx⟩
          have := hpl p hp
          obtain ⟨t, r, h1, h2, _⟩ := ih _ p _ _ x (by omega) (by omega) (fun hf => by have := hF hf; omega) hx
          exact ⟨t, r, h1, h2⟩)
      refine ⟨.arr ((q.map fun z => (z.1, z.2.1)).map Prod.fst),
        4 + ((q.map fun z => (z.1, z.2.1)).map fun p => 2 + p.2).sum, ⟨.arr ?_ ?_ ?_, ?_⟩, ?_, fun _ => rfl⟩
      · intro hf e
        have := hF hf
        refine g3 (by omega) (List.length_eq_zero_iff.1 ?_)
        rw [← e3, List.map_eq_nil_iff.1 e]; rfl
      · rw [List.length_map, e3]; exact g4
      · intro p hp
        obtain ⟨z, hz, rfl⟩ := List.mem_map.1 hp
        exact (e2 z hz).1
      · rw [enumJoin_ne (fun x hx => by
          rw [← e1] at hx
          obtain ⟨z, hz, rfl⟩ := List.mem_map.1 hx
          exact (e2 z hz).2.ne_nil)]
        have := JText.arr (l := q.map fun z => (z.1, z.2.2)) (fun p hp => by
          obtain ⟨z, hz, rfl⟩ := List.mem_map.1 hp
          exact (e2 z hz).2)
        simp only [List.map_map, Function.comp_def] at this ⊢
        rw [e1] at this
        exact this
      · simp only [List.map_map, Function.comp_def, id] at e4 ⊢
        omega
    · have := jsonSize_run (by omega) (v := 22) (by decide +kernel) hmn
      subst this
      have hle : 22 ≤ a.length - 2 := hle
      obtain ⟨mn, mx, parts, xs, _, q1, q2, h3, h4, rfl⟩ := extract_vec_ok (G := jsonGraph) (i := 5) rfl hx
      have := jsonSize_run (by omega) (v := 18) (by decide +kernel) q1
      subst this
      have := jsonSize_run (by omega) (v := -1) (by decide +kernel) q2
      subst this
      obtain ⟨g1, g2, g3, g4⟩ := json_galley (m := 18) (.inr rfl) (by omega) (by omega) h3
      have hpl : ∀ p ∈ parts, p.length ≤ parts.flatten.length := fun p hp =>
        (List.sublist_flatten_of_mem hp).length_le
      obtain ⟨q, e1, e2, e3, e4⟩ := pieces_trees (Q := fun t r x => ∃ w ∈ lcAlphaSmall, ∃ y,
          x = quoted w ++ str ": " ++ y ∧ JRoom full t r ∧ JText t y ∧ t.container = true)
          (g := fun r => max 18 (1 + r)) h4
        (by
          rintro p hp x ⟨left, hx⟩
          have := hpl p hp
          have hp18 := g1 p hp
          obtain ⟨xs, _, hs, rfl⟩ := extract_seq_ok (i := 6) (G := jsonGraph) rfl hx
          cases hs with
          | cons hname hs =>
            cases hs with
            | cons hy hs =>
              cases hs
              rename_i b' x y
              have hz : liftB extractJsonStr (Flags.init, p) = (.ok x, (Flags.init, b')) := hname
              obtain ⟨w, hw, rfl, rfl, _⟩ := word_tree (liftB_ok hz).1
              have hd : (p.drop 1).length = p.length - 1 := List.length_drop
              obtain ⟨t, r, h1, h2, h3⟩ := ih _ (p.drop 1) _ _ y (by omega) (by omega)
                (fun hf => by have := hF hf; omega) hy
              exact ⟨t, r, ⟨w, hw, y, by rw [str_colon]; rfl, h1.1, h1.2, h3 (by omega)⟩, by omega⟩)
      obtain ⟨q', rfl, e5⟩ := annotate (R := fun (z : JTree × Nat × Bytes) (v : Bytes × Bytes) => v.1 ∈ lcAlphaSmall ∧
        z.2.2 = quoted v.1 ++ str ": " ++ v.2 ∧ JRoom full z.1 z.2.1 ∧ JText z.1 v.2 ∧ z.1.container = true)
        fun z hz => by
          obtain ⟨w, hw, y, h⟩ := e2 z hz
          exact ⟨(w, y), hw, h⟩
      refine ⟨.obj ((q'.map fun z => (z.2.1, z.1.1, z.1.2.1)).map fun p => (p.1, p.2.1)),
        4 + ((q'.map fun z => (z.2.1, z.1.1, z.1.2.1)).map fun p => 2 + max 18 (1 + p.2.2)).sum,
        ⟨.obj ?_ ?_ ?_ ?_ ?_, ?_⟩, ?_, fun _ => rfl⟩
      · intro hf e
        have := hF hf
        refine g3 (by omega) (List.length_eq_zero_iff.1 ?_)
        rw [← e3, List.map_eq_nil_iff.1 e]; rfl
      · rw [List.length_map, ← List.length_map (f := Prod.fst), e3]; exact g4
      · intro p hp
        obtain ⟨z, hz, rfl⟩ := List.mem_map.1 hp
        exact (e5 z hz).1
      · intro p hp
        obtain ⟨z, hz, rfl⟩ := List.mem_map.1 hp
        exact (e5 z hz).2.2.2.2
      · intro p hp
        obtain ⟨z, hz, rfl⟩ := List.mem_map.1 hp
        exact (e5 z hz).2.2.1
      · have hxs : xs = q'.map fun z => quoted z.2.1 ++ str ": " ++ z.2.2 := by
          rw [← e1, List.map_map]
          exact List.map_congr_left fun z hz => (e5 z hz).2.1
        rw [hxs, enumJoin_ne (fun x hx => by
          obtain ⟨z, hz, rfl⟩ := List.mem_map.1 hx
          simp [quoted])]
        have := JText.obj (l := q'.map fun z => (z.2.1, z.1.1, z.2.2)) (fun p hp => by
          obtain ⟨z, hz, rfl⟩ := List.mem_map.1 hp
          exact (e5 z hz).2.2.2.1)
        simp only [List.map_map, Function.comp_def] at this ⊢
        exact this
      · simp only [List.map_map, Function.comp_def] at e4 ⊢
        omega

/-- **C61**: whatever `StampJSON` returns on a blob below 2 GiB is the text of a value whose integers
have 64 bits, whose strings and names are words of the dictionary and **whose objects have arrays and
objects as members, never scalars**. The value fits the blob: an array costs four bytes and two more for
each element, an object four bytes and for each member two more and at least 18. No array and no object
has more than 65535 elements; up to 768 KiB none is empty. A blob of 16 bytes or more gives an array or an object. -/
theorem C61_language {b : Blob} {bs s left : Bytes} (hr : Reachable b) (hh : Holds b bs)
    (hl : bs.length < 2 ^ 31) (h : Returns jsonGraph Flags.init 0 b s left) :
    ∃ t r, JRoom (bs.length ≤ 786423) t r ∧ JText t s ∧ r ≤ bs.length ∧
      (16 ≤ bs.length → t.container = true) := by
  obtain ⟨n, hn⟩ := Returns.inv hr hh h
  obtain ⟨t, r, ⟨h1, h2⟩, h3, h4⟩ := json_tree (bs.length ≤ 786423) _ n bs _ _ s le_rfl hl id (hn n le_rfl)
  exact ⟨t, r, h1, h2, h3, h4⟩

theorem JText.head_container {t : JTree} {s : Bytes} (h : JText t s) (hc : t.container = true) :
    ∃ r, s = 91 :: r ∨ s = 123 :: r := by
  cases h with
  | arr => exact ⟨_, .inl rfl⟩
  | obj => exact ⟨_, .inr rfl⟩
  | _ => cases hc

theorem quote_split {u v x y : Bytes} (hu : 34 ∉ u) (hv : 34 ∉ v) (h : u ++ 34 :: x = v ++ 34 :: y) : x = y := by
  induction u generalizing v with
  | nil =>
    cases v with
    | nil => simpa using h
    | cons c v =>
      simp only [List.nil_append, List.cons_append, List.cons.injEq] at h
      exact absurd (by simp [← h.1]) hv
  | cons c u ih =>
    cases v with
    | nil =>
      simp only [List.nil_append, List.cons_append, List.cons.injEq] at h
      exact absurd (by simp [h.1]) hu
    | cons d v =>
      simp only [List.cons_append, List.cons.injEq] at h
      exact ih (fun hm => hu (by simp [hm])) (fun hm => hv (by simp [hm])) h.2

/-- How the text of a scalar begins. -/
theorem JText.head_scalar {t : JTree} {s : Bytes} (h : JText t s) (hc : t.container = false) :
    ∃ c r, s = c :: r ∧ c ≠ 91 ∧ c ≠ 123 := by
  have hd : ∀ c : UInt8, IsDigit c → c ≠ 91 ∧ c ≠ 123 := by
    intro c h
    constructor <;> rintro rfl <;> revert h <;> unfold IsDigit <;> decide
  cases h with
  | int h =>
    rcases h with ⟨_, h, _⟩ | ⟨_, l, rfl, _⟩
    · cases s with
      | nil => exact absurd rfl h.1
      | cons c r => exact ⟨c, r, rfl, hd c (h.2.1 c (by simp))⟩
    · exact ⟨45, l, rfl, by decide, by decide⟩
  | dbl _ h =>
    obtain ⟨neg, ip, fp, ep, _, _, rfl, h, _⟩ := h
    cases neg
    · cases ip with
      | nil => exact absurd rfl h.1
      | cons c ip => exact ⟨c, ip ++ fp ++ ep, rfl, hd c (h.2.1 c (by simp))⟩
    · exact ⟨45, ip ++ fp ++ ep, by simp, by decide, by decide⟩
  | inf h =>
    have e1 : str "inf" = [105, 110, 102] := by decide
    have e2 : str "nan" = [110, 97, 110] := by decide
    rw [e1, e2] at h
    split at h <;> split at h <;> exact ⟨_, _, h, by decide, by decide⟩
  | word => exact ⟨34, _, rfl, by decide, by decide⟩
  | arr => cases hc
  | obj => cases hc

/-- A text that begins with a brace is that of an object. -/
theorem JText.brace {t : JTree} {s : Bytes} (h : JText t (123 :: s)) : ∃ l, t = .obj l := by
  cases hc : t.container
  · obtain ⟨c, r, e, _, e2⟩ := h.head_scalar hc
    exact absurd (List.cons.inj e).1.symm e2
  · generalize hs : 123 :: s = s' at h
    cases h with
    | arr => simp at hs
    | obj => exact ⟨_, rfl⟩
    | _ => cases hc

/-- **C61**, what it says about members: in a returned text `{"…": c…`, the character `c` opens an array
or an object. -/
theorem C61_member {b : Blob} {bs w rest left : Bytes} {c : UInt8} (hr : Reachable b) (hh : Holds b bs)
    (hl : bs.length < 2 ^ 31) (hw : 34 ∉ w)
    (h : Returns jsonGraph Flags.init 0 b (123 :: (quoted w ++ str ": " ++ c :: rest)) left) :
    c = 91 ∨ c = 123 := by
  obtain ⟨t, r, h1, h2, -, -⟩ := C61_language hr hh hl h
  clear h hl hh hr
  obtain ⟨l, rfl⟩ := h2.brace
  generalize hs : 123 :: (quoted w ++ str ": " ++ c :: rest) = s at h2
  generalize ht : JTree.obj l = t at h1 h2
  cases h1 with
  | obj hn hk hw' hc h =>
    rename_i l1
    generalize ht2 : JTree.obj (l1.map fun p => (p.1, p.2.1)) = t at h2
    cases h2 with
    | obj h3 =>
      rename_i l2
      rw [JTree.obj.injEq] at ht2
      cases l2 with
      | nil => simp [quoted, List.intercalate] at hs
      | cons p l2 =>
        cases l1 with
        | nil => simp at ht2
        | cons q l1 =>
          simp only [List.map_cons, List.cons.injEq, Prod.mk.injEq] at ht2
          obtain ⟨⟨e1, e2⟩, _⟩ := ht2
          have g1 := hw' q (by simp)
          have g2 := hc q (by simp)
          rw [e1] at g1
          rw [e2] at g2
          obtain ⟨r, hr⟩ := (h3 p (by simp)).head_container g2
          have hi : ∃ z, (str ", ").intercalate ((p :: l2).map fun p => quoted p.1 ++ str ": " ++ p.2.2) =
              (quoted p.1 ++ str ": " ++ p.2.2) ++ z := by
            cases l2 with
            | nil => exact ⟨[], by simp [List.intercalate]⟩
            | cons p' l2 => exact ⟨_, by simp [List.intercalate]; rfl⟩
          obtain ⟨z, hz⟩ := hi
          rw [hz, List.cons.injEq, str_colon] at hs
          have hs := hs.2
          simp only [quoted, List.cons_append, List.append_assoc, List.cons.injEq, true_and, List.nil_append] at hs
          have := quote_split hw (by
            intro hm
            have := lcAlphaSmall_letters _ g1 _ hm
            revert this
            decide) hs
          rcases hr with e | e <;> rw [e] at this <;> simp at this
          · exact .inl this.1
          · exact .inr this.1
    | _ => cases ht2
  | _ => cases ht

/-- **C62** is violated: no blob below 2 GiB makes an object of one member that is an integer, a double
or a string. -/
theorem C62_violated {w s : Bytes} {t : JTree} (hw : w ∈ lcAlphaSmall) (ht : t.container = false)
    (hs : JText (.obj [(w, t)]) s) :
    ¬ ∃ b bs left, Reachable b ∧ Holds b bs ∧ bs.length < 2 ^ 31 ∧ Returns jsonGraph Flags.init 0 b s left := by
  rintro ⟨b, bs, left, hr, hh, hl, h⟩
  have hq : 34 ∉ w := by
    intro hm
    have := lcAlphaSmall_letters _ hw _ hm
    revert this
    decide
  generalize ho : JTree.obj [(w, t)] = o at hs
  cases hs with
  | obj h3 =>
    rename_i l
    rw [JTree.obj.injEq] at ho
    cases l with
    | nil => simp at ho
    | cons p l =>
      cases l with
      | cons p' l => simp at ho
      | nil =>
        simp only [List.map_cons, List.map_nil, List.cons.injEq, Prod.mk.injEq, and_true] at ho
        obtain ⟨rfl, rfl⟩ := ho
        obtain ⟨c, r, e, n1, n2⟩ := (h3 p (by simp)).head_scalar ht
        have e2 : (str ", ").intercalate ([p].map fun p => quoted p.1 ++ str ": " ++ p.2.2) ++ [125] =
            quoted p.1 ++ str ": " ++ c :: (r ++ [125]) := by
          rw [← List.cons_append, ← e]
          simp [List.intercalate]
        rw [e2] at h
        rcases C61_member hr hh hl hq h with e | e
        · exact n1 e
        · exact n2 e
  | _ => cases ho

/-- So `{"a": 1}` is never returned, whatever the blob. -/
example : ¬ ∃ b bs left, Reachable b ∧ Holds b bs ∧ bs.length < 2 ^ 31 ∧
    Returns jsonGraph Flags.init 0 b (str "{\"a\": 1}") left :=
  C62_violated (w := [97]) (t := .int 1) (by decide +kernel) rfl (by
    have h : str "{\"a\": 1}" = 123 :: ((str ", ").intercalate
        ([([97], JTree.int 1, [49])].map fun p => quoted p.1 ++ str ": " ++ p.2.2) ++ [125]) := by decide +kernel
    rw [h]
    exact .obj (l := [([97], .int 1, [49])]) (by
      intro p hp
      cases List.mem_singleton.1 hp
      exact .int (intDec_spec 1)))

/-! ## Every such value is made -/

/-- `StampJSON` (object `i`) returns `s` on these bytes. -/
def JsonRuns (i : Id) (a : ABlob) (s : Bytes) : Prop :=
  ∃ n left, extract jsonGraph n i (Flags.init, a) = (.ok s, (Flags.init, left))

theorem deleg_run {bs rest : Bytes} {j : Id} {s : Bytes} (hd : Delegates jsonGraph Flags.init 0 bs j rest)
    (hl : bs.length < 9223372036854775808) (hl' : rest.length < 9223372036854775808)
    (h : JsonRuns j (rest : ABlob) s) : JsonRuns 0 (bs : ABlob) s := by
  obtain ⟨n, left, h⟩ := h
  obtain ⟨b, hr, hh⟩ := exists_blob hl
  obtain ⟨b1, hr1, hh1⟩ := exists_blob hl'
  have := ((hd b b1 hr hh hr1 hh1).1 s left).2 (Returns.intro hr1.valid hh1 (Extracts.intro h (by simp)))
  obtain ⟨m, hm⟩ := Returns.inv hr hh this
  exact ⟨m, left, hm m le_rfl⟩

theorem extractEach_run {c n : Nat} {ps : List ABlob} {xs : List Bytes}
    (h : List.Forall₂ (fun p x => ∃ left, extract jsonGraph n c (Flags.init, p) = (.ok x, (Flags.init, left))) ps xs) :
    ∀ (k : Nat) (a : ABlob), k + ps.length < 2147483648 →
      extractEach (extract jsonGraph n) (k : Int) (ps.map fun b => ((c : Id), b)) (Flags.init, a) =
        (.ok xs, (Flags.init, a)) := by
  induction h with
  | nil => intro k a _; rfl
  | cons hx _ ih =>
    rename_i p x ps xs _
    intro k a hk
    obtain ⟨left, hx⟩ := hx
    rw [List.length_cons] at hk
    rw [List.map_cons]
    unfold extractEach
    have e1 : onBlob p (extract jsonGraph n c) (Flags.init, a) = (.ok x, (Flags.init, a)) := by
      unfold onBlob; dsimp only; rw [hx]
    rw [M.bind_ok e1]
    have e2 : (M.lift (ckInt ((k : Int) + 1)) : XM ABlob Int) (Flags.init, a) = (.ok ((k + 1 : Nat) : Int), (Flags.init, a)) := by
      rw [ckInt_ok (by omega) (by omega)]; rfl
    rw [M.bind_ok e2, M.bind_ok (ih (k + 1) a (by omega))]
    rfl

theorem common_fuel {c : Id} {ps : List ABlob} {xs : List Bytes} (h : List.Forall₂ (JsonRuns c) ps xs) :
    ∃ N, ∀ n ≥ N, List.Forall₂ (fun p x => ∃ left, extract jsonGraph n c (Flags.init, p) =
      (.ok x, (Flags.init, left))) ps xs := by
  induction h with
  | nil => exact ⟨0, fun _ _ => .nil⟩
  | cons hx _ ih =>
    obtain ⟨N, hN⟩ := ih
    obtain ⟨n, left, hx⟩ := hx
    exact ⟨max N n, fun m hm => .cons ⟨left, extract_lift (by omega) hx⟩ (hN m (by omega))⟩

/-- An array or a hash from its pieces. -/
theorem vec_run {i c : Id} {join : List Bytes → Bytes} (hG : jsonGraph i = some (.vec c join)) {m : Nat} (hm : 1 ≤ m)
    (hm' : m ≤ 18)
    (h1 : (sizeQ jsonGraph 9 .min c Flags.init).1 = .ok (m : Int))
    (h2 : (sizeQ jsonGraph 9 .max c Flags.init).1 = .ok (-1))
    {ps : List ABlob} {xs : List Bytes} (hne : ps ≠ []) (hge : ∀ p ∈ ps, m ≤ p.length)
    (hlen : (ps.map List.length).sum ≤ 4095) (hx : List.Forall₂ (JsonRuns c) ps xs) :
    ∃ hd : Bytes, hd.length = 2 + 2 * ps.length ∧ JsonRuns i (hd ++ ps.flatten) (join xs) := by
  obtain ⟨hd, e1, e2⟩ := vecUnbounded_exact hm ps hne hge hlen
  refine ⟨hd, e1, ?_⟩
  obtain ⟨N, hN⟩ := common_fuel hx
  refine ⟨max N 9 + 1, [], ?_⟩
  have hfl : ps.flatten.length = (ps.map List.length).sum := List.length_flatten
  have hk : ps.length ≤ (ps.map List.length).sum := by
    clear hx hN e2 hlen hne e1 hfl
    induction ps with
    | nil => simp
    | cons p ps ih =>
      have := hge p (by simp)
      have := ih fun p hp => hge p (by simp [hp])
      simp only [List.length_cons, List.map_cons, List.sum_cons]
      omega
  have hmin : m ≤ (hd ++ ps.flatten).length := by
    obtain ⟨p, hp⟩ := List.exists_mem_of_ne_nil ps hne
    have h3 := hge p hp
    have h4 := (List.sublist_flatten_of_mem hp).length_le
    rw [List.length_append]
    have h4' : p.length ≤ ps.flatten.length := h4
    omega
  unfold extract
  rw [hG]
  dsimp only
  have q1 : liftF (sizeQ jsonGraph (max N 9) .min c) (Flags.init, (hd ++ ps.flatten : ABlob)) =
      (.ok (m : Int), (Flags.init, (hd ++ ps.flatten : ABlob))) := by
    unfold liftF; dsimp only; rw [jsonSize_ok (by omega) h1]
  have q2 : liftF (sizeQ jsonGraph (max N 9) .max c) (Flags.init, (hd ++ ps.flatten : ABlob)) =
      (.ok (-1), (Flags.init, (hd ++ ps.flatten : ABlob))) := by
    unfold liftF; dsimp only; rw [jsonSize_ok (by omega) h2]
  have q3 : liftB (vecSplit (max N 9) (m : Int) (-1)) (Flags.init, (hd ++ ps.flatten : ABlob)) =
      (.ok ps, (Flags.init, [])) := by
    unfold liftB; dsimp only
    rw [vecSplit_enough (by omega) (by omega) (by exact_mod_cast hmin), if_neg (by omega), if_pos rfl, e2]
  rw [M.bind_ok q1, M.bind_ok q2, M.bind_ok q3]
  have := extractEach_run (hN (max N 9) (by omega)) 0 [] (by omega)
  rw [Nat.cast_zero] at this
  rw [M.bind_ok this]
  rfl

theorem i64_run {i : Int} (h1 : -2 ^ 63 ≤ i) (h2 : i < 2 ^ 63) : ∃ w : Bytes, w.length = 8 ∧
    ∀ r : Bytes, ∃ s, JText (.int i) s ∧ JsonRuns 1 (w ++ r : ABlob) s := by
  refine ⟨leBytes 8 (i % 2 ^ 64).toNat, leBytes_length 8 _, fun r => ⟨intDec i, .int (intDec_spec i), 1, r, ?_⟩⟩
  set w := leBytes 8 (i % 2 ^ 64).toNat with hw
  have hwl : w.length = 8 := leBytes_length 8 _
  have hn : leNat w = (i % 2 ^ 64).toNat := leNat_leBytes 8 _ (by omega)
  obtain ⟨i', e, hr, hdvd⟩ := decode_range .i64 rfl hwl
  rw [if_pos (by rfl)] at hr
  have hr : -2 ^ 63 ≤ i' ∧ i' < 2 ^ 63 := hr
  have hdvd : (2 ^ 64 : Int) ∣ i' - leNat w := hdvd
  have : i' = i := by
    rw [hn] at hdvd
    clear_value w
    omega
  subst this
  show liftB (extractArithStr .i64) _ = _
  unfold liftB
  dsimp only
  rw [extractArithStr_abs, if_neg (by rw [List.length_append, hwl]; show ¬ _ < 8; omega)]
  rw [show (w ++ r).take ArithTy.i64.size = w from List.take_left' hwl,
    show (w ++ r).drop ArithTy.i64.size = r from List.drop_left' hwl, e]
  rfl

theorem dbl_run {s e m : Nat} (hs : s < 2) (he : e < 2048) (hm : m < 2 ^ 52) : ∃ w : Bytes, w.length = 8 ∧
    ∀ r : Bytes, ∃ x, JText (.dbl s e m) x ∧ JsonRuns 2 (w ++ r : ABlob) x := by
  have hN : s * 2 ^ 63 + e * 2 ^ 52 + m < 256 ^ 8 := by omega
  generalize hn : s * 2 ^ 63 + e * 2 ^ 52 + m = n at hN
  refine ⟨leBytes 8 n, leBytes_length 8 _, fun r => ⟨fmtG999 (decodeBits 11 52 n), ?_, 1, r, ?_⟩⟩
  · by_cases h7 : e = 2047
    · subst h7
      exact .inf (decode_nonfinite hs (mb := 52) (eb := 11) hm hn.symm)
    · exact .dbl (by omega) (double_exact hs (by omega) hm hn.symm)
  · have hwl : (leBytes 8 n).length = 8 := leBytes_length 8 _
    show liftB (extractArithStr .double) _ = _
    unfold liftB
    dsimp only
    rw [extractArithStr_abs, if_neg (by rw [List.length_append, hwl]; show ¬ _ < 8; omega)]
    rw [show (leBytes 8 n ++ r).take ArithTy.double.size = leBytes 8 n from List.take_left' hwl,
      show (leBytes 8 n ++ r).drop ArithTy.double.size = r from List.drop_left' hwl,
      show decode .double (leBytes 8 n) = .bits (leNat (leBytes 8 n)) from rfl, leNat_leBytes 8 n hN, toString_double]

theorem word_run {w : Bytes} (h : w ∈ lcAlphaSmall) : ∃ o : UInt8, ∀ r : Bytes,
    (extractJsonStr : M ABlob Bytes) (o :: r) = (.ok (quoted w), r) := by
  obtain ⟨j, hj, rfl⟩ := List.getElem_of_mem h
  have hc : chooseStampSize lcAlphaSmall.length = (1, 255) := by decide +kernel
  obtain ⟨o, ho, e⟩ := scaledIndex_surj_byte (n := lcAlphaSmall.length) (by decide +kernel) hj
  refine ⟨UInt8.ofNat o, fun r => ?_⟩
  obtain ⟨_, e2⟩ := extractDict_abs lcAlphaSmall (by decide +kernel) (by decide +kernel) (UInt8.ofNat o :: r)
  rw [hc] at e2
  obtain ⟨i, hi, e3, e4⟩ := e2 (by simp)
  have : leNat ((UInt8.ofNat o :: r).take 1) = o := by
    show leNat [UInt8.ofNat o] = o
    simp [leNat]; omega
  have e3 : scaledIndex (leNat ((UInt8.ofNat o :: r).take 1)) 255 lcAlphaSmall.length = .ok (i : Int) := e3
  rw [this, e] at e3
  have : j = i := by have := Out.ok.inj e3; omega
  subst this
  unfold extractJsonStr
  rw [M.bind_ok e4]
  rfl

/-- Pieces for the elements, from what is known of each. -/
theorem trees_pieces {α : Type} {c : Id} {T : α → Bytes → Prop} {len : α → Nat} {l : List α}
    (h : ∀ z ∈ l, ∃ p x, p.length = len z ∧ T z x ∧ JsonRuns c (p : ABlob) x) :
    ∃ (ps : List ABlob) (q : List (α × Bytes)), q.map Prod.fst = l ∧ (∀ z ∈ q, T z.1 z.2) ∧
      ps.map List.length = l.map len ∧ List.Forall₂ (JsonRuns c) ps (q.map Prod.snd) := by
  induction l with
  | nil => exact ⟨[], [], rfl, by simp, rfl, .nil⟩
  | cons z l ih =>
    obtain ⟨ps, q, h1, h2, h3, h4⟩ := ih fun z hz => h z (by simp [hz])
    obtain ⟨p, x, g1, g2, g3⟩ := h z (by simp)
    refine ⟨p :: ps, (z, x) :: q, by simp [h1], ?_, ?_, .cons g3 h4⟩
    · intro y hy
      rcases List.mem_cons.1 hy with rfl | hy
      · exact g2
      · exact h2 y hy
    · rw [List.map_cons, List.map_cons, h3, g1]

theorem JRoom.ge {full : Prop} {t : JTree} {n : Nat} (h : JRoom full t n) (hf : full) :
    (t.container = false → n = 10) ∧ (t.container = true → 16 ≤ n) := by
  induction h with
  | int => exact ⟨fun _ => rfl, by simp [JTree.container]⟩
  | dbl => exact ⟨fun _ => rfl, by simp [JTree.container]⟩
  | word => exact ⟨fun _ => rfl, by simp [JTree.container]⟩
  | arr hn hk h ih =>
    rename_i l
    refine ⟨by simp [JTree.container], fun _ => ?_⟩
    cases l with
    | nil => exact absurd rfl (hn hf)
    | cons p l =>
      obtain ⟨h1, h2⟩ := ih p (by simp)
      rw [List.map_cons, List.sum_cons]
      cases hc : p.1.container
      · have := h1 hc; omega
      · have := h2 hc; omega
  | obj hn hk hw hc h ih =>
    rename_i l
    refine ⟨by simp [JTree.container], fun _ => ?_⟩
    cases l with
    | nil => exact absurd rfl (hn hf)
    | cons p l =>
      rw [List.map_cons, List.sum_cons]
      omega

theorem le_sum {α : Type} {f : α → Nat} {l : List α} {x : α} (h : x ∈ l) : f x ≤ (l.map f).sum := by
  induction l with
  | nil => cases h
  | cons y l ih =>
    rw [List.map_cons, List.sum_cons]
    rcases List.mem_cons.1 h with rfl | h
    · omega
    · have := ih h; omega

theorem sum_two {α : Type} (f : α → Nat) (l : List α) :
    (l.map fun x => 2 + f x).sum = 2 * l.length + (l.map f).sum := by
  induction l with
  | nil => rfl
  | cons y l ih => simp only [List.map_cons, List.sum_cons, List.length_cons, ih]; omega

theorem array_pick {rest : Bytes} {s : Bytes} (h1 : 14 ≤ rest.length) (h2 : rest.length < 4200)
    (h : JsonRuns 4 (rest : ABlob) s) : JsonRuns 0 (0 :: 0 :: rest : ABlob) s := by
  obtain ⟨_, k2, k3⟩ := C53_json_kind (x := 0) (y := 0) (rest := rest)
  refine deleg_run (rest := rest) (j := 4) ?_ (by simp only [List.length_cons]; omega) (by omega) h
  by_cases h3 : rest.length < 22
  · exact k2 h1 h3
  · exact k3 (by omega)

theorem hash_pick {rest : Bytes} {s : Bytes} (h1 : 22 ≤ rest.length) (h2 : rest.length < 4200)
    (h : JsonRuns 5 (rest : ABlob) s) : JsonRuns 0 (0 :: 128 :: rest : ABlob) s := by
  obtain ⟨_, _, k3⟩ := C53_json_kind (x := 0) (y := 128) (rest := rest)
  exact deleg_run (rest := rest) (j := 5) (k3 (by omega)) (by simp only [List.length_cons]; omega) (by omega) h

theorem scalar_pick {rest : Bytes} {s : Bytes} (y : UInt8) (h1 : 8 ≤ rest.length) (h2 : rest.length < 14)
    (h : JsonRuns (1 + (256 * y.toNat) * 3 / 65536) (rest : ABlob) s) : JsonRuns 0 (0 :: y :: rest : ABlob) s := by
  obtain ⟨k1, _, _⟩ := C53_json_kind (x := 0) (y := y) (rest := rest)
  refine deleg_run (rest := rest) (k1 h1 h2) (by simp only [List.length_cons]; omega) (by omega) ?_
  rwa [show (0 : UInt8).toNat = 0 from rfl, Nat.zero_add]

/-- **C62**, on the bytes, with some padding so that a member fills its 18 bytes. -/
theorem tree_json {t : JTree} {n : Nat} (h : JRoom True t n) : n ≤ 4096 → ∀ l : Nat,
    (t.container = false ∧ 10 ≤ l ∧ l ≤ 15) ∨ (t.container = true ∧ (l = n ∨ l = max 17 n)) →
    ∃ p s, p.length = l ∧ JText t s ∧ JsonRuns 0 (p : ABlob) s := by
  induction h with
  | int h1 h2 =>
    rintro - l (⟨-, hl, hl'⟩ | ⟨h, _⟩)
    · obtain ⟨w, hw, h⟩ := i64_run h1 h2
      obtain ⟨s, ht, hs⟩ := h (List.replicate (l - 10) 0)
      refine ⟨0 :: 0 :: (w ++ List.replicate (l - 10) 0), s, ?_, ht, scalar_pick 0 ?_ ?_ hs⟩ <;>
        simp only [List.length_cons, List.length_append, List.length_replicate, hw] <;> omega
    · cases h
  | dbl hs he hm =>
    rintro - l (⟨-, hl, hl'⟩ | ⟨h, _⟩)
    · obtain ⟨w, hw, h⟩ := dbl_run hs he hm
      obtain ⟨s, ht, hs⟩ := h (List.replicate (l - 10) 0)
      refine ⟨0 :: 128 :: (w ++ List.replicate (l - 10) 0), s, ?_, ht, scalar_pick 128 ?_ ?_ hs⟩ <;>
        simp only [List.length_cons, List.length_append, List.length_replicate, hw] <;> omega
    · cases h
  | word hw =>
    rintro - l (⟨-, hl, hl'⟩ | ⟨h, _⟩)
    · rename_i w
      obtain ⟨o, h⟩ := word_run hw
      refine ⟨0 :: 255 :: o :: List.replicate (l - 3) 0, quoted w, ?_, .word, scalar_pick 255 ?_ ?_ ⟨1, List.replicate (l - 3) 0, ?_⟩⟩
      · simp only [List.length_cons, List.length_replicate]; omega
      · simp only [List.length_cons, List.length_replicate]; omega
      · simp only [List.length_cons, List.length_replicate]; omega
      · show liftB extractJsonStr _ = _
        unfold liftB
        dsimp only
        rw [h]
    · cases h
  | arr hn hk h ih =>
    rename_i q
    intro hn4 l hl
    have hl : l = 4 + (q.map fun p => 2 + p.2).sum ∨ l = max 17 (4 + (q.map fun p => 2 + p.2).sum) := by
      rcases hl with ⟨h, _⟩ | ⟨_, h⟩
      · cases h
      · exact h
    have hq : q ≠ [] := hn trivial
    -- lengths of the pieces
    obtain ⟨len, hlen, hsum⟩ : ∃ len : JTree × Nat → Nat, (∀ z ∈ q, ∃ p x, p.length = len z ∧ JText z.1 x ∧
        JsonRuns 0 (p : ABlob) x ∧ 10 ≤ p.length) ∧ 4 + (q.map fun p => 2 + len p).sum = l := by
      by_cases he : l = 4 + (q.map fun p => 2 + p.2).sum
      · refine ⟨Prod.snd, fun z hz => ?_, he.symm⟩
        obtain ⟨g1, g2⟩ := (h z hz).ge trivial
        have hz2 : 2 + z.2 ≤ _ := le_sum (f := fun p : JTree × Nat => 2 + p.2) hz
        obtain ⟨p, s, e1, e2, e3⟩ := ih z hz (by omega) z.2 (by
          cases hc : z.1.container
          · have := g1 hc; exact .inl ⟨rfl, by omega, by omega⟩
          · exact .inr ⟨rfl, .inl rfl⟩)
        refine ⟨p, s, e1, e2, e3, ?_⟩
        cases hc : z.1.container
        · have := g1 hc; omega
        · have := g2 hc; omega
      · have hl17 : l = 17 ∧ (q.map fun p => 2 + p.2).sum < 13 := by omega
        -- a single scalar
        have hall : ∀ z ∈ q, z.1.container = false ∧ z.2 = 10 := by
          intro z hz
          obtain ⟨g1, g2⟩ := (h z hz).ge trivial
          have hz2 : 2 + z.2 ≤ _ := le_sum (f := fun p : JTree × Nat => 2 + p.2) hz
          cases hc : z.1.container
          · exact ⟨rfl, g1 hc⟩
          · have := g2 hc; omega
        have hone : ∃ z, q = [z] := by
          cases q with
          | nil => exact absurd rfl hq
          | cons z q =>
            cases q with
            | nil => exact ⟨z, rfl⟩
            | cons y q =>
              have h1 := (hall z (by simp)).2
              have h2 := (hall y (by simp)).2
              simp only [List.map_cons, List.sum_cons] at hl17
              omega
        obtain ⟨z, rfl⟩ := hone
        refine ⟨fun _ => 11, fun y hy => ?_, by simp [hl17.1]⟩
        obtain ⟨p, s, e1, e2, e3⟩ := ih y hy (by have := (hall y hy).2; omega) 11 (.inl ⟨(hall y hy).1, by omega, by omega⟩)
        exact ⟨p, s, e1, e2, e3, by omega⟩
    obtain ⟨ps, q', e1, e2, e3, e4⟩ := trees_pieces (c := 0) (T := fun z x => JText z.1 x) (len := len) (l := q)
      fun z hz => by
        obtain ⟨p, x, g1, g2, g3, _⟩ := hlen z hz
        exact ⟨p, x, g1, g2, g3⟩
    have hps : ps.length = q.length := by simpa using congrArg List.length e3
    have hge : ∀ p ∈ ps, 10 ≤ p.length := by
      intro p hp
      have : p.length ∈ ps.map List.length := List.mem_map_of_mem hp
      rw [e3] at this
      obtain ⟨z, hz, e⟩ := List.mem_map.1 this
      obtain ⟨p', _, g1, _, _, g4⟩ := hlen z hz
      omega
    rw [sum_two] at hsum
    have hfl : ps.flatten.length = (q.map len).sum := by rw [← e3]; exact List.length_flatten
    obtain ⟨hd, f1, f2⟩ := vec_run (i := 4) (c := 0) rfl (m := 10) (by norm_num) (by norm_num) (by decide +kernel)
      (by decide +kernel) (ps := ps) (by
        intro e
        rw [e] at hps
        exact hq (List.length_eq_zero_iff.1 hps.symm)) hge (by rw [e3]; omega) e4
    have hL : (hd ++ ps.flatten).length = l - 2 := by rw [List.length_append, f1, hfl]; omega
    have h14 : 16 ≤ l := by
      have := (JRoom.arr (full := True) hn hk h).ge trivial
      have := this.2 rfl
      omega
    refine ⟨0 :: 0 :: (hd ++ ps.flatten), _, ?_, ?_, array_pick ?_ ?_ f2⟩
    · simp only [List.length_cons, hL]; omega
    · rw [enumJoin_ne (fun x hx => by
        obtain ⟨z, hz, rfl⟩ := List.mem_map.1 hx
        exact (e2 z hz).ne_nil)]
      have := JText.arr (l := q'.map fun z => (z.1.1, z.2)) (fun p hp => by
        obtain ⟨z, hz, rfl⟩ := List.mem_map.1 hp
        exact e2 z hz)
      rw [← e1]
      simp only [List.map_map, Function.comp_def] at this ⊢
      exact this
    · omega
    · omega
  | obj hn hk hw hc h ih =>
    rename_i q
    intro hn4 l hl
    have hl : l = 4 + (q.map fun p => 2 + max 18 (1 + p.2.2)).sum ∨
        l = max 17 (4 + (q.map fun p => 2 + max 18 (1 + p.2.2)).sum) := by
      rcases hl with ⟨h, _⟩ | ⟨_, h⟩
      · cases h
      · exact h
    have hq : q ≠ [] := hn trivial
    have hl : l = 4 + (q.map fun p => 2 + max 18 (1 + p.2.2)).sum ∧ 24 ≤ l := by
      cases q with
      | nil => exact absurd rfl hq
      | cons z q =>
        simp only [List.map_cons, List.sum_cons] at hl ⊢
        omega
    obtain ⟨ps, q', e1, e2, e3, e4⟩ := trees_pieces (c := 6)
      (T := fun (z : Bytes × JTree × Nat) x => ∃ y, JText z.2.1 y ∧ x = quoted z.1 ++ str ": " ++ y)
      (len := fun z => max 18 (1 + z.2.2)) (l := q) fun z hz => by
        have hz2 : 2 + max 18 (1 + z.2.2) ≤ _ :=
          le_sum (f := fun p : Bytes × JTree × Nat => 2 + max 18 (1 + p.2.2)) hz
        obtain ⟨p, s, e1, e2, n, left, e3⟩ := ih z hz (by omega) (max 17 z.2.2) (.inr ⟨hc z hz, .inr rfl⟩)
        obtain ⟨o, ho⟩ := word_run (hw z hz)
        refine ⟨o :: p, quoted z.1 ++ str ": " ++ s, by rw [List.length_cons, e1]; omega, ⟨s, e2, rfl⟩, n + 2, left, ?_⟩
        have hx1 : extract jsonGraph (n + 1) 7 (Flags.init, (o :: p : ABlob)) = (.ok (quoted z.1), (Flags.init, p)) := by
          rw [extract_name]
          unfold liftB
          dsimp only
          rw [ho]
        have hx2 := extract_lift (m := n + 1) (by omega) e3
        show (do
          let xs ← extractSeq (extract jsonGraph (n + 1)) [7, 0]
          pure (hashElText xs) : XM ABlob Bytes) _ = _
        have : extractSeq (extract jsonGraph (n + 1)) [7, 0] (Flags.init, (o :: p : ABlob)) =
            (.ok [quoted z.1, s], (Flags.init, left)) := by
          unfold extractSeq
          rw [M.bind_ok hx1]
          unfold extractSeq
          rw [M.bind_assoc, M.bind_ok hx2]
          rfl
        rw [M.bind_ok this, str_colon]
        rfl
    have hps : ps.length = q.length := by simpa using congrArg List.length e3
    have hge : ∀ p ∈ ps, 18 ≤ p.length := by
      intro p hp
      have : p.length ∈ ps.map List.length := List.mem_map_of_mem hp
      rw [e3] at this
      obtain ⟨z, hz, e⟩ := List.mem_map.1 this
      omega
    rw [sum_two] at hl
    have hfl : ps.flatten.length = (q.map fun z => max 18 (1 + z.2.2)).sum := by rw [← e3]; exact List.length_flatten
    rw [sum_two] at hn4
    obtain ⟨hd, f1, f2⟩ := vec_run (i := 5) (c := 6) rfl (m := 18) (by norm_num) (by norm_num) (by decide +kernel)
      (by decide +kernel) (ps := ps) (by
        intro e
        rw [e] at hps
        exact hq (List.length_eq_zero_iff.1 hps.symm)) hge (by rw [e3]; omega) e4
    have hL : (hd ++ ps.flatten).length = l - 2 := by rw [List.length_append, f1, hfl]; omega
    refine ⟨0 :: 128 :: (hd ++ ps.flatten), _, ?_, ?_, hash_pick ?_ ?_ f2⟩
    · simp only [List.length_cons, hL]; omega
    · obtain ⟨r, rfl, hr⟩ := annotate e2
      rw [enumJoin_ne (fun x hx => by
        obtain ⟨z, hz, rfl⟩ := List.mem_map.1 hx
        obtain ⟨y, hy, rfl⟩ := List.mem_map.1 hz
        rw [(hr y hy).2]
        simp [quoted])]
      have := JText.obj (l := r.map fun z => (z.1.1.1, z.1.1.2.1, z.2)) (fun p hp => by
        obtain ⟨z, hz, rfl⟩ := List.mem_map.1 hp
        exact (hr z hz).1)
      rw [← e1]
      simp only [List.map_map, Function.comp_def] at this ⊢
      rw [List.map_congr_left (g := fun z => quoted z.1.1.1 ++ str ": " ++ z.2) fun z hz => (hr z hz).2]
      exact this
    · omega
    · omega

/-- **C62**, the part that holds: a JSON value whose integers have 64 bits, whose strings and names
are words of the dictionary, whose arrays and objects are not empty, whose objects have only arrays and
objects as members, and which needs at most 4096 bytes, is what `StampJSON` returns on some blob of
exactly that many bytes. Missing: scalar members, which are never made (`C62_violated`), empty arrays and
objects, and values that need more than 4096 bytes. -/
theorem C62_every_value_partial {t : JTree} {n : Nat} (h : JRoom True t n) (hn : n ≤ 4096) :
    ∃ p s, p.length = n ∧ JText t s ∧ Gives jsonGraph Flags.init 0 p s := by
  obtain ⟨h1, h2⟩ := h.ge trivial
  obtain ⟨p, s, e1, e2, m, left, e3⟩ := tree_json h hn n (by
    cases hc : t.container
    · have := h1 hc; exact .inl ⟨rfl, by omega, by omega⟩
    · exact .inr ⟨rfl, .inl rfl⟩)
  exact ⟨p, s, e1, e2, Gives.intro e3⟩

/-- `[1, "a", -0.5]`: 40 bytes are enough, and the blob is there. -/
example : ∃ p s, p.length = 40 ∧ JText (.arr [.int 1, .word (str "a"), .dbl 1 1022 0]) s ∧
    Gives jsonGraph Flags.init 0 p s :=
  C62_every_value_partial (n := 40) (.arr (full := True)
    (l := [(.int 1, 10), (.word (str "a"), 10), (.dbl 1 1022 0, 10)]) (fun _ => by simp) (by simp) (by
      intro p hp
      simp only [List.mem_cons, List.not_mem_nil, or_false] at hp
      rcases hp with rfl | rfl | rfl
      · exact .int (by norm_num) (by norm_num)
      · exact .word (by decide +kernel)
      · exact .dbl (by norm_num) (by norm_num) (by norm_num))) (by norm_num)

/-- 24 bytes make `{"a": [0]}`. -/
example : (extract jsonGraph 12 0 (Flags.init, (0 :: 128 :: List.replicate 22 0 : ABlob))).1 =
      .ok (str "{\"a\": [0]}") := by
  decide +kernel

end BS
