import Verif.Props.JsonWide
import Verif.Spec.Nesting

/-!
# How deep the text of `StampJSON` nests (C80)
-/

namespace BS
open BlobLike

/-- Neither a bracket nor a brace. -/
def Soft (c : UInt8) : Prop := c ≠ 91 ∧ c ≠ 123 ∧ c ≠ 93 ∧ c ≠ 125

instance (c : UInt8) : Decidable (Soft c) := by unfold Soft; infer_instance

theorem soft_digit {c : UInt8} (h : IsDigit c) : Soft c := by
  refine ⟨?_, ?_, ?_, ?_⟩ <;> rintro rfl <;> revert h <;> unfold IsDigit <;> decide

theorem soft_letter {c : UInt8} (h : 97 ≤ c.toNat ∧ c.toNat ≤ 122) : Soft c := by
  refine ⟨?_, ?_, ?_, ?_⟩ <;> rintro rfl <;> revert h <;> decide

theorem soft_quoted {w : Bytes} (hw : w ∈ lcAlphaSmall) : ∀ c ∈ quoted w, Soft c := by
  intro c hc
  unfold quoted at hc
  simp only [List.mem_cons, List.mem_append, List.not_mem_nil, or_false] at hc
  rcases hc with rfl | hc | rfl
  · decide
  · exact soft_letter (lcAlphaSmall_letters w hw c hc)
  · decide

theorem soft_scalar {full : Prop} {t : JTree} {r : Nat} {s : Bytes} (hr : JRoom full t r) (h : JText t s)
    (hc : t.container = false) : ∀ c ∈ s, Soft c := by
  cases h with
  | int h =>
    rcases h with ⟨_, h, _⟩ | ⟨_, l, rfl, h, _⟩
    · exact fun c hc => soft_digit (h.2.1 c hc)
    · intro c hc
      rcases List.mem_cons.1 hc with rfl | hc
      · decide
      · exact soft_digit (h.2.1 c hc)
  | dbl _ h =>
    obtain ⟨neg, ip, fp, ep, _, _, rfl, h1, h2, h3, _⟩ := h
    intro c hc
    simp only [List.mem_append] at hc
    rcases hc with ((hc | hc) | hc) | hc
    · cases neg
      · simp at hc
      · have : c = 45 := by simpa using hc
        subst this
        decide
    · exact soft_digit (h1.2.1 c hc)
    · cases h2 with
      | none => cases hc
      | some hn hd =>
        rcases List.mem_cons.1 hc with rfl | hc
        · decide
        · exact soft_digit (hd c hc)
    · cases h3 with
      | none => cases hc
      | plus hn hd =>
        rcases List.mem_cons.1 hc with rfl | hc
        · decide
        rcases List.mem_cons.1 hc with rfl | hc
        · decide
        · exact soft_digit (hd c hc)
      | minus hn hd =>
        rcases List.mem_cons.1 hc with rfl | hc
        · decide
        rcases List.mem_cons.1 hc with rfl | hc
        · decide
        · exact soft_digit (hd c hc)
  | inf h =>
    have e1 : str "inf" = [105, 110, 102] := by decide
    have e2 : str "nan" = [110, 97, 110] := by decide
    rw [e1, e2] at h
    intro c hc
    have : ∀ c ∈ ([45, 105, 110, 102, 97] : Bytes), Soft c := by decide
    refine this c ?_
    split at h <;> split at h <;> subst h <;> revert hc <;> simp <;> tauto
  | @word w =>
    cases hr with
    | word hw => exact soft_quoted hw
  | arr => cases hc
  | obj => cases hc

theorem opens_append (s t : Bytes) : opens (s ++ t) = opens s + opens t := by
  unfold opens; rw [List.count_append, List.count_append]; omega

theorem closes_append (s t : Bytes) : closes (s ++ t) = closes s + closes t := by
  unfold closes; rw [List.count_append, List.count_append]; omega

/-- As many brackets are closed as are opened, and never are more than `d` open. -/
def Nested (s : Bytes) (d : Nat) : Prop := opens s = closes s ∧ NestsWithin s d

theorem Nested.append {s t : Bytes} {d : Nat} (hs : Nested s d) (ht : NestsWithin t d) : NestsWithin (s ++ t) d := by
  intro n
  rw [List.take_append, opens_append, closes_append]
  by_cases h : n ≤ s.length
  · have : n - s.length = 0 := by omega
    rw [this]
    have := hs.2 n
    simp only [List.take_zero, opens, closes, List.count_nil] at this ⊢
    omega
  · rw [List.take_of_length_le (by omega), hs.1]
    have := ht (n - s.length)
    omega

theorem Nested.append' {s t : Bytes} {d : Nat} (hs : Nested s d) (ht : Nested t d) : Nested (s ++ t) d :=
  ⟨by rw [opens_append, closes_append, hs.1, ht.1], hs.append ht.2⟩

theorem nested_soft {s : Bytes} (h : ∀ c ∈ s, Soft c) (d : Nat) : Nested s d := by
  have ho : ∀ {t : Bytes}, (∀ c ∈ t, Soft c) → opens t = 0 ∧ closes t = 0 := by
    intro t ht
    unfold opens closes
    rw [List.count_eq_zero.2 fun hm => (ht _ hm).1 rfl, List.count_eq_zero.2 fun hm => (ht _ hm).2.1 rfl,
      List.count_eq_zero.2 fun hm => (ht _ hm).2.2.1 rfl, List.count_eq_zero.2 fun hm => (ht _ hm).2.2.2 rfl]
    exact ⟨rfl, rfl⟩
  refine ⟨by rw [(ho h).1, (ho h).2], fun n => ?_⟩
  rw [(ho fun c hc => h c (List.mem_of_mem_take hc)).1]
  omega

theorem Nested.wrap {s : Bytes} {d : Nat} (h : Nested s d) {o c : UInt8} (ho : o = 91 ∨ o = 123) (hc : c = 93 ∨ c = 125) :
    Nested (o :: (s ++ [c])) (d + 1) := by
  have e1 : opens [o] = 1 ∧ closes [o] = 0 := by rcases ho with rfl | rfl <;> decide
  have e2 : opens [c] = 0 ∧ closes [c] = 1 := by rcases hc with rfl | rfl <;> decide
  have hn : NestsWithin (s ++ [c]) d := h.append fun n => by
    cases n with
    | zero => simp [opens]
    | succ n => rw [List.take_of_length_le (by simp), e2.1]; omega
  refine ⟨?_, fun n => ?_⟩
  · rw [← List.singleton_append, opens_append, closes_append, opens_append, closes_append, e1.1, e1.2, e2.1, e2.2, h.1]
    omega
  · cases n with
    | zero => simp [opens]
    | succ n =>
      rw [List.take_succ_cons, ← List.singleton_append, opens_append, closes_append, e1.1, e1.2]
      have := hn n
      omega

theorem nested_intercalate {xs : List Bytes} {d : Nat} (h : ∀ x ∈ xs, Nested x d) : Nested ((str ", ").intercalate xs) d := by
  have hsep : Nested (str ", ") d := nested_soft (by decide) d
  cases xs with
  | nil => exact nested_soft (by simp) d
  | cons x xs =>
    induction xs generalizing x with
    | nil => simpa [List.intercalate] using h x (by simp)
    | cons y xs ih =>
      have e : (str ", ").intercalate (x :: y :: xs) = x ++ str ", " ++ (str ", ").intercalate (y :: xs) := by
        simp [List.intercalate]
      rw [e]
      exact ((h x (by simp)).append' hsep).append' (ih y fun z hz => h z (by simp [hz]))

theorem JRoom.ge_four {full : Prop} {t : JTree} {n : Nat} (h : JRoom full t n) : 4 ≤ n := by
  cases h <;> omega

/-- Every level of nesting takes six bytes. -/
theorem text_nested {full : Prop} {t : JTree} {s : Bytes} (h : JText t s) : ∀ r d, JRoom full t r →
    ((full ∧ r < 6 * d + 16) ∨ r < 6 * d + 4) → Nested s d := by
  induction h with
  | int h => exact fun r d hr _ => nested_soft (soft_scalar hr (.int h) rfl) d
  | dbl he h => exact fun r d hr _ => nested_soft (soft_scalar hr (.dbl he h) rfl) d
  | inf h => exact fun r d hr _ => nested_soft (soft_scalar hr (.inf h) rfl) d
  | word => exact fun r d hr _ => nested_soft (soft_scalar hr .word rfl) d
  | arr h ih =>
    rename_i l2
    intro r d hr hd
    have h16 : full → 16 ≤ r := fun hf => (hr.ge hf).2 rfl
    have h4 := hr.ge_four
    obtain ⟨d, rfl⟩ : ∃ d', d = d' + 1 := by
      cases d with
      | zero => rcases hd with ⟨hf, hd⟩ | hd
                · have := h16 hf; omega
                · omega
      | succ d => exact ⟨d, rfl⟩
    generalize ht : JTree.arr (l2.map Prod.fst) = t at hr
    cases hr with
    | arr hn hk h3 =>
      rename_i l1
      rw [JTree.arr.injEq] at ht
      refine (nested_intercalate fun x hx => ?_).wrap (.inl rfl) (.inl rfl)
      obtain ⟨p, hp, rfl⟩ := List.mem_map.1 hx
      have : p.1 ∈ l1.map Prod.fst := ht ▸ List.mem_map_of_mem hp
      obtain ⟨q, hq, e⟩ := List.mem_map.1 this
      have hle : 2 + q.2 ≤ _ := le_sum (f := fun p : JTree × Nat => 2 + p.2) hq
      refine ih p hp q.2 d (e ▸ h3 q hq) ?_
      rcases hd with ⟨hf, hd⟩ | hd
      · exact .inl ⟨hf, by omega⟩
      · exact .inr (by omega)
    | _ => cases ht
  | obj h ih =>
    rename_i l2
    intro r d hr hd
    have h16 : full → 16 ≤ r := fun hf => (hr.ge hf).2 rfl
    have h4 := hr.ge_four
    obtain ⟨d, rfl⟩ : ∃ d', d = d' + 1 := by
      cases d with
      | zero => rcases hd with ⟨hf, hd⟩ | hd
                · have := h16 hf; omega
                · omega
      | succ d => exact ⟨d, rfl⟩
    generalize ht : JTree.obj (l2.map fun p => (p.1, p.2.1)) = t at hr
    cases hr with
    | obj hn hk hw hc h3 =>
      rename_i l1
      rw [JTree.obj.injEq] at ht
      refine (nested_intercalate fun x hx => ?_).wrap (.inr rfl) (.inr rfl)
      obtain ⟨p, hp, rfl⟩ := List.mem_map.1 hx
      have : (p.1, p.2.1) ∈ l1.map fun q => (q.1, q.2.1) :=
        ht ▸ List.mem_map_of_mem (f := fun p : Bytes × JTree × Bytes => (p.1, p.2.1)) hp
      obtain ⟨q, hq, e⟩ := List.mem_map.1 this
      obtain ⟨ea, eb⟩ := Prod.mk.inj e
      have hle : 2 + max 18 (1 + q.2.2) ≤ _ := le_sum (f := fun p : Bytes × JTree × Nat => 2 + max 18 (1 + p.2.2)) hq
      refine ((nested_soft (soft_quoted (ea ▸ hw q hq)) d).append' (nested_soft (by decide) d)).append'
        (ih p hp q.2.2 d (eb ▸ h3 q hq) ?_)
      rcases hd with ⟨hf, hd⟩ | hd
      · exact .inl ⟨hf, by omega⟩
      · exact .inr (by omega)
    | _ => cases ht

/-- **C80**: in what `StampJSON` makes of 786423 bytes or fewer, at most a sixth of the bytes above ten are brackets
that are open at the same time. -/
theorem C80_depth {b : Blob} {bs s left : Bytes} (hr : Reachable b) (hh : Holds b bs) (hl : bs.length ≤ 786423)
    (h : Returns jsonGraph Flags.init 0 b s left) : opens s = closes s ∧ NestsWithin s ((bs.length - 10) / 6) := by
  obtain ⟨t, r, h1, h2, h3, -⟩ := C61_language hr hh (by omega) h
  refine text_nested h2 r _ h1 (.inl ⟨hl, ?_⟩)
  have := h1.ge hl
  omega

/-- **C80**, any blob below 2 GiB. -/
theorem C80_depth_large {b : Blob} {bs s left : Bytes} (hr : Reachable b) (hh : Holds b bs) (hl : bs.length < 2 ^ 31)
    (h : Returns jsonGraph Flags.init 0 b s left) : opens s = closes s ∧ NestsWithin s ((bs.length + 2) / 6) := by
  obtain ⟨t, r, h1, h2, h3, -⟩ := C61_language hr hh hl h
  exact text_nested h2 r _ h1 (.inr (by have := h1.ge_four; omega))

theorem chain_run (d : Nat) {l : Nat} (h1 : 10 ≤ l) (h2 : l ≤ 15) (hd : 6 * d + l ≤ 786434) :
    ∃ p : Bytes, p.length = 6 * d + l ∧
      JsonRuns 0 (p : ABlob) (List.replicate d 91 ++ 48 :: List.replicate d 93) := by
  induction d with
  | zero =>
    have hrun : ∀ r : Bytes, JsonRuns 1 (leBytes 8 0 ++ r : ABlob) [48] := by
      intro r
      refine ⟨1, r, ?_⟩
      have e : toStringPrecise .i64 (decode .i64 (leBytes 8 0)) = .ok [48] := by decide +kernel
      have hwl : (leBytes 8 0).length = 8 := leBytes_length 8 0
      generalize leBytes 8 0 = w at hwl e
      show liftB (extractArithStr .i64) _ = _
      unfold liftB
      dsimp only
      rw [extractArithStr_abs, if_neg (by rw [List.length_append, hwl]; show ¬ _ < 8; omega)]
      rw [show (w ++ r).take ArithTy.i64.size = w from List.take_left' hwl,
        show (w ++ r).drop ArithTy.i64.size = r from List.drop_left' hwl, e]
    refine ⟨0 :: 0 :: (leBytes 8 0 ++ List.replicate (l - 10) 0), ?_, scalar_pick 0 ?_ ?_ (hrun _)⟩ <;>
      simp only [List.length_cons, List.length_append, List.length_replicate, leBytes_length] <;> omega
  | succ d ih =>
    obtain ⟨p, e1, e2⟩ := ih (by omega)
    obtain ⟨hd', f1, f2⟩ := vecUnbounded_single (m := 10) (l := 6 * d + l) (by omega) (by omega) (by omega)
    have hlen : (hd' ++ p).length = 4 + (6 * d + l) := by rw [List.length_append, f1, e1]
    have := vec_run_of (i := 4) (c := 0) rfl (m := 10) (by norm_num) (by norm_num)
      (by decide +kernel) (by decide +kernel) (a := hd' ++ p) (by rw [hlen]; omega) (f2 p e1) (by simp) (.cons e2 .nil)
    refine ⟨0 :: 0 :: (hd' ++ p), by simp only [List.length_cons, hlen]; omega, ?_⟩
    have h3 := array_pick_wide (by rw [hlen]; omega) (by rw [hlen]; omega) this
    rw [enumJoin_ne (by simp)] at h3
    have e : ([91] : Bytes) ++ (List.intercalate [44, 32] [List.replicate d 91 ++ 48 :: List.replicate d 93] ++ [93]) =
        List.replicate (d + 1) 91 ++ 48 :: List.replicate (d + 1) 93 := by
      rw [List.replicate_succ, List.replicate_succ']
      simp [List.intercalate]
    rwa [e] at h3

/-- **C80**, the bound is reached at every length: `0` in as many pairs of brackets as the bound allows. -/
theorem C80_reached {n : Nat} (h1 : 10 ≤ n) (h2 : n ≤ 786434) :
    ∃ p : Bytes, p.length = n ∧ Gives jsonGraph Flags.init 0 p
      (List.replicate ((n - 10) / 6) 91 ++ 48 :: List.replicate ((n - 10) / 6) 93) := by
  obtain ⟨p, e1, m, left, e2⟩ := chain_run ((n - 10) / 6) (l := n - 6 * ((n - 10) / 6)) (by omega) (by omega) (by omega)
  exact ⟨p, by omega, Gives.intro e2⟩

/-- 1000 bytes: 165 levels and no more. -/
example : (∃ p : Bytes, p.length = 1000 ∧ Gives jsonGraph Flags.init 0 p
      (List.replicate 165 91 ++ 48 :: List.replicate 165 93)) ∧
    ∀ {b : Blob} {bs s left : Bytes}, Reachable b → Holds b bs → bs.length = 1000 →
      Returns jsonGraph Flags.init 0 b s left → NestsWithin s 165 := by
  refine ⟨C80_reached (n := 1000) (by norm_num) (by norm_num), fun {b bs s left} hr hh hl h => ?_⟩
  have := (C80_depth hr hh (by omega) h).2
  rwa [hl] at this

end BS
