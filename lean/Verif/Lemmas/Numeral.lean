import Verif.Spec.Numeral
import Verif.Arith
import Mathlib.Tactic.IntervalCases

/-!
# Lemmas about printed numerals
-/

namespace BS

/-- Value of a digit list, least significant digit first. -/
def valLSD : List Nat → Nat
  | [] => 0
  | d :: ds => d + 10 * valLSD ds

theorem valLSD_cons (d : Nat) (ds : List Nat) : valLSD (d :: ds) = d + 10 * valLSD ds := rfl

theorem digitChar_toNat {d : Nat} (h : d < 10) : (digitChar d).toNat = 48 + d := by
  unfold digitChar
  rw [UInt8.toNat_ofNat']
  omega

theorem digitChar_isDigit {d : Nat} (h : d < 10) : IsDigit (digitChar d) := by
  unfold IsDigit; rw [digitChar_toNat h]; omega

theorem digitsVal_append (a b : Bytes) :
    digitsVal (a ++ b) = digitsVal a * 10 ^ b.length + digitsVal b := by
  induction b using List.reverseRecOn with
  | nil => simp [digitsVal]
  | append_singleton b c ih =>
    rw [← List.append_assoc]
    unfold digitsVal at *
    rw [List.foldl_append, ih, List.foldl_append]
    simp only [List.foldl_cons, List.foldl_nil, List.length_append, List.length_cons,
      List.length_nil]
    ring

theorem digitsVal_rev {l : List Nat} (h : ∀ d ∈ l, d < 10) :
    digitsVal (l.reverse.map digitChar) = valLSD l := by
  induction l with
  | nil => rfl
  | cons d l ih =>
    rw [List.reverse_cons, List.map_append, digitsVal_append, ih fun x hx => h x (by simp [hx])]
    simp only [List.map_cons, List.map_nil, List.length_cons, List.length_nil]
    have : digitsVal [digitChar d] = d := by
      unfold digitsVal; simp [digitChar_toNat (h d (by simp))]
    rw [this, valLSD_cons]; ring

theorem digits_map_rev {l : List Nat} (h : ∀ d ∈ l, d < 10) :
    ∀ c ∈ l.reverse.map digitChar, IsDigit c := by
  intro c hc
  rw [List.mem_map] at hc
  obtain ⟨d, hd, rfl⟩ := hc
  exact digitChar_isDigit (h d (List.mem_reverse.1 hd))

theorem valLSD_append (a b : List Nat) : valLSD (a ++ b) = valLSD a + 10 ^ a.length * valLSD b := by
  induction a with
  | nil => simp [valLSD]
  | cons d a ih => rw [List.cons_append, valLSD_cons, valLSD_cons, ih]; simp only [List.length_cons]; ring

theorem valLSD_zeros (k : Nat) : valLSD (List.replicate k 0) = 0 := by
  induction k with
  | zero => rfl
  | succ k ih => rw [List.replicate_succ, valLSD_cons, ih]

/-! ## Integers -/

theorem revDigF_spec : ∀ (f n : Nat), n < 2 ^ (f + 1) →
    (∀ d ∈ revDigF f n, d < 10) ∧ valLSD (revDigF f n) = n ∧ revDigF f n ≠ [] ∧
    ((revDigF f n).getLast? = some 0 → n = 0 ∧ revDigF f n = [0]) := by
  intro f
  induction f with
  | zero =>
    intro n hn
    have : n < 2 := by simpa using hn
    interval_cases n <;> simp [revDigF, valLSD]
  | succ f ih =>
    intro n hn
    unfold revDigF
    by_cases h : n < 10
    · rw [if_pos h]
      refine ⟨by simpa using h, by simp [valLSD], by simp, ?_⟩
      intro h2; simp at h2; simp [h2]
    · rw [if_neg h]
      obtain ⟨h1, h2, h3, h4⟩ := ih (n / 10) (by rw [pow_succ] at hn; omega)
      refine ⟨?_, ?_, by simp, ?_⟩
      · intro d hd
        rcases List.mem_cons.1 hd with rfl | hd
        · omega
        · exact h1 d hd
      · rw [valLSD_cons, h2]; omega
      · intro hl
        rw [List.getLast?_cons_of_ne_nil h3] at hl
        have := h4 hl
        omega

theorem natDec_spec (n : Nat) : IsNumeral (natDec n) ∧ digitsVal (natDec n) = n := by
  have hn : n < 2 ^ (n.log2 + 1) := Nat.lt_log2_self
  obtain ⟨h1, h2, h3, h4⟩ := revDigF_spec n.log2 n hn
  unfold natDec
  refine ⟨⟨by simpa using h3, digits_map_rev h1, ?_⟩, by rw [digitsVal_rev h1, h2]⟩
  intro h
  rw [List.head?_map, List.head?_reverse] at h
  cases hl : (revDigF n.log2 n).getLast? with
  | none => rw [hl] at h; simp at h
  | some d =>
    rw [hl] at h
    simp only [Option.map_some, Option.some.injEq] at h
    have hd := h1 d (List.mem_of_getLast? hl)
    have h5 : (digitChar d).toNat = 48 := by rw [h]; rfl
    rw [digitChar_toNat hd] at h5
    have hd0 : d = 0 := by omega
    rw [hd0] at hl
    rw [(h4 hl).2]; rfl

theorem intDec_spec (i : Int) : DenotesInt (intDec i) i := by
  unfold intDec
  obtain ⟨h1, h2⟩ := natDec_spec i.natAbs
  split
  · next h => exact Or.inr ⟨h, _, rfl, h1, by rw [h2]; omega⟩
  · next h => exact Or.inl ⟨by omega, h1, by rw [h2]; omega⟩

/-- Texts of `signed char`. -/
theorem intDec_len3 : ∀ i : Fin 227, (intDec ((i.val : Int) - 99)).length < 4 := by decide +kernel

theorem toXString_i8 {i : Int} (h1 : -99 ≤ i) (h2 : i ≤ 127) :
    toXString 4 (intDec i) = .ok (intDec i) := by
  have := intDec_len3 ⟨(i + 99).toNat, by omega⟩
  simp only at this
  rw [show (((i + 99).toNat : Nat) : Int) - 99 = i by omega] at this
  unfold toXString; rw [if_pos this]

theorem i8_bad : ∀ i : Fin 29, ∃ l, toXString 4 (intDec ((i.val : Int) - 128)) = .ok l ∧
    l.getLast? = some 0 := by
  intro i
  have h : ∀ i : Fin 29, (match toXString 4 (intDec ((i.val : Int) - 128)) with
    | .ok l => l.getLast? == some 0 | _ => false) = true := by decide +kernel
  have := h i
  split at this
  · next l hl => exact ⟨l, hl, by simpa using this⟩
  · simp at this

end BS
