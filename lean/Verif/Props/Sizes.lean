import Verif.Props.Load
import Verif.Spec.Arith

/-!
# C63: what `minSize()` and `maxSize()` say
-/

namespace BS

variable {G : Graph} {fl : Flags} {i c : Id}

/-- **C63**, leaves: an arithmetic stamp reports the size of its type, text stamps at least one byte and no
limit, a JSON string 8 bytes. -/
theorem C63_leaves :
    (∀ t, G i = some (.arith t) → HasMin G fl i (sizeofT t) ∧ HasMax G fl i (sizeofT t)) ∧
    (G i = some .latin1 ∨ G i = some .ascii → HasMin G fl i 1 ∧ HasMax G fl i (-1)) ∧
    (G i = some .jsonStr → HasMin G fl i 8 ∧ HasMax G fl i 8) := by
  have key : ∀ {sel v}, sizeQ G 1 sel i fl = (.ok v, fl) → SizeRuns G fl sel i v fl := fun h => .intro h
  refine ⟨fun t h => ⟨key ?_, key ?_⟩, fun h => ⟨key ?_, key ?_⟩, fun h => ⟨key ?_, key ?_⟩⟩
  · unfold sizeQ; rw [h]; cases t <;> rfl
  · unfold sizeQ; rw [h]; cases t <;> rfl
  · unfold sizeQ; rcases h with h | h <;> rw [h] <;> rfl
  · unfold sizeQ; rcases h with h | h <;> rw [h] <;> rfl
  · unfold sizeQ; rw [h]; rfl
  · unfold sizeQ; rw [h]; rfl

/-- **C63**, lists: a list (`StampEnumerator`, `StampText`, `GalleyVectorStr`) reports the minimum of its
stamp, two bytes more if that is variated and four more if it is unbounded, and no limit. -/
theorem C63_list {join : List Bytes → Bytes} (hG : G i = some (.vec c join)) {mn mx : Int}
    (h1 : HasMin G fl c mn) (h2 : HasMax G fl c mx) (h0 : -W31 ≤ mn) (hi : mn + 4 ≤ INT_MAX) :
    HasMin G fl i (vecNeeds mn mx) ∧ HasMax G fl i (-1) := by
  obtain ⟨N1, h1⟩ := h1
  obtain ⟨N2, h2⟩ := h2
  constructor
  · refine ⟨max N1 N2 + 1, fun n hn => ?_⟩
    obtain ⟨n, rfl⟩ : ∃ k, n = k + 1 := ⟨n - 1, by omega⟩
    unfold sizeQ
    rw [hG]
    dsimp only
    rw [M.bind_ok (h1 n (by omega)), M.bind_ok (h2 n (by omega))]
    rw [vecMinSize_needs h0 hi]
    rfl
  · refine .intro (n := 1) ?_
    unfold sizeQ; rw [hG]; rfl

/-- **C63**, sets: a set of stamps (`GalleySetStr`) reports `setNeeds` and `setTakes`; a binary operator
reports `setNeeds` of its two stamps and no limit. -/
theorem C63_set {cs : List Id} {join : List Bytes → Bytes} {unb : Bool} (hG : G i = some (.set cs join unb))
    {ss : List SizePair} (hs : List.Forall₂ (fun j s => HasMin G fl j s.1 ∧ HasMax G fl j s.2) cs ss)
    (hz : SetSizes ss) (ht : (ss.map fun s => if s.2 = -1 then 0 else s.2).sum + 2 * ss.length ≤ INT_MAX) :
    HasMin G fl i (setNeeds ss) ∧ HasMax G fl i (if unb then -1 else setTakes ss) := by
  obtain ⟨N, hN⟩ := queryAll_sizes hs
  constructor
  · refine ⟨N + 1, fun n hn => ?_⟩
    obtain ⟨n, rfl⟩ : ∃ k, n = k + 1 := ⟨n - 1, by omega⟩
    obtain ⟨e1, e2⟩ := hN n (by omega)
    unfold sizeQ
    rw [hG]
    cases unb <;>
    · dsimp only
      rw [M.bind_ok e1, M.bind_ok e2, zip_fst_snd, setMinSize_needs hz]
      rfl
  · refine ⟨N + 1, fun n hn => ?_⟩
    obtain ⟨n, rfl⟩ : ∃ k, n = k + 1 := ⟨n - 1, by omega⟩
    obtain ⟨e1, e2⟩ := hN n (by omega)
    unfold sizeQ
    rw [hG]
    cases unb
    · dsimp only
      rw [M.bind_ok e1, M.bind_ok e2, zip_fst_snd, setMaxSize_takes hz.sizes 0 le_rfl (by omega), Int.zero_add]
      rfl
    · rfl

theorem sumInts_run {l : List Int} (h : ∀ x ∈ l, 0 ≤ x) (a : Int) (h0 : 0 ≤ a) (h1 : a + l.sum ≤ INT_MAX) :
    sumInts l a = .ok (a + l.sum) := by
  induction l generalizing a with
  | nil => simp [sumInts]
  | cons x l ih =>
    have hx := h x (by simp)
    have hp : 0 ≤ l.sum := List.sum_nonneg fun y hy => h y (by simp [hy])
    rw [List.sum_cons] at h1 ⊢
    unfold sumInts
    rw [ckInt_ok (by omega) (by omega)]
    simp only [Out.bind_ok']
    rw [ih (fun y hy => h y (by simp [hy])) _ (by omega) (by omega)]
    congr 1; ring

/-- **C63**, members of JSON objects and stamps that call others in turn: the sum of the minima; for a member no
limit. -/
theorem C63_seq {cs : List Id} {join : List Bytes → Bytes} {unb : Bool} (hG : G i = some (.seq cs join unb))
    {ss : List SizePair} (hs : List.Forall₂ (fun j s => HasMin G fl j s.1 ∧ HasMax G fl j s.2) cs ss)
    (h0 : ∀ s ∈ ss, 0 ≤ s.1) (ht : (ss.map Prod.fst).sum ≤ INT_MAX) :
    HasMin G fl i (ss.map Prod.fst).sum ∧ (unb = true → HasMax G fl i (-1)) ∧
      (unb = false → (∀ s ∈ ss, 0 ≤ s.2) → (ss.map Prod.snd).sum ≤ INT_MAX → HasMax G fl i (ss.map Prod.snd).sum) := by
  obtain ⟨N, hN⟩ := queryAll_sizes hs
  refine ⟨⟨N + 1, fun n hn => ?_⟩, fun hu => ?_, fun hu h2 h3 => ⟨N + 1, fun n hn => ?_⟩⟩
  · obtain ⟨n, rfl⟩ : ∃ k, n = k + 1 := ⟨n - 1, by omega⟩
    obtain ⟨e1, e2⟩ := hN n (by omega)
    unfold sizeQ
    rw [hG]
    have hsum := sumInts_run (l := ss.map Prod.fst) (by
      intro x hx
      obtain ⟨s, hs, rfl⟩ := List.mem_map.1 hx
      exact h0 s hs) 0 le_rfl (by omega)
    cases unb <;>
    · dsimp only
      rw [M.bind_ok e1, hsum, Int.zero_add]
      rfl
  · subst hu
    refine .intro (n := 1) ?_
    unfold sizeQ; rw [hG]; rfl
  · subst hu
    obtain ⟨n, rfl⟩ : ∃ k, n = k + 1 := ⟨n - 1, by omega⟩
    obtain ⟨e1, e2⟩ := hN n (by omega)
    unfold sizeQ
    rw [hG]
    have hsum := sumInts_run (l := ss.map Prod.snd) (by
      intro x hx
      obtain ⟨s, hs, rfl⟩ := List.mem_map.1 hx
      exact h2 s hs) 0 le_rfl (by omega)
    dsimp only
    rw [M.bind_ok e2, hsum, Int.zero_add]
    rfl

/-- **C63**, unary operators: the minimum of the operand, and no limit. -/
theorem C63_unary {op : Bytes} (hG : G i = some (.unary op c)) {mn : Int} (h : HasMin G fl c mn) :
    HasMin G fl i mn ∧ HasMax G fl i (-1) := by
  obtain ⟨N, h⟩ := h
  constructor
  · refine ⟨N + 1, fun n hn => ?_⟩
    obtain ⟨n, rfl⟩ : ∃ k, n = k + 1 := ⟨n - 1, by omega⟩
    unfold sizeQ
    rw [hG]
    exact h n (by omega)
  · refine .intro (n := 1) ?_
    unfold sizeQ; rw [hG]; rfl

/-- **C63**, pool pickers that are not under way (their stamps are asked while the picker is marked as under way):
the least minimum and two bytes; no limit if one of the stamps has none, else the greatest maximum and two bytes. -/
theorem C63_picker {pool : List Id} (hG : G i = some (.picker pool)) (hne : pool ≠ []) (h1 : (fl i).inRec = false)
    (h2 : (fl i).isRec = false) {mn mx : Id → Int}
    (hmn : ∀ j ∈ pool, HasMin G (fl.setIn i true) j (mn j)) (hmx : ∀ j ∈ pool, HasMax G (fl.setIn i true) j (mx j))
    (h0 : ∀ j ∈ pool, 0 ≤ mn j) (hs : ∃ j ∈ pool, mn j < INT_MAX / 2)
    (hx : ∀ j ∈ pool, mx j = -1 ∨ (0 ≤ mx j ∧ mx j ≤ INT_MAX - 2)) :
    (∃ m, IsLeast {v | ∃ j ∈ pool, v = mn j} m ∧ HasMin G fl i (m + 2)) ∧
    ((∃ j ∈ pool, mx j = -1) → HasMax G fl i (-1)) ∧
    ((∀ j ∈ pool, mx j ≠ -1) → ∃ m, IsGreatest {v | ∃ j ∈ pool, v = mx j} m ∧ HasMax G fl i (m + 2)) := by
  refine ⟨?_, ?_⟩
  · obtain ⟨r, e1, e2, e3, e4⟩ := min_picker hG h1 hmn
    obtain ⟨j, hj, hlt⟩ := hs
    have hr := e2 j hj
    rcases e3 with e3 | ⟨k, hk, e3⟩
    · omega
    · have := h0 k hk
      rw [if_neg (by omega), wrap32_of_fits (by omega) (by norm_num at *; omega)] at e4
      exact ⟨r, ⟨⟨k, hk, e3⟩, by rintro v ⟨q, hq, rfl⟩; exact e2 q hq⟩, e4⟩
  · rcases max_picker hG h1 h2 hmx with ⟨e1, e2⟩ | ⟨e1, r, e2, e3, e4, e5⟩
    · refine ⟨fun _ => e2, fun h => ?_⟩
      obtain ⟨j, hj, e⟩ := e1
      exact absurd e (h j hj)
    · refine ⟨fun ⟨j, hj, e⟩ => absurd e (e1 j hj), fun _ => ?_⟩
      have hw : ∃ k ∈ pool, r = mx k := by
        rcases e4 with e4 | e4
        · obtain ⟨k, hk⟩ := List.exists_mem_of_ne_nil _ hne
          have a := e3 k hk
          rcases hx k hk with b | b
          · exact absurd b (e1 k hk)
          · exact ⟨k, hk, by omega⟩
        · exact e4
      obtain ⟨k, hk, e⟩ := hw
      have b := hx k hk
      rw [wrap32_of_fits (by omega) (by norm_num at *; omega)] at e5
      exact ⟨r, ⟨⟨k, hk, e⟩, by rintro v ⟨q, hq, rfl⟩; exact e3 q hq⟩, e5⟩

/-- A picker over an `int`, a `short` and a `char` stamp. -/
def pickExample : Graph
  | 0 => some (.picker [2, 1, 3])
  | 1 => some (.arith .i32)
  | 2 => some (.arith .i16)
  | 3 => some (.arith .u8)
  | _ => none

example : HasMin pickExample Flags.init 0 3 ∧ HasMax pickExample Flags.init 0 6 :=
  ⟨hasSize_eval 9 (by decide +kernel), hasSize_eval 9 (by decide +kernel)⟩

/-- A fixed stamp of 4 bytes, two of 1 to 5 and two unbounded ones of 1: 8 bytes of data, five oracles. -/
example : setNeeds [(4, 4), (1, 5), (1, -1), (1, 5), (1, -1)] = 18 ∧
    setTakes [(4, 4), (1, 5), (1, 5)] = 18 ∧ setTakes [(4, 4), (1, -1)] = -1 := by decide +kernel

/-- A list of 16-bit integers, and the JSON array. -/
example : HasMin jsonGraph Flags.init 4 14 ∧ HasMax jsonGraph Flags.init 4 (-1) :=
  C63_list (c := 0) (mn := 10) (mx := -1) rfl (hasSize_eval 9 (by decide +kernel)) (hasSize_eval 9 (by decide +kernel))
    (by decide) (by decide)

end BS
