import Verif.Props.JsonLang
import Verif.Props.Enough

/-!
# Long arrays, empty arrays, and the sizes at which `StampJSON` is safe (C41, C61, C62)
-/

namespace BS

/-- Not a comma and not an opening bracket or brace. -/
def Plain (c : UInt8) : Prop := c ≠ 44 ∧ c ≠ 91 ∧ c ≠ 123

theorem plain_digit {c : UInt8} (h : IsDigit c) : Plain c := by
  refine ⟨?_, ?_, ?_⟩ <;> rintro rfl <;> revert h <;> unfold IsDigit <;> decide

theorem plain_letter {c : UInt8} (h : 97 ≤ c.toNat ∧ c.toNat ≤ 122) : Plain c := by
  refine ⟨?_, ?_, ?_⟩ <;> rintro rfl <;> revert h <;> decide

theorem plain_scalar {full : Prop} {t : JTree} {r : Nat} {s : Bytes} (hr : JRoom full t r) (h : JText t s)
    (hc : t.container = false) : ∀ c ∈ s, Plain c := by
  cases h with
  | int h =>
    rcases h with ⟨_, h, _⟩ | ⟨_, l, rfl, h, _⟩
    · exact fun c hc => plain_digit (h.2.1 c hc)
    · intro c hc
      rcases List.mem_cons.1 hc with rfl | hc
      · unfold Plain; decide
      · exact plain_digit (h.2.1 c hc)
  | dbl _ h =>
    obtain ⟨neg, ip, fp, ep, _, _, rfl, h1, h2, h3, _⟩ := h
    intro c hc
    simp only [List.mem_append] at hc
    rcases hc with ((hc | hc) | hc) | hc
    · cases neg
      · simp at hc
      · have : c = 45 := by simpa using hc
        subst this
        unfold Plain; decide
    · exact plain_digit (h1.2.1 c hc)
    · cases h2 with
      | none => cases hc
      | some hn hd =>
        rcases List.mem_cons.1 hc with rfl | hc
        · unfold Plain; decide
        · exact plain_digit (hd c hc)
    · cases h3 with
      | none => cases hc
      | plus hn hd =>
        rcases List.mem_cons.1 hc with rfl | hc
        · unfold Plain; decide
        rcases List.mem_cons.1 hc with rfl | hc
        · unfold Plain; decide
        · exact plain_digit (hd c hc)
      | minus hn hd =>
        rcases List.mem_cons.1 hc with rfl | hc
        · unfold Plain; decide
        rcases List.mem_cons.1 hc with rfl | hc
        · unfold Plain; decide
        · exact plain_digit (hd c hc)
  | inf h =>
    have e1 : str "inf" = [105, 110, 102] := by decide
    have e2 : str "nan" = [110, 97, 110] := by decide
    rw [e1, e2] at h
    intro c hc
    have : ∀ c ∈ ([45, 105, 110, 102, 97] : Bytes), Plain c := by unfold Plain; decide
    refine this c ?_
    split at h <;> split at h <;> subst h <;> revert hc <;> simp <;> tauto
  | @word w =>
    cases hr with
    | word hw =>
      intro c hc
      unfold quoted at hc
      simp only [List.mem_cons, List.mem_append, List.not_mem_nil, or_false] at hc
      rcases hc with rfl | hc | rfl
      · unfold Plain; decide
      · exact plain_letter (lcAlphaSmall_letters w hw c hc)
      · unfold Plain; decide
  | arr => cases hc
  | obj => cases hc

theorem count_intercalate (c : UInt8) (xs : List Bytes) :
    ((str ", ").intercalate xs).count c = (xs.map (List.count c)).sum + (xs.length - 1) * (str ", ").count c := by
  cases xs with
  | nil => simp [List.intercalate]
  | cons x xs =>
    induction xs generalizing x with
    | nil => simp [List.intercalate]
    | cons y xs ih =>
      have e : (str ", ").intercalate (x :: y :: xs) = x ++ str ", " ++ (str ", ").intercalate (y :: xs) := by
        simp [List.intercalate]
      rw [e, List.count_append, List.count_append, ih]
      simp only [List.map_cons, List.sum_cons, List.length_cons, Nat.add_sub_cancel]
      ring

theorem comma_count : (str ", ").count 44 = 1 := by decide
theorem comma_count' : (str ", ").count 91 = 0 ∧ (str ", ").count 123 = 0 := by decide

/-- Text with one opening bracket or brace has no nested one, and so at most 65534 commas. -/
theorem flat_commas {full : Prop} {t : JTree} {r : Nat} {s : Bytes} (hr : JRoom full t r) (h : JText t s)
    (h1 : s.count 91 + s.count 123 ≤ 1) : s.count 44 ≤ 65534 := by
  -- elements that spell containers have a bracket of their own
  have key : ∀ {t : JTree} {x : Bytes} {r : Nat}, JRoom full t r → JText t x → x.count 91 + x.count 123 = 0 →
      x.count 44 = 0 := by
    intro t x r hr hx h0
    cases hc : t.container
    · rw [List.count_eq_zero]
      intro hm
      exact (plain_scalar hr hx hc _ hm).1 rfl
    · obtain ⟨y, e | e⟩ := hx.head_container hc <;> subst e <;> simp at h0
  have arr : ∀ {l : List (JTree × Bytes)}, l.length ≤ 65535 → (∀ p ∈ l, JText p.1 p.2 ∧ ∃ r, JRoom full p.1 r) →
      ((str ", ").intercalate (l.map Prod.snd)).count 91 + ((str ", ").intercalate (l.map Prod.snd)).count 123 = 0 →
      ((str ", ").intercalate (l.map Prod.snd)).count 44 ≤ 65534 := by
    intro l hk hl h0
    rw [count_intercalate, count_intercalate, comma_count'.1, comma_count'.2] at h0
    have h0' : ((l.map Prod.snd).map (List.count 91)).sum = 0 ∧ ((l.map Prod.snd).map (List.count 123)).sum = 0 := by omega
    rw [List.sum_eq_zero_iff, List.sum_eq_zero_iff] at h0'
    have hz : ((l.map Prod.snd).map (List.count 44)).sum = 0 := by
      rw [List.sum_eq_zero_iff]
      intro n hn
      simp only [List.map_map, List.mem_map, Function.comp] at hn
      obtain ⟨p, hp, rfl⟩ := hn
      obtain ⟨g1, r, g2⟩ := hl p hp
      refine key g2 g1 ?_
      have a1 := h0'.1 (p.2.count 91) (by simp only [List.map_map, List.mem_map]; exact ⟨p, hp, rfl⟩)
      have a2 := h0'.2 (p.2.count 123) (by simp only [List.map_map, List.mem_map]; exact ⟨p, hp, rfl⟩)
      omega
    rw [count_intercalate, hz, comma_count, List.length_map]
    omega
  cases h with
  | arr h2 =>
    rename_i l2
    generalize ht : JTree.arr (l2.map Prod.fst) = t at hr
    cases hr with
    | arr hn hk h3 =>
      rename_i l1
      rw [JTree.arr.injEq] at ht
      have hlen : l2.length = l1.length := by simpa using congrArg List.length ht
      simp only [List.count_cons, List.count_append, List.count_nil] at h1 ⊢
      have := arr (l := l2) (by omega) (fun p hp => ⟨h2 p hp, by
        have : p.1 ∈ l1.map Prod.fst := ht ▸ List.mem_map_of_mem hp
        obtain ⟨q, hq, e⟩ := List.mem_map.1 this
        exact ⟨q.2, e ▸ h3 q hq⟩⟩) (by simp at h1 ⊢; omega)
      simpa using this
    | _ => cases ht
  | obj h2 =>
    rename_i l2
    generalize ht : JTree.obj (l2.map fun p => (p.1, p.2.1)) = t at hr
    cases hr with
    | obj hn hk hw hc h3 =>
      rename_i l1
      rw [JTree.obj.injEq] at ht
      cases l2 with
      | nil => decide
      | cons p l2 =>
        exfalso
        have : (p.1, p.2.1) ∈ l1.map fun q => (q.1, q.2.1) := ht ▸ List.mem_map_of_mem (f := fun p : Bytes × JTree × Bytes => (p.1, p.2.1)) (by simp)
        obtain ⟨q, hq, e⟩ := List.mem_map.1 this
        have hcq := hc q hq
        rw [(Prod.mk.inj e).2] at hcq
        obtain ⟨y, e | e⟩ := (h2 p (by simp)).head_container hcq <;>
        · simp only [List.count_cons, List.count_append, count_intercalate, List.map_cons, List.sum_cons, e] at h1
          simp at h1
          omega
    | _ => cases ht
  | int h => exact (Nat.le_of_eq (key hr (.int h) (by
      have := plain_scalar hr (.int h) rfl
      rw [List.count_eq_zero.2 fun hm => (this _ hm).2.1 rfl, List.count_eq_zero.2 fun hm => (this _ hm).2.2 rfl]))).trans (by omega)
  | dbl he h => exact (Nat.le_of_eq (key hr (.dbl he h) (by
      have := plain_scalar hr (.dbl he h) rfl
      rw [List.count_eq_zero.2 fun hm => (this _ hm).2.1 rfl, List.count_eq_zero.2 fun hm => (this _ hm).2.2 rfl]))).trans (by omega)
  | inf h => exact (Nat.le_of_eq (key hr (.inf h) (by
      have := plain_scalar hr (.inf h) rfl
      rw [List.count_eq_zero.2 fun hm => (this _ hm).2.1 rfl, List.count_eq_zero.2 fun hm => (this _ hm).2.2 rfl]))).trans (by omega)
  | word => exact (Nat.le_of_eq (key hr .word (by
      have := plain_scalar hr .word rfl
      rw [List.count_eq_zero.2 fun hm => (this _ hm).2.1 rfl, List.count_eq_zero.2 fun hm => (this _ hm).2.2 rfl]))).trans (by omega)

/-- **C62** is violated, second way: no blob below 2 GiB makes an array of 65536 or more integers. -/
theorem C62_violated_long {l : List Int} (hl : ∀ i ∈ l, -2 ^ 63 ≤ i ∧ i < 2 ^ 63) (hk : 65536 ≤ l.length) {s : Bytes}
    (hs : JText (.arr (l.map .int)) s) :
    ¬ ∃ b bs left, Reachable b ∧ Holds b bs ∧ bs.length < 2 ^ 31 ∧ Returns jsonGraph Flags.init 0 b s left := by
  rintro ⟨b, bs, left, hr, hh, hb, h⟩
  obtain ⟨t, r, h1, h2, -, -⟩ := C61_language hr hh hb h
  clear h hb hh hr
  generalize ht : JTree.arr (l.map .int) = u at hs
  cases hs with
  | arr h3 =>
    rename_i l2
    rw [JTree.arr.injEq] at ht
    have hlen : l2.length = l.length := by simpa using (congrArg List.length ht).symm
    have hp : ∀ p ∈ l2, ∀ c ∈ p.2, Plain c := by
      intro p hp
      have : p.1 ∈ l.map JTree.int := ht ▸ List.mem_map_of_mem hp
      obtain ⟨i, hi, e⟩ := List.mem_map.1 this
      have g := h3 p hp
      rw [← e] at g
      exact plain_scalar (full := True) (.int (hl i hi).1 (hl i hi).2) g rfl
    have hz : ∀ c : UInt8, ¬ Plain c → ((l2.map Prod.snd).map (List.count c)).sum = 0 := by
      intro c hc
      rw [List.sum_eq_zero_iff]
      intro n hn
      simp only [List.map_map, List.mem_map, Function.comp] at hn
      obtain ⟨p, hp', rfl⟩ := hn
      exact List.count_eq_zero.2 fun hm => hc (hp p hp' _ hm)
    have c1 := hz 44 (by simp [Plain])
    have c2 := hz 91 (by simp [Plain])
    have c3 := hz 123 (by simp [Plain])
    have := flat_commas h1 h2 (by
      simp only [List.count_cons, List.count_append, count_intercalate, c2, c3, comma_count'.1, comma_count'.2]
      simp)
    simp only [List.count_cons, List.count_append, count_intercalate, c1, comma_count, List.length_map, hlen] at this
    simp at this
    omega
  | _ => cases ht

/-- 65536 zeros: the text exists, and no blob makes it. -/
example : ∃ s, JText (.arr ((List.replicate 65536 (0 : Int)).map .int)) s ∧
    ¬ ∃ b bs left, Reachable b ∧ Holds b bs ∧ bs.length < 2 ^ 31 ∧ Returns jsonGraph Flags.init 0 b s left := by
  have h := JText.arr (l := List.replicate 65536 (JTree.int 0, [48])) (fun p hp => by
    rw [List.eq_of_mem_replicate hp]
    exact .int (intDec_spec 0))
  rw [List.map_replicate] at h
  refine ⟨_, by rw [List.map_replicate]; exact h, C62_violated_long (l := List.replicate 65536 0) ?_ ?_ (by
    rw [List.map_replicate]; exact h)⟩
  · intro i hi
    rw [List.eq_of_mem_replicate hi]
    norm_num
  · rw [List.length_replicate]

/-- **C61**, the bound of 768 KiB is exact: a blob of 786424 bytes that begins with `00 00 ff ff` gives an
empty array, because the number of elements, 65536, is kept in 16 bits. -/
theorem C61_empty {b : Blob} {rest : Bytes} (hr : Reachable b) (hh : Holds b (0 :: 0 :: 255 :: 255 :: rest))
    (h1 : 786420 ≤ rest.length) (h2 : rest.length ≤ 786431) : Returns jsonGraph Flags.init 0 b (str "[]") rest := by
  have hv : extract jsonGraph 10 4 (Flags.init, (255 :: 255 :: rest : ABlob)) = (.ok (str "[]"), (Flags.init, rest)) := by
    have hlen : (255 :: 255 :: rest : Bytes).length = rest.length + 2 := by rw [List.length_cons, List.length_cons]
    have e1 : vecSplit 9 10 (-1) (255 :: 255 :: rest : ABlob) = (.ok [], rest) := by
      rw [vecSplit_enough (by decide) (by decide) (by rw [hlen]; omega), if_neg (by decide), if_pos rfl]
      unfold vecUnbounded
      rw [M.bind_ok (M.get_apply _)]
      dsimp only
      rw [size_abs, hlen, if_neg (by decide)]
      have ho : (oracle : M ABlob Nat) (255 :: 255 :: rest : Bytes) = (.ok 65535, rest) := by
        rw [oracle_cons, leNat_ff]
      have hc : toSz (((rest.length + 2 : Nat) : Int) - 2) / toSz (((toSz 10 : Nat) : Int) + 2) = 65535 := by
        rw [toSz_of_nonneg (by omega) (by omega), show toSz (((toSz 10 : Nat) : Int) + 2) = 12 by decide +kernel]
        omega
      rw [M.bind_ok ho, hc, show countTarget 65535 65535 = 0 by decide +kernel]
      have h0 : (sizeOracles 0 0 : M ABlob _) rest = (.ok ([], 0), rest) := rfl
      rw [M.bind_ok h0, M.bind_ok (M.get_apply _)]
      dsimp only
      have h3 : (M.lift (ckInt ((10 : Int) * ((0 : Nat) : Int))) : M ABlob Int) rest = (.ok 0, rest) := rfl
      rw [M.bind_ok h3]
      have h4 : (M.lift (ckInt (wrap32 ((BlobLike.size rest : Nat) : Int) - 0)) : M ABlob Int) rest =
          (.ok (rest.length : Int), rest) := by
        rw [size_abs, wrap32_of_fits (by omega) (by omega), ckInt_ok (by omega) (by omega)]
        show (Out.ok _, _) = _
        rw [Int.sub_zero]
      rw [M.bind_ok h4]
      rfl
    unfold extract
    rw [show jsonGraph 4 = some (.vec 0 (enumJoin (str ", ") (str "[") (str "]"))) from rfl]
    dsimp only
    have q1 : liftF (sizeQ jsonGraph 9 .min 0) (Flags.init, (255 :: 255 :: rest : ABlob)) =
        (.ok 10, (Flags.init, (255 :: 255 :: rest : ABlob))) := by
      unfold liftF; dsimp only; rw [jsonSize_ok (v := 10) le_rfl (by decide +kernel)]
    have q2 : liftF (sizeQ jsonGraph 9 .max 0) (Flags.init, (255 :: 255 :: rest : ABlob)) =
        (.ok (-1), (Flags.init, (255 :: 255 :: rest : ABlob))) := by
      unfold liftF; dsimp only; rw [jsonSize_ok (v := -1) le_rfl (by decide +kernel)]
    have q3 : liftB (vecSplit 9 10 (-1)) (Flags.init, (255 :: 255 :: rest : ABlob)) = (.ok [], (Flags.init, rest)) := by
      unfold liftB; dsimp only; rw [e1]
    rw [M.bind_ok q1, M.bind_ok q2, M.bind_ok q3]
    have e : enumJoin (str ", ") (str "[") (str "]") [] = str "[]" := by decide
    rw [← e]
    rfl
  obtain ⟨b1, hr1, hh1⟩ := exists_blob (bs := 255 :: 255 :: rest) (by rw [List.length_cons, List.length_cons]; omega)
  have hd := (C53_json_kind (x := 0) (y := 0) (rest := 255 :: 255 :: rest)).2.2
    (by rw [List.length_cons, List.length_cons]; omega)
  exact ((hd b b1 hr hh hr1 hh1).1 _ _).2 (Returns.intro hr1.valid hh1 (Extracts.intro hv (by simp)))

example : ∃ rest : Bytes, 786420 ≤ rest.length ∧ rest.length ≤ 786431 :=
  ⟨List.replicate 786420 7, by rw [List.length_replicate]; omega⟩

/-! ## C41 -/

/-- **C41**, the exact range: `StampJSON` returns a string on every blob of 10 to 393231 bytes, whatever
its contents. Missing: larger blobs; there is none of any size below 2 GiB at which it always returns
(`C41_violated_every_size`). -/
theorem C41_exact_partial {b : Blob} {bs : Bytes} (hr : Reachable b) (hh : Holds b bs) (h1 : 10 ≤ bs.length)
    (h2 : bs.length ≤ 393231) : ∃ s left, Returns jsonGraph Flags.init 0 b s left := by
  rcases bs with _ | ⟨x, _ | ⟨y, rest⟩⟩
  · simp at h1
  · simp at h1
  simp only [List.length_cons] at h1 h2
  obtain ⟨b1, hr1, hh1⟩ := exists_blob (bs := rest) (by omega)
  have sz : ∀ (j : Id) (m : Int), sizeQ jsonGraph 9 .min j Flags.init = (.ok m, Flags.init) → m ≤ rest.length →
      ∃ s left, Returns jsonGraph Flags.init j b1 s left := fun j m hm hle =>
    C39_enough_partial jsonGraph_plentiful init_idle (hasSize_eval 9 (by rw [hm])) hr1 hh1 hle (by omega)
  have go : ∀ j, Delegates jsonGraph Flags.init 0 (x :: y :: rest) j rest →
      (∃ s left, Returns jsonGraph Flags.init j b1 s left) → ∃ s left, Returns jsonGraph Flags.init 0 b s left := by
    rintro j hd ⟨s, left, h⟩
    exact ⟨s, left, ((hd b b1 hr hh hr1 hh1).1 s left).2 h⟩
  obtain ⟨k1, k2, k3⟩ := C53_json_kind (x := x) (y := y) (rest := rest)
  have hx := x.toNat_lt
  have hy := y.toNat_lt
  by_cases h14 : rest.length < 14
  · refine go _ (k1 (by omega) h14) ?_
    have hk : (x.toNat + 256 * y.toNat) * 3 / 65536 < 3 := by omega
    generalize (x.toNat + 256 * y.toNat) * 3 / 65536 = k at hk
    rcases k with _ | _ | _ | k
    · exact sz 1 8 (jsonSize_ok le_rfl (by decide +kernel)) (by omega)
    · exact sz 2 8 (jsonSize_ok le_rfl (by decide +kernel)) (by omega)
    · exact sz 3 8 (jsonSize_ok le_rfl (by decide +kernel)) (by omega)
    · omega
  by_cases h22 : rest.length < 22
  · exact go _ (k2 (by omega) h22) (sz 4 14 (jsonSize_ok le_rfl (by decide +kernel)) (by omega))
  · refine go _ (k3 (by omega)) ?_
    split
    · exact sz 4 14 (jsonSize_ok le_rfl (by decide +kernel)) (by omega)
    · exact sz 5 22 (jsonSize_ok le_rfl (by decide +kernel)) (by omega)

example : ∃ bs : Bytes, 393229 < bs.length ∧ bs.length ≤ 393231 :=
  ⟨List.replicate 393231 255, by rw [List.length_replicate]; omega⟩

theorem countTarget_flood {cm : Nat} (h1 : 32769 ≤ cm) (h2 : cm < 2 ^ 30) :
    ∃ co ≤ 65535, 32769 ≤ countTarget cm co := by
  by_cases h : cm ≤ 65534
  · refine ⟨65535, le_rfl, ?_⟩
    unfold countTarget
    dsimp only
    have e1 : toSz ((cm : Int) * ((65535 : Nat) : Int)) = cm * 65535 := by
      rw [← Nat.cast_mul]; exact toSz_natCast (by omega)
    rw [e1, Nat.mul_div_cancel _ (by norm_num)]
    have e2 : toSz (((cm : Nat) : Int) + 1) = cm + 1 := by
      rw [← Nat.cast_one (R := Int), ← Nat.cast_add]; exact toSz_natCast (by omega)
    rw [e2]
    split <;> omega
  · -- the least count oracle that asks for 32769
    have hpos : 0 < cm := by omega
    set co := (32768 * 65535 + cm - 1) / cm with hco
    have g1 : co * cm ≤ 32768 * 65535 + cm - 1 := Nat.div_mul_le_self _ _
    have g2 : 32768 * 65535 + cm - 1 < (co + 1) * cm := by
      have := Nat.lt_div_mul_add hpos (a := 32768 * 65535 + cm - 1)
      rw [Nat.add_mul, one_mul]; exact this
    have g3 : co ≤ 65535 := by
      rw [hco]
      apply Nat.lt_succ_iff.1
      rw [Nat.div_lt_iff_lt_mul hpos]
      have : 65536 * cm ≥ 65536 * 65535 := Nat.mul_le_mul_left _ (by omega)
      have e : Nat.succ 65535 * cm = 65536 * cm := rfl
      rw [e]
      omega
    clear_value co
    rw [Nat.add_mul, one_mul] at g2
    refine ⟨co, g3, ?_⟩
    unfold countTarget
    dsimp only
    rw [mul_comm co cm] at g1 g2
    obtain ⟨p, hp⟩ : ∃ p, p = cm * co := ⟨_, rfl⟩
    rw [← hp] at g1 g2
    have e1 : toSz ((cm : Int) * (co : Int)) = p := by
      rw [← Nat.cast_mul, ← hp]; exact toSz_natCast (by omega)
    rw [e1]
    have e2 : toSz (((p / 65535 : Nat) : Int) + 1) = p / 65535 + 1 := by
      rw [← Nat.cast_one (R := Int), ← Nat.cast_add]; exact toSz_natCast (by omega)
    rw [e2]
    split <;> omega

/-- **C41** is violated at every size above: for every length from 393232 bytes to 2 GiB there is a blob of
that length on which `StampJSON` neither returns nor throws. -/
theorem C41_violated_every_size {L : Nat} (h1 : 393232 ≤ L) (h2 : L < 2 ^ 31) :
    ∃ bs : Bytes, bs.length = L ∧ ∀ b, Reachable b → Holds b bs →
      (∀ s left, ¬ Returns jsonGraph Flags.init 0 b s left) ∧ (∀ left, ¬ Throws jsonGraph Flags.init 0 b left) := by
  obtain ⟨co, hco, hk⟩ := countTarget_flood (cm := (L - 4) / 12) (by omega) (by omega)
  set rest : Bytes := twoBytes co ++ List.replicate (L - 4) 255 with hrest
  have hlen : rest.length = L - 2 := by
    rw [hrest, List.length_append, List.length_replicate]
    show 2 + _ = _
    omega
  have key : ∃ left, vecSplit 9 10 (-1) (rest : ABlob) = (.ub .intOverflow, left) := by
    rw [vecSplit_enough (by decide) (by decide) (by omega), if_neg (by decide), if_pos rfl]
    unfold vecUnbounded
    rw [M.bind_ok (M.get_apply _)]
    dsimp only
    rw [size_abs, hlen, if_neg (by decide), hrest, M.bind_ok (oracle_two hco _)]
    have hc : toSz (((L - 2 : Nat) : Int) - 2) / toSz (((toSz 10 : Nat) : Int) + 2) = (L - 4) / 12 := by
      rw [toSz_of_nonneg (by omega) (by omega), show toSz (((toSz 10 : Nat) : Int) + 2) = 12 by decide +kernel]
      omega
    rw [hc]
    have hle : countTarget ((L - 4) / 12) co ≤ (L - 4) / 12 := by
      unfold countTarget
      dsimp only
      split <;> omega
    obtain ⟨left, hl⟩ := sizeOracles_overflow (countTarget ((L - 4) / 12) co) 0 (L - 4) (by omega) (by omega) (by omega)
    exact ⟨left, M.bind_ub hl⟩
  obtain ⟨left, hl⟩ := key
  have hvec : extract jsonGraph 10 4 (Flags.init, (rest : ABlob)) = (.ub .intOverflow, (Flags.init, left)) := by
    unfold extract
    show ((liftF (sizeQ jsonGraph 9 .min 0) : XM ABlob Int) >>= _) (Flags.init, _) = _
    rw [M.bind_ok (s' := (Flags.init, (rest : ABlob))) (a := (10 : Int))
      (by unfold liftF; rw [jsonSize_ok (v := 10) le_rfl (by decide +kernel)])]
    rw [M.bind_ok (s' := (Flags.init, (rest : ABlob))) (a := (-1 : Int))
      (by unfold liftF; rw [jsonSize_ok (v := -1) le_rfl (by decide +kernel)])]
    refine M.bind_ub ?_
    unfold liftB
    dsimp only
    rw [hl]
  obtain ⟨N, hN⟩ := Extracts.intro hvec (by simp)
  obtain ⟨b1, hr1, hh1⟩ := exists_blob (bs := rest) (by omega)
  have hd := (C53_json_kind (x := 0) (y := 0) (rest := rest)).2.2 (by omega)
  rw [if_pos (by decide)] at hd
  refine ⟨0 :: 0 :: rest, by simp only [List.length_cons]; omega, fun b hr hh => ⟨fun s l h => ?_, fun l h => ?_⟩⟩
  · obtain ⟨n, h⟩ := Returns.inv hr1 hh1 (((hd b b1 hr hh hr1 hh1).1 s l).1 h)
    have e1 := h (max n N) (le_max_left _ _)
    rw [hN (max n N) (le_max_right _ _)] at e1
    cases e1
  · obtain ⟨n, h⟩ := Throws.inv hr1 hh1 (((hd b b1 hr hh hr1 hh1).2 l).1 h)
    have e1 := h (max n N) (le_max_left _ _)
    rw [hN (max n N) (le_max_right _ _)] at e1
    cases e1

example : ∃ bs : Bytes, bs.length = 1000000 ∧ ∀ b, Reachable b → Holds b bs →
    ∀ s left, ¬ Returns jsonGraph Flags.init 0 b s left := by
  obtain ⟨bs, h1, h2⟩ := C41_violated_every_size (L := 1000000) (by norm_num) (by norm_num)
  exact ⟨bs, h1, fun b hr hh => (h2 b hr hh).1⟩

end BS
