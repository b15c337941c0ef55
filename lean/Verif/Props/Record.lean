import Verif.Record
import Verif.Spec.Record
import Verif.Props.Compose
import Verif.Props.Sizes
import Verif.Props.Arith

/-!
# C68: stamps for structures
-/

namespace BS
open BlobLike

theorem recordSize_eq (ts : List ArithTy) : recordSize ts = structSize ts := by
  unfold recordSize structSize
  rw [show sizeofT = ArithTy.size from funext sizeofT_eq]

theorem sim_recordV (ts : List ArithTy) : Sim BR Eq (recordV ts) (recordV ts) := by
  induction ts with
  | nil => exact .pure rfl
  | cons t ts ih =>
    unfold recordV
    refine .bind (sim_extractValue t) ?_
    rintro v _ rfl
    refine .bind ih ?_
    rintro vs _ rfl
    exact .pure rfl

/-- The values of the members of a structure with these bytes. -/
def recordVals : List ArithTy → Bytes → List AVal
  | [], _ => []
  | t :: ts, a => decode t (a.take t.size) :: recordVals ts (a.drop t.size)

theorem recordV_abs (ts : List ArithTy) (a : ABlob) (h : recordSize ts ≤ a.length) :
    recordV ts a = (.ok (recordVals ts a), a.drop (recordSize ts)) := by
  induction ts generalizing a with
  | nil => rfl
  | cons t ts ih =>
    have e : recordSize (t :: ts) = t.size + recordSize ts := rfl
    have h1 := extractValue_abs t a
    rw [if_neg (by omega)] at h1
    unfold recordV
    rw [M.bind_ok h1, M.bind_ok (ih (a.drop t.size) (by rw [List.length_drop]; omega)), e, List.drop_drop]
    rfl

theorem recordVals_repr (ts : List ArithTy) (p : Bytes) (h : p.length = recordSize ts) :
    RecordRepr ts (recordVals ts p) p := by
  induction ts generalizing p with
  | nil => rw [List.length_eq_zero_iff.1 h]; exact .nil
  | cons t ts ih =>
    have e : recordSize (t :: ts) = t.size + recordSize ts := rfl
    have hl : (p.take t.size).length = t.size := by rw [List.length_take]; omega
    have := RecordRepr.cons (t := t) (p := p.take t.size) (by rw [hl, sizeofT_eq]) (decode_hasRepr t hl)
      (ih (p.drop t.size) (by rw [List.length_drop]; omega))
    rw [List.take_append_drop] at this
    exact this

theorem recordVals_take (ts : List ArithTy) (a : Bytes) : recordVals ts (a.take (recordSize ts)) = recordVals ts a := by
  induction ts generalizing a with
  | nil => rfl
  | cons t ts ih =>
    have e : recordSize (t :: ts) = t.size + recordSize ts := rfl
    unfold recordVals
    rw [e, List.take_take, Nat.min_eq_left (by omega), List.drop_take, Nat.add_sub_cancel_left, ih]

theorem recordV_short (ts : List ArithTy) (a : ABlob) (h : a.length < recordSize ts) :
    ∃ k, ∃ _ : k < ts.length, recordV ts a = (.outOfData, a.drop (recordSize (ts.take k))) ∧
      recordSize (ts.take k) ≤ a.length ∧ a.length < recordSize (ts.take (k + 1)) := by
  induction ts generalizing a with
  | nil => simp [recordSize] at h
  | cons t ts ih =>
    have e : recordSize (t :: ts) = t.size + recordSize ts := rfl
    have h1 := extractValue_abs t a
    unfold recordV
    by_cases hc : a.length < t.size
    · rw [if_pos hc] at h1
      refine ⟨0, by simp, ?_, by simp [recordSize], by simpa [recordSize] using hc⟩
      rw [M.bind_ood h1]; rfl
    · rw [if_neg hc] at h1
      obtain ⟨k, hk, h2, h3, h4⟩ := ih (a.drop t.size) (by rw [List.length_drop]; omega)
      rw [List.length_drop] at h3 h4
      have e1 : recordSize ((t :: ts).take (k + 1)) = t.size + recordSize (ts.take k) := rfl
      have e2 : recordSize ((t :: ts).take (k + 1 + 1)) = t.size + recordSize (ts.take (k + 1)) := rfl
      refine ⟨k + 1, by simpa using hk, ?_, by omega, by omega⟩
      rw [M.bind_ok h1, M.bind_ood h2, e1, List.drop_drop]

/-- **C68**, values: a stamp for a structure takes exactly the bytes of its members, in order, and returns their
values. On fewer bytes it throws, when the members before the failing one have been taken. -/
theorem C68_value (ts : List ArithTy) {b : Blob} {bs : Bytes} (hr : Reachable b) (hh : Holds b bs) :
    (structSize ts ≤ bs.length → ∃ vs, (recordV ts b).1 = .ok vs ∧ RecordRepr ts vs (bs.take (structSize ts)) ∧
      Holds (recordV ts b).2 (bs.drop (structSize ts))) ∧
    (bs.length < structSize ts → (recordV ts b).1 = .outOfData ∧ ∃ k < ts.length,
      structSize (ts.take k) ≤ bs.length ∧ bs.length < structSize (ts.take (k + 1)) ∧
      Holds (recordV ts b).2 (bs.drop (structSize (ts.take k)))) := by
  simp only [← recordSize_eq]
  have hv := hr.valid
  rw [holds_iff hv] at hh
  obtain ⟨v1, v2, v3⟩ := (sim_recordV ts).run hv
  rw [hh] at v1 v3
  refine ⟨fun h => ?_, fun h => ?_⟩
  · rw [recordV_abs ts bs h] at v1 v3
    refine ⟨_, v1, ?_, (holds_iff v2 _).2 v3⟩
    rw [← recordVals_take]
    exact recordVals_repr ts _ (by rw [List.length_take]; omega)
  · obtain ⟨k, hk, h2, h3, h4⟩ := recordV_short ts bs h
    rw [h2] at v1 v3
    exact ⟨v1, k, hk, h3, h4, (holds_iff v2 _).2 v3⟩

theorem onNew_record (ts : List ArithTy) {p : Bytes} (h : p.length = recordSize ts) (hl : p.length < 9223372036854775808) :
    onNew (recordV ts) p = .ok (recordVals ts p) := by
  have hv := Blob.mk'_valid (buf := p) (off := 0) (n := p.length) (by omega) hl
  have h1 := (sim_recordV ts).run hv.1
  rw [hv.2] at h1
  unfold onNew
  rw [h1.1, List.drop_zero, List.take_length, recordV_abs ts p (by omega)]

theorem record_pos {ts : List ArithTy} (h : ts ≠ []) : 1 ≤ recordSize ts := by
  cases ts with
  | nil => exact absurd rfl h
  | cons t ts =>
    have e : recordSize (t :: ts) = t.size + recordSize ts := rfl
    have := t.size_pos
    omega

/-- **C68**, vectors: over a blob of fewer than 2^31 structures `ExtractValuesVector` returns as many structures as
fit, each with the values of its own bytes, one after the other. -/
theorem C68_vector (ts : List ArithTy) (hne : ts ≠ []) (hi : structSize ts ≤ INT_MAX) {b : Blob} {bs : Bytes}
    (hr : Reachable b) (hh : Holds b bs) :
    (bs.length < structSize ts → GalleyEnds (fun n => vectorRecord n ts) b .outOfData bs) ∧
    (structSize ts ≤ bs.length → bs.length / structSize ts ≤ INT_MAX → ∃ vss parts left,
      GalleyEnds (fun n => vectorRecord n ts) b (.ok vss) left ∧ parts.flatten ++ left = bs ∧
      vss.length = bs.length / structSize ts ∧ left.length < structSize ts ∧
      List.Forall₂ (RecordRepr ts) vss parts) := by
  simp only [← recordSize_eq] at *
  obtain ⟨h1, h2⟩ := C16_fixed_pieces (record_pos hne) hi hr hh
  refine ⟨fun h => vecEach_splitThrows (h1 h), fun h hn => ?_⟩
  obtain ⟨parts, left, h3, h4, h5, h6, h7⟩ := h2 h
  refine ⟨parts.map (recordVals ts), parts, left, ?_, h4, by rw [List.length_map, h5], h7, ?_⟩
  · exact vecEach_ok (sim_recordV ts) hr h3 (by omega)
      (forall₂_map_self _ fun p hp => onNew_record ts (h6 p hp) (by rw [h6 p hp]; omega))
  · exact (forall₂_map_self (R := fun p v => RecordRepr ts v p) _ fun p hp => recordVals_repr ts p (h6 p hp)).flip

/-! ## Texts -/

section
variable {ts : List ArithTy} {l sep r l' sep' r' : Bytes} {fl : Flags}

/-- Integer types whose texts are numerals: all but `char`. -/
def PlainInt (t : ArithTy) : Prop := t ≠ .i8 ∧ t ≠ .float ∧ t ≠ .double

theorem plain_text {t : ArithTy} (h : PlainInt t) {p : Bytes} (hp : p.length = t.size) :
    ∃ i, decode t p = .int i ∧ toStringPrecise t (decode t p) = .ok (intDec i) := by
  obtain ⟨h1, h2, h3⟩ := h
  have hd : ∃ i, decode t p = .int i := by
    obtain ⟨i, e, _⟩ := decode_range t (by cases t <;> first | exact absurd rfl h2 | exact absurd rfl h3 | rfl) hp
    exact ⟨i, e⟩
  obtain ⟨i, hi⟩ := hd
  refine ⟨i, hi, ?_⟩
  rw [hi]
  cases t <;> first | exact absurd rfl h1 | exact absurd rfl h2 | exact absurd rfl h3 | rfl

/-- The texts of the values. -/
def intTexts : List AVal → List Bytes
  | [] => []
  | .int i :: vs => intDec i :: intTexts vs
  | .bits _ :: vs => [] :: intTexts vs

theorem arith_run {G : Graph} {j : Id} {t : ArithTy} (hG : G j = some (.arith t)) (h : PlainInt t) {a : ABlob}
    (ha : t.size ≤ a.length) :
    ∃ i, decode t (a.take t.size) = .int i ∧ ARun G fl j a (.ok (intDec i)) (a.drop t.size) := by
  obtain ⟨i, h1, h2⟩ := plain_text h (p := a.take t.size) (by rw [List.length_take]; omega)
  refine ⟨i, h1, 1, ?_⟩
  unfold extract
  rw [hG]
  dsimp only
  unfold liftB
  dsimp only
  rw [extractArithStr_abs, if_neg (by omega), h2]

theorem members_run (hp : ∀ t ∈ ts, PlainInt t) {G : Graph} {k : Nat}
    (hG : ∀ j (hj : j < ts.length), G (k + j) = some (.arith (ts[j]))) {a : ABlob} (ha : recordSize ts ≤ a.length) :
    ATurn G fl (List.range' k ts.length) a (intTexts (recordVals ts a)) (a.drop (recordSize ts)) := by
  induction ts generalizing a k with
  | nil => exact .nil _
  | cons t ts ih =>
    have e : recordSize (t :: ts) = t.size + recordSize ts := rfl
    obtain ⟨i, h1, h2⟩ := arith_run (fl := fl) (hG 0 (by simp)) (hp t (by simp)) (a := a) (by
      show t.size ≤ a.length; omega)
    have h1 : decode t (a.take t.size) = .int i := h1
    have := ih (k := k + 1) (fun t ht => hp t (List.mem_cons_of_mem _ ht))
      (fun j hj => by have := hG (j + 1) (by simpa using hj); rw [show k + 1 + j = k + (j + 1) by omega, this]; simp)
      (a := a.drop t.size) (by rw [List.length_drop]; omega)
    rw [List.drop_drop] at this
    rw [List.length_cons, List.range'_succ, e]
    unfold recordVals intTexts
    rw [h1]
    exact .cons h2 this

theorem record_run (hp : ∀ t ∈ ts, PlainInt t) {a : ABlob} (ha : recordSize ts ≤ a.length) :
    ARun (recordGraph ts l sep r l' sep' r') fl 1 a (.ok (recordText l sep r (intTexts (recordVals ts a))))
      (a.drop (recordSize ts)) := by
  refine (seq_ok_iff rfl).2 ⟨_, members_run hp (fun j hj => ?_) ha, rfl⟩
  rw [Nat.add_comm]
  show (ts[j]?).map Node.arith = _
  rw [List.getElem?_eq_getElem hj]
  rfl

theorem intTexts_shows (hp : ∀ t ∈ ts, PlainInt t) {a : Bytes} (ha : recordSize ts ≤ a.length) :
    List.Forall₂ ShowsInt (recordVals ts a) (intTexts (recordVals ts a)) := by
  induction ts generalizing a with
  | nil => exact .nil
  | cons t ts ih =>
    have e : recordSize (t :: ts) = t.size + recordSize ts := rfl
    obtain ⟨i, h1, h2⟩ := plain_text (hp t (by simp)) (p := a.take t.size) (by rw [List.length_take]; omega)
    unfold recordVals
    rw [h1]
    exact .cons ⟨i, rfl, intDec_spec i⟩ (ih (fun t ht => hp t (List.mem_cons_of_mem _ ht)) (by rw [List.length_drop]; omega))

/-- **C68**, texts: for members of integer types other than `char` the string stamp writes the numerals of the values
that `ExtractValue` returns on the same blob, and takes the same bytes. -/
theorem C68_text (hp : ∀ t ∈ ts, PlainInt t) {b : Blob} {bs : Bytes} (hr : Reachable b) (hh : Holds b bs)
    (hl : structSize ts ≤ bs.length) : ∃ vs xs, (recordV ts b).1 = .ok vs ∧ List.Forall₂ ShowsInt vs xs ∧
      Returns (recordGraph ts l sep r l' sep' r') fl 1 b (l ++ sep.intercalate xs ++ r) (bs.drop (structSize ts)) := by
  rw [← recordSize_eq] at *
  refine ⟨_, _, ?_, intTexts_shows hp hl, (returns_iff hr hh).2 (record_run hp hl)⟩
  obtain ⟨v1, -, -⟩ := (sim_recordV ts).run hr.valid
  rw [(holds_iff hr.valid _).1 hh, recordV_abs ts bs hl] at v1
  exact v1

theorem member_get {j : Nat} (hj : j < ts.length) :
    recordGraph ts l sep r l' sep' r' (2 + j) = some (.arith ts[j]) := by
  rw [Nat.add_comm]
  show (ts[j]?).map Node.arith = _
  rw [List.getElem?_eq_getElem hj]
  rfl

theorem members_sizes {G : Graph} {k : Nat} (hG : ∀ j (hj : j < ts.length), G (k + j) = some (.arith (ts[j]))) :
    List.Forall₂ (fun j s => HasMin G fl j s.1 ∧ HasMax G fl j s.2) (List.range' k ts.length)
      (ts.map fun t => (((t.size : Nat) : Int), ((t.size : Nat) : Int))) := by
  induction ts generalizing k with
  | nil => exact .nil
  | cons t ts ih =>
    rw [List.length_cons, List.range'_succ, List.map_cons]
    have h0 := hG 0 (by simp)
    have h0 : G k = some (.arith t) := h0
    refine .cons ⟨.intro (n := 1) ?_, .intro (n := 1) ?_⟩ (ih fun j hj => ?_)
    · unfold sizeQ; rw [h0]; rfl
    · unfold sizeQ; rw [h0]; rfl
    · have := hG (j + 1) (by simpa using hj)
      rw [show k + 1 + j = k + (j + 1) by omega, this]; simp

/-- **C68**, sizes: those of the structure's bytes. -/
theorem C68_sizes (hi : structSize ts ≤ INT_MAX) :
    HasMin (recordGraph ts l sep r l' sep' r') fl 1 (structSize ts) ∧
    HasMax (recordGraph ts l sep r l' sep' r') fl 1 (structSize ts) := by
  rw [← recordSize_eq] at *
  have hs := members_sizes (fl := fl) (ts := ts) (G := recordGraph ts l sep r l' sep' r') (k := 2)
    fun j hj => member_get hj
  have e1 : ((ts.map fun t => (((t.size : Nat) : Int), ((t.size : Nat) : Int))).map Prod.fst).sum = recordSize ts := by
    unfold recordSize
    clear hs hi
    induction ts with
    | nil => rfl
    | cons t ts ih => simp only [List.map_cons, List.sum_cons, Nat.cast_add, ih]
  have e2 : ((ts.map fun t => (((t.size : Nat) : Int), ((t.size : Nat) : Int))).map Prod.snd).sum = recordSize ts := by
    rw [← e1, List.map_map, List.map_map]; rfl
  obtain ⟨h1, -, h2⟩ := C63_seq (unb := false) (i := 1) rfl hs
    (by intro s h; obtain ⟨t, -, rfl⟩ := List.mem_map.1 h; simp) (by rw [e1]; omega)
  have h2 := h2 rfl (by intro s h; obtain ⟨t, -, rfl⟩ := List.mem_map.1 h; simp) (by rw [e2]; omega)
  rw [e1] at h1
  rw [e2] at h2
  exact ⟨h1, h2⟩

theorem intTexts_ne {vs : List AVal} {xs : List Bytes} (h : List.Forall₂ ShowsInt vs xs) : ∀ x ∈ xs, x ≠ [] := by
  induction h with
  | nil => simp
  | cons h _ ih =>
    intro x hx
    rcases List.mem_cons.1 hx with rfl | hx
    · obtain ⟨i, -, h⟩ := h
      rcases h with ⟨-, h, -⟩ | ⟨-, l, rfl, -⟩
      · exact h.1
      · simp
    · exact ih x hx

theorem recordText_ne {xs : List Bytes} (hne : xs ≠ []) (h : ∀ x ∈ xs, x ≠ []) : recordText l sep r xs ≠ [] := by
  cases xs with
  | nil => exact absurd rfl hne
  | cons x xs =>
    have hx := h x (by simp)
    intro e
    unfold recordText at e
    simp only [List.append_eq_nil_iff] at e
    have e := e.1.2
    cases xs with
    | nil => simp at e; exact hx e
    | cons y xs => rw [List.intercalate_cons_cons] at e; simp at e; exact hx e.1

/-- **C68**, lists of structures: on a blob of fewer than 2^31 structures the text is that of the structures, each
written from its own bytes, with the separator between them. -/
theorem C68_list (hne : ts ≠ []) (hp : ∀ t ∈ ts, PlainInt t) (hi : structSize ts ≤ INT_MAX) {b : Blob} {bs : Bytes}
    (hr : Reachable b) (hh : Holds b bs) (hl : structSize ts ≤ bs.length) (hn : bs.length / structSize ts ≤ INT_MAX) :
    ∃ vss xss parts left, parts.flatten ++ left = bs ∧ left.length < structSize ts ∧
      List.Forall₂ (RecordRepr ts) vss parts ∧ List.Forall₂ (List.Forall₂ ShowsInt) vss xss ∧
      GalleyEnds (fun n => vectorRecord n ts) b (.ok vss) left ∧
      Returns (recordGraph ts l sep r l' sep' r') fl 0 b
        (l' ++ sep'.intercalate (xss.map fun xs => l ++ sep.intercalate xs ++ r) ++ r') left := by
  obtain ⟨hmin, hmax⟩ := C68_sizes (ts := ts) (l := l) (sep := sep) (r := r) (l' := l') (sep' := sep') (r' := r')
    (fl := fl) hi
  rw [← recordSize_eq] at *
  obtain ⟨parts, left, h3, h4, h5, h6, h7⟩ := (C16_fixed_pieces (record_pos hne) hi hr hh).2 hl
  refine ⟨parts.map (recordVals ts), parts.map fun p => intTexts (recordVals ts p), parts, left, h4, h7, ?_, ?_, ?_, ?_⟩
  · exact (forall₂_map_self (R := fun p v => RecordRepr ts v p) _ fun p hp => recordVals_repr ts p (h6 p hp)).flip
  · rw [List.forall₂_map_left_iff]
    exact forall₂_map_self _ fun p hp' => intTexts_shows hp (by rw [h6 p hp'])
  · exact vecEach_ok (sim_recordV ts) hr h3 (by omega)
      (forall₂_map_self _ fun p hp => onNew_record ts (h6 p hp) (by rw [h6 p hp]; omega))
  · refine ((C67_list rfl hr).1 _ _).2 ⟨_, _, parts, parts.map fun p => recordText l sep r (intTexts (recordVals ts p)),
      hmin, hmax, h3, ?_, by omega, ?_⟩
    · refine forall₂_map_self _ fun p hp' => (gives_iff (by rw [h6 p hp']; omega)).2 ⟨_, record_run hp (by rw [h6 p hp'])⟩
    · have hx : (parts.map fun p => recordText l sep r (intTexts (recordVals ts p))).head? ≠ some [] := by
        intro e
        have hx := List.mem_of_mem_head? e
        obtain ⟨p, hp', e⟩ := List.mem_map.1 hx
        have hs := intTexts_shows hp (a := p) (by rw [h6 p hp'])
        refine recordText_ne ?_ (intTexts_ne hs) e
        intro e
        rw [e] at hs
        cases ts with
        | nil => exact hne rfl
        | cons t ts => cases hs
      rw [enumJoin, joinLoop_head _ hx, List.map_map]
      rfl

/-! ## The text determines the bytes -/

/-- Characters of numerals. -/
def NumChar (c : UInt8) : Prop := c = 45 ∨ IsDigit c

instance (c : UInt8) : Decidable (NumChar c) := by unfold NumChar IsDigit; infer_instance

/-- The longest runs of such characters. -/
def toks (acc : Bytes) : Bytes → List Bytes
  | [] => if acc = [] then [] else [acc]
  | c :: s => if NumChar c then toks (acc ++ [c]) s else (if acc = [] then [] else [acc]) ++ toks [] s

theorem toks_num {x : Bytes} (h : ∀ c ∈ x, NumChar c) (acc s : Bytes) : toks acc (x ++ s) = toks (acc ++ x) s := by
  induction x generalizing acc with
  | nil => simp
  | cons c x ih =>
    rw [List.cons_append]
    show (if NumChar c then _ else _) = _
    rw [if_pos (h c (by simp)), ih (fun c hc => h c (List.mem_cons_of_mem _ hc)), List.append_assoc]
    rfl

theorem toks_skip {u : Bytes} (h : ∀ c ∈ u, ¬ NumChar c) (s : Bytes) : toks [] (u ++ s) = toks [] s := by
  induction u with
  | nil => rfl
  | cons c u ih =>
    rw [List.cons_append]
    show (if NumChar c then _ else _) = _
    rw [if_neg (h c (by simp)), if_pos rfl, List.nil_append, ih (fun c hc => h c (List.mem_cons_of_mem _ hc))]

/-- The text does not go on with a numeral. -/
def Clean (s : Bytes) : Prop := ∀ c, s.head? = some c → ¬ NumChar c

theorem toks_clean {acc s : Bytes} (h : Clean s) (ha : acc ≠ []) : toks acc s = acc :: toks [] s := by
  cases s with
  | nil =>
    show (if acc = [] then [] else [acc]) = acc :: (if ([] : Bytes) = [] then [] else _)
    rw [if_neg ha, if_pos rfl]
  | cons c s =>
    show (if NumChar c then _ else _) = _ :: (if NumChar c then _ else _)
    rw [if_neg (h c rfl), if_neg (h c rfl), if_neg ha, if_pos rfl]
    rfl

theorem clean_append {u s : Bytes} (h : ∀ c ∈ u, ¬ NumChar c) (hs : Clean s) : Clean (u ++ s) := by
  cases u with
  | nil => exact hs
  | cons c u =>
    intro d hd
    cases hd
    exact h _ (by simp)

theorem clean_sep {u s : Bytes} (h : ∀ c ∈ u, ¬ NumChar c) (hu : u ≠ []) : Clean (u ++ s) := by
  cases u with
  | nil => exact absurd rfl hu
  | cons c u =>
    intro d hd
    cases hd
    exact h _ (by simp)

theorem denotes_chars {x : Bytes} {i : Int} (h : DenotesInt x i) : x ≠ [] ∧ ∀ c ∈ x, NumChar c := by
  rcases h with ⟨-, h, -⟩ | ⟨-, y, rfl, h, -⟩
  · exact ⟨h.1, fun c hc => .inr (h.2.1 c hc)⟩
  · refine ⟨by simp, fun c hc => ?_⟩
    rcases List.mem_cons.1 hc with rfl | hc
    · exact .inl rfl
    · exact .inr (h.2.1 c hc)

theorem denotes_unique {x : Bytes} {i j : Int} (h : DenotesInt x i) (h' : DenotesInt x j) : i = j := by
  have key : ∀ y : Bytes, IsNumeral (45 :: y) → False := by
    intro y h
    have := h.2.1 45 (by simp)
    simp [IsDigit] at this
  rcases h with ⟨-, h, e⟩ | ⟨-, y, rfl, h, e⟩ <;> rcases h' with ⟨-, h', e'⟩ | ⟨-, y', hy, h', e'⟩
  · omega
  · subst hy; exact (key _ h).elim
  · exact (key _ h').elim
  · cases hy; omega

theorem toks_join {sep : Bytes} (hs : ∀ c ∈ sep, ¬ NumChar c) (hne : sep ≠ []) {vs : List AVal} {xs : List Bytes}
    (h : List.Forall₂ ShowsInt vs xs) {s : Bytes} (hc : Clean s) : toks [] (sep.intercalate xs ++ s) = xs ++ toks [] s := by
  induction h with
  | nil => rfl
  | @cons v x vs xs hx hxs ih =>
    obtain ⟨i, -, hx⟩ := hx
    obtain ⟨h1, h2⟩ := denotes_chars hx
    cases xs with
    | nil =>
      show toks [] (sep.intercalate [x] ++ s) = x :: toks [] s
      rw [List.intercalate_singleton, toks_num h2, List.nil_append, toks_clean hc h1]
    | cons y ys =>
      rw [List.intercalate_cons_cons, List.append_assoc, List.append_assoc, toks_num h2, List.nil_append,
        toks_clean (clean_sep hs hne) h1, toks_skip hs, ih]
      rfl

theorem toks_list (hl : ∀ c ∈ l, ¬ NumChar c) (hs : ∀ c ∈ sep, ¬ NumChar c) (hr : ∀ c ∈ r, ¬ NumChar c)
    (hs' : ∀ c ∈ sep', ¬ NumChar c) (hne : sep ≠ []) (hne' : sep' ≠ [])
    {vss : List (List AVal)} {xss : List (List Bytes)} (h : List.Forall₂ (List.Forall₂ ShowsInt) vss xss)
    {s : Bytes} (hc : Clean s) :
    toks [] (sep'.intercalate (xss.map fun xs => l ++ sep.intercalate xs ++ r) ++ s) = xss.flatten ++ toks [] s := by
  induction h with
  | nil => rfl
  | @cons vs xs vss xss hx hxs ih =>
    cases xss with
    | nil =>
      show toks [] (sep'.intercalate [l ++ sep.intercalate xs ++ r] ++ s) = [xs].flatten ++ toks [] s
      rw [List.intercalate_singleton, List.append_assoc, List.append_assoc, toks_skip hl,
        toks_join hs hne hx (clean_append hr hc), toks_skip hr, List.flatten_singleton]
    | cons ys yss =>
      rw [List.map_cons, List.map_cons, List.intercalate_cons_cons]
      rw [List.map_cons] at ih
      simp only [List.append_assoc] at ih ⊢
      rw [toks_skip hl, toks_join hs hne hx (clean_append hr (clean_sep hs' hne')), toks_skip hr, toks_skip hs', ih,
        List.flatten_cons, List.append_assoc, List.flatten_cons (l := xs), List.flatten_cons]
      simp only [List.append_assoc]

theorem shows_unique {vs vs' : List AVal} {xs : List Bytes} (h : List.Forall₂ ShowsInt vs xs)
    (h' : List.Forall₂ ShowsInt vs' xs) : vs = vs' := by
  induction h generalizing vs' with
  | nil => cases h'; rfl
  | cons h _ ih =>
    cases h' with
    | cons h2 h' =>
      obtain ⟨i, rfl, h⟩ := h
      obtain ⟨j, rfl, h2⟩ := h2
      rw [denotes_unique h h2, ih h']

theorem forall₂_flatten {γ δ : Type} {R : γ → δ → Prop} {l : List (List γ)} {r : List (List δ)}
    (h : List.Forall₂ (List.Forall₂ R) l r) : List.Forall₂ R l.flatten r.flatten := by
  induction h with
  | nil => exact .nil
  | cons h _ ih => exact List.rel_append h ih

theorem repr_length {vs : List AVal} {p : Bytes} (h : RecordRepr ts vs p) : vs.length = ts.length := by
  induction h with
  | nil => rfl
  | cons _ _ _ ih => rw [List.length_cons, List.length_cons, ih]

theorem repr_unique {vs : List AVal} {p p' : Bytes} (h : RecordRepr ts vs p) (h' : RecordRepr ts vs p') : p = p' := by
  induction h generalizing p' with
  | nil => cases h'; rfl
  | cons hp hv _ ih =>
    cases h' with
    | cons hp' hv' h' => rw [(C06_unique _ hp hp').2 _ hv hv', ih h']

theorem reprs_unique (hne : ts ≠ []) {vss vss' : List (List AVal)} {parts parts' : List Bytes}
    (h : List.Forall₂ (RecordRepr ts) vss parts) (h' : List.Forall₂ (RecordRepr ts) vss' parts')
    (e : vss.flatten = vss'.flatten) : parts = parts' := by
  have hpos : 0 < ts.length := List.length_pos_iff.2 hne
  induction h generalizing vss' parts' with
  | nil =>
    cases h' with
    | nil => rfl
    | cons h _ =>
      have := congrArg List.length e
      rw [List.flatten_cons, List.length_append, repr_length h] at this
      simp only [List.flatten_nil, List.length_nil] at this; omega
  | @cons vs p vss parts h _ ih =>
    cases h' with
    | nil =>
      have := congrArg List.length e
      rw [List.flatten_cons, List.length_append, repr_length h] at this
      simp only [List.flatten_nil, List.length_nil] at this; omega
    | @cons vs' p' vss' parts' h2 h' =>
      rw [List.flatten_cons, List.flatten_cons] at e
      obtain ⟨e1, e2⟩ := List.append_inj e (by rw [repr_length h, repr_length h2])
      subst e1
      rw [repr_unique h h2, ih h' e2]

/-- **C68**, the way back: if the separators and brackets have no digit and no minus sign, two blobs that give the
same text of a list of structures held the same bytes, up to what was left. -/
theorem C68_injective (hne : ts ≠ []) (hp : ∀ t ∈ ts, PlainInt t) (hi : structSize ts ≤ INT_MAX)
    (h0 : ∀ u ∈ [l, sep, r, l', sep', r'], ∀ c ∈ u, c ≠ 45 ∧ ¬ IsDigit c) (hs : sep ≠ []) (hs' : sep' ≠ [])
    {b1 b2 : Blob} {bs1 bs2 s left1 left2 : Bytes} (hr1 : Reachable b1) (hr2 : Reachable b2) (hh1 : Holds b1 bs1)
    (hh2 : Holds b2 bs2) (hl1 : structSize ts ≤ bs1.length) (hl2 : structSize ts ≤ bs2.length)
    (hn1 : bs1.length / structSize ts ≤ INT_MAX) (hn2 : bs2.length / structSize ts ≤ INT_MAX)
    (h1 : Returns (recordGraph ts l sep r l' sep' r') fl 0 b1 s left1)
    (h2 : Returns (recordGraph ts l sep r l' sep' r') fl 0 b2 s left2) :
    ∃ used, bs1 = used ++ left1 ∧ bs2 = used ++ left2 := by
  have hN : ∀ u ∈ [l, sep, r, l', sep', r'], ∀ c ∈ u, ¬ NumChar c := by
    rintro u hu c hc (h | h)
    · exact (h0 u hu c hc).1 h
    · exact (h0 u hu c hc).2 h
  have uniq : ∀ {b : Blob} {s s' le le' : Bytes}, Returns (recordGraph ts l sep r l' sep' r') fl 0 b s le →
      Returns (recordGraph ts l sep r l' sep' r') fl 0 b s' le' → s = s' ∧ le = le' := by
    rintro b s s' le le' ⟨c, h, hc⟩ ⟨c', h', hc'⟩
    obtain ⟨e1, -, rfl⟩ := h.unique h'
    exact ⟨Out.ok.inj e1, Out.ok.inj (hc.symm.trans hc')⟩
  obtain ⟨vss1, xss1, parts1, le1, p1, -, r1, x1, -, t1⟩ := C68_list (l := l) (sep := sep) (r := r) (l' := l')
    (sep' := sep') (r' := r') (fl := fl) hne hp hi hr1 hh1 hl1 hn1
  obtain ⟨vss2, xss2, parts2, le2, p2, -, r2, x2, -, t2⟩ := C68_list (l := l) (sep := sep) (r := r) (l' := l')
    (sep' := sep') (r' := r') (fl := fl) hne hp hi hr2 hh2 hl2 hn2
  obtain ⟨e1, rfl⟩ := uniq h1 t1
  obtain ⟨e2, rfl⟩ := uniq h2 t2
  have et := congrArg (toks []) (e1.symm.trans e2)
  have hr' : Clean r' := by
    have := clean_append (u := r') (s := []) (hN r' (by simp)) (by intro c h; cases h)
    rwa [List.append_nil] at this
  rw [List.append_assoc, List.append_assoc, toks_skip (hN l' (by simp)), toks_skip (hN l' (by simp)),
    toks_list (hN l (by simp)) (hN sep (by simp)) (hN r (by simp)) (hN sep' (by simp)) hs hs' x1 hr',
    toks_list (hN l (by simp)) (hN sep (by simp)) (hN r (by simp)) (hN sep' (by simp)) hs hs' x2 hr'] at et
  have ef := List.append_cancel_right et
  have hv := shows_unique (forall₂_flatten x1) (by rw [ef]; exact forall₂_flatten x2)
  have hpq := reprs_unique hne r1 r2 hv
  exact ⟨parts1.flatten, p1.symm, by rw [hpq]; exact p2.symm⟩

end

/-- **C68** for `StampPolyLine3D` of examples/example08.cpp: a list of points of three coordinates, from six bytes each. -/
theorem C68_polyline (fl : Flags) {b : Blob} {bs : Bytes} (hr : Reachable b) (hh : Holds b bs) (hl : 6 ≤ bs.length)
    (hn : bs.length / 6 ≤ INT_MAX) :
    ∃ vss xss parts left, parts.flatten ++ left = bs ∧ left.length < 6 ∧
      List.Forall₂ (RecordRepr [.i16, .i16, .i16]) vss parts ∧ List.Forall₂ (List.Forall₂ ShowsInt) vss xss ∧
      Returns polyLine3D fl 0 b
        ([40] ++ List.intercalate [44] (xss.map fun xs => [40] ++ List.intercalate [44, 32] xs ++ [41]) ++ [41]) left := by
  obtain ⟨vss, xss, parts, left, h1, h2, h3, h4, -, h5⟩ := C68_list (ts := [.i16, .i16, .i16]) (l := str "(")
    (sep := str ", ") (r := str ")") (l' := str "(") (sep' := str ",") (r' := str ")") (fl := fl) (by simp)
    (by unfold PlainInt; decide) (by decide) hr hh hl hn
  exact ⟨vss, xss, parts, left, h1, h2, h3, h4, h5⟩

/-- Two points and a byte that is left. -/
example : ∃ b, Reachable b ∧ Returns polyLine3D Flags.init 0 b (str "((1, -1, 256),(2, 0, -32768))") [7] := by
  obtain ⟨b, hr, hb⟩ := exists_blob (bs := [1, 0, 255, 255, 0, 1, 2, 0, 0, 0, 0, 128, 7]) (by decide)
  exact ⟨b, hr, (returns_iff hr hb).2 ⟨20, Prod.ext (by decide +kernel) (Prod.ext (keeps_extract polyLine3D 20 0 _
    (.inl ⟨str "((1, -1, 256),(2, 0, -32768))", by decide +kernel⟩)) (by decide +kernel))⟩⟩

/-- The point of examples/example04.cpp, from seven bytes. -/
example : (recordV [.i16, .i16, .i16] (Blob.mk' (.at [1, 0, 255, 255, 0, 1, 9] 0) 7)).1 =
    .ok [.int 1, .int (-1), .int 256] := by
  decide +kernel

/-- Of five bytes the stamp takes two members' before it throws. -/
example : (recordV [.i16, .i16, .i16] ([1, 0, 255, 255, 0] : ABlob)) = (.outOfData, [0]) := by
  decide +kernel

/-- The hypotheses of `C68_injective` hold of the polyline of examples/example08.cpp. -/
example : ∀ u ∈ [str "(", str ", ", str ")", str "(", str ",", str ")"], ∀ c ∈ u, c ≠ 45 ∧ ¬ IsDigit c := by
  unfold IsDigit; decide +kernel

end BS
