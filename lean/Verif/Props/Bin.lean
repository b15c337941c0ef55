import Verif.Spec.Bin
import Verif.Lemmas.GalleySetSpec
import Verif.Props.GalleyVec

/-!
# C48-C50: galleys of binary and typed values
-/

namespace BS
open BlobLike

/-! ## Simulation -/

theorem sim_userRun (u : UserStamp) : Sim BR Eq u.run u.run := by
  unfold UserStamp.run
  refine .bind (Q := Eq) (fun b a h => ⟨?_, h⟩) ?_
  · show SimOut Eq (view b) (view a)
    rw [sim_view h]; exact .refl _
  rintro v _ rfl
  refine .bind .get ?_
  intro b a hb
  rw [hb.size]
  refine .bind (sim_chop _) ?_
  intro _ _ _
  exact .lift

theorem sim_extractBin (s : BinStamp) : Sim BR Eq s.extractBin s.extractBin := by
  cases s with
  | arith t => exact sim_extractArithBin t
  | user u => exact sim_userRun u

theorem Out.bind_ok_eq {α γ : Type} (a : α) (f : α → Out γ) : (Out.ok a).bind f = f a := rfl

/-- A piece and what its stamp gives on a new blob over the same bytes. -/
theorem piece_onNew {α : Type} {m : M Blob α} {m' : M ABlob α} (h : Sim BR Eq m m') {c : Blob} {p : Bytes}
    (hc : BR c p) : (m c).1 = onNew m p := by
  have hp : p.length < 9223372036854775808 := by
    obtain ⟨⟨_, h1⟩, h2⟩ := hc
    rw [← h2]
    unfold Blob.abs
    split at h1
    · simp
    · simp only [List.length_take, List.length_drop]; omega
  have hv := Blob.mk'_valid (buf := p) (off := 0) (n := p.length) (by omega) hp
  have h1 := h.run hc.1
  have h2 := h.run hv.1
  rw [hv.2] at h2
  rw [h1.1, hc.2]
  unfold onNew
  rw [h2.1]
  simp

theorem eachPiece_ok {α : Type} {its : List (M Blob α × Blob)} {outs : List α} (k : Nat)
    (hk : k + its.length ≤ INT_MAX) (h : List.Forall₂ (fun it out => (it.1 it.2).1 = .ok out) its outs) :
    eachPiece (k : Int) its = .ok outs := by
  induction h generalizing k with
  | nil => rfl
  | @cons it out its outs h1 _ ih =>
    obtain ⟨ex, c⟩ := it
    rw [List.length_cons] at hk
    unfold eachPiece
    simp only at h1
    rw [h1, Out.bind_ok_eq, ckInt_ok (by omega) (by omega), Out.bind_ok_eq]
    have := ih (k + 1) (by omega)
    rw [Nat.cast_add, Nat.cast_one] at this
    rw [this, Out.bind_ok_eq]

/-- The first piece whose extraction throws. -/
theorem eachPiece_throws {α : Type} {its : List (M Blob α × Blob)} {outs : List α} (k : Nat)
    {ex : M Blob α} {c : Blob} {rest : List (M Blob α × Blob)}
    (hk : k + its.length ≤ INT_MAX) (h : List.Forall₂ (fun it out => (it.1 it.2).1 = .ok out) its outs)
    (he : (ex c).1 = .outOfData) :
    eachPiece (k : Int) (its ++ (ex, c) :: rest) = .outOfData := by
  induction h generalizing k with
  | nil => simp only [List.nil_append]; unfold eachPiece; rw [he]; rfl
  | @cons it out its outs h1 _ ih =>
    obtain ⟨ex, c⟩ := it
    rw [List.length_cons] at hk
    rw [List.cons_append]
    unfold eachPiece
    simp only at h1
    rw [h1, Out.bind_ok_eq, ckInt_ok (by omega) (by omega), Out.bind_ok_eq]
    have := ih (k + 1) (by omega)
    rw [Nat.cast_add, Nat.cast_one] at this
    rw [this]; rfl

theorem eachPiece_overflow {α : Type} {its : List (M Blob α × Blob)} (k : Nat)
    (h0 : k ≤ INT_MAX) (hk : INT_MAX < k + its.length) (h : ∀ it ∈ its, ∃ out, (it.1 it.2).1 = .ok out) :
    eachPiece (k : Int) its = .ub .intOverflow := by
  induction its generalizing k with
  | nil => simp at hk; omega
  | cons it its ih =>
    obtain ⟨ex, c⟩ := it
    obtain ⟨out, h1⟩ := h _ List.mem_cons_self
    rw [List.length_cons] at hk
    unfold eachPiece
    simp only at h1
    rw [h1, Out.bind_ok_eq]
    by_cases hk' : k + 1 ≤ INT_MAX
    · rw [ckInt_ok (by omega) (by omega), Out.bind_ok_eq]
      have := ih (k + 1) hk' (by omega) (fun it h' => h it (List.mem_cons_of_mem _ h'))
      rw [Nat.cast_add, Nat.cast_one] at this
      rw [this]; rfl
    · have : ckInt ((k : Int) + 1) = .ub .intOverflow := by
        unfold ckInt
        rw [if_neg]
        rw [fitsInt_iff]; omega
      rw [this]; rfl

theorem forall₂_exact {ps : List Blob} {parts : List ABlob} {parts' : List Bytes} (h : BRL ps parts)
    (h' : List.Forall₂ Holds ps parts') : BRL ps parts' := by
  induction h generalizing parts' with
  | nil => cases h'; exact .nil
  | cons hc _ ih =>
    cases h' with
    | cons h1 h2 => exact .cons ⟨hc.1, (holds_iff hc.1 _).1 h1⟩ (ih h2)

theorem forall₂_append_right {γ δ : Type} {R : γ → δ → Prop} {l : List γ} {r1 r2 : List δ}
    (h : List.Forall₂ R l (r1 ++ r2)) : ∃ l1 l2, List.Forall₂ R l1 r1 ∧ List.Forall₂ R l2 r2 ∧ l = l1 ++ l2 := by
  induction r1 generalizing l with
  | nil => exact ⟨[], l, .nil, h, rfl⟩
  | cons x r1 ih =>
    cases h with
    | @cons y _ l _ h1 h2 =>
      obtain ⟨l1, l2, h3, h4, rfl⟩ := ih h2
      exact ⟨y :: l1, l2, .cons h1 h3, h4, rfl⟩

theorem forall₂_mem {γ δ : Type} {R : γ → δ → Prop} {l : List γ} {r : List δ} (h : List.Forall₂ R l r) {x : γ}
    (hx : x ∈ l) : ∃ y ∈ r, R x y := by
  induction h with
  | nil => cases hx
  | @cons a y _ _ h1 _ ih =>
    rcases List.mem_cons.1 hx with rfl | hx
    · exact ⟨y, List.mem_cons_self, h1⟩
    · obtain ⟨z, hz, hr⟩ := ih hx
      exact ⟨z, List.mem_cons_of_mem _ hz, hr⟩

/-- The blobs behind a split. -/
theorem vec_blobs {mn mx : Int} {b : Blob} (hr : Reachable b) {parts : List Bytes} {left : Bytes}
    (h : VecReturns mn mx b parts left) :
    ∃ ps b', (∃ N, ∀ n ≥ N, vecSplit n mn mx b = (.ok ps, b')) ∧ BRL ps parts ∧ Holds b' left := by
  obtain ⟨ps, b', ⟨N, hN⟩, h2, h3⟩ := h
  refine ⟨ps, b', ⟨N, hN⟩, ?_, h3⟩
  obtain ⟨h4, _⟩ := sim_vecSplit N mn mx b b.abs ⟨hr.valid, rfl⟩
  rw [hN N (le_refl _)] at h4
  generalize vecSplit N mn mx b.abs = r at h4
  obtain ⟨o, _⟩ := r
  cases h4 with
  | ok h4 => exact forall₂_exact h4 h2

theorem set_blobs {ss : List SizePair} {b : Blob} (hr : Reachable b) {parts : List Bytes} {left : Bytes}
    (h : SetReturns ss b parts left) :
    ∃ ps b', setSplit ss b = (.ok ps, b') ∧ BRL ps parts ∧ Holds b' left := by
  obtain ⟨ps, b', hN, h2, h3⟩ := h
  refine ⟨ps, b', hN, ?_, h3⟩
  obtain ⟨h4, _⟩ := sim_setSplit ss b b.abs ⟨hr.valid, rfl⟩
  rw [hN] at h4
  generalize setSplit ss b.abs = r at h4
  obtain ⟨o, _⟩ := r
  cases h4 with
  | ok h4 => exact forall₂_exact h4 h2

/-! ## C48 -/

section
variable {mn mx : Int} {b : Blob} {parts : List Bytes} {left : Bytes} {α : Type}
  {ex : M Blob α} {ex' : M ABlob α}

/-- A vector galley applying one extraction to each piece. -/
def vecEach (mn mx : Int) (ex : M Blob α) (n : Nat) : M Blob (List α) := do
  let ps ← vecSplit n mn mx
  M.lift (eachPiece 0 (ps.map fun c => (ex, c)))

theorem each_onNew (hs : Sim BR Eq ex ex') {ps : List Blob} (h : BRL ps parts) {o : List α}
    (hf : List.Forall₂ (fun p out => onNew ex p = .ok out) parts o) :
    List.Forall₂ (fun (it : M Blob α × Blob) out => (it.1 it.2).1 = .ok out) (ps.map fun c => (ex, c)) o := by
  induction h generalizing o with
  | nil => cases hf; exact .nil
  | cons hc _ ih =>
    cases hf with
    | cons h1 h2 => exact .cons (by rw [piece_onNew hs hc, h1]) (ih h2)

theorem vecEach_ends (hr : Reachable b) (h : VecReturns mn mx b parts left) {o : Out (List α)}
    (he : ∀ ps, BRL ps parts → eachPiece 0 (ps.map fun c => (ex, c)) = o) :
    GalleyEnds (vecEach mn mx ex) b o left := by
  obtain ⟨ps, b', ⟨N, hN⟩, h2, h3⟩ := vec_blobs hr h
  refine ⟨b', ⟨N, fun n hn => ?_⟩, h3⟩
  unfold vecEach
  rw [M.bind_ok (hN n hn)]
  exact Prod.ext (he ps h2) rfl

theorem vecEach_ok (hs : Sim BR Eq ex ex') (hr : Reachable b) (h : VecReturns mn mx b parts left)
    (hn : parts.length ≤ INT_MAX) {outs : List α}
    (hf : List.Forall₂ (fun p out => onNew ex p = .ok out) parts outs) :
    GalleyEnds (vecEach mn mx ex) b (.ok outs) left := by
  refine vecEach_ends hr h fun ps hp => eachPiece_ok 0 ?_ (each_onNew hs hp hf)
  rw [List.length_map, hp.length_eq]; omega

theorem vecEach_throws (hs : Sim BR Eq ex ex') (hr : Reachable b) (h : VecReturns mn mx b parts left)
    (hn : parts.length ≤ INT_MAX) {pre post : List Bytes} {p : Bytes} (hp : parts = pre ++ p :: post)
    {outs : List α} (hf : List.Forall₂ (fun p out => onNew ex p = .ok out) pre outs)
    (ht : onNew ex p = .outOfData) : GalleyEnds (vecEach mn mx ex) b .outOfData left := by
  refine vecEach_ends hr h fun ps hps => ?_
  subst hp
  obtain ⟨ps1, ps2, h1, h2, rfl⟩ := forall₂_append_right hps
  cases h2 with
  | @cons c _ ps2 _ hc h2 =>
    rw [List.map_append, List.map_cons]
    refine eachPiece_throws 0 ?_ (each_onNew hs h1 hf) (by rw [piece_onNew hs hc, ht])
    rw [List.length_append] at hn
    rw [List.length_map, h1.length_eq]; omega

theorem vecEach_splitThrows (h : VecThrows mn mx b left) : GalleyEnds (vecEach mn mx ex) b .outOfData left := by
  obtain ⟨b', ⟨N, hN⟩, h3⟩ := h
  refine ⟨b', ⟨N, fun n hn => ?_⟩, h3⟩
  unfold vecEach
  rw [M.bind_ood (hN n hn)]

theorem vecEach_overflow (hs : Sim BR Eq ex ex') (hr : Reachable b) (h : VecReturns mn mx b parts left)
    (hn : INT_MAX < parts.length) (hf : ∀ p ∈ parts, ∃ out, onNew ex p = .ok out) :
    GalleyEnds (vecEach mn mx ex) b (.ub .intOverflow) left := by
  refine vecEach_ends hr h fun ps hps => eachPiece_overflow 0 (by omega) ?_ ?_
  · rw [List.length_map, hps.length_eq]; omega
  · intro it hit
    obtain ⟨c, hc, rfl⟩ := List.mem_map.1 hit
    obtain ⟨p, hp, hcp⟩ := forall₂_mem hps hc
    obtain ⟨out, ho⟩ := hf p hp
    exact ⟨out, by rw [piece_onNew hs hcp, ho]⟩

end

section
variable {s : BinStamp} {b : Blob} {parts : List Bytes} {left : Bytes}

/-- **C48, vectors.** When the blob splits into at most 2^31-1 pieces, `ExtractBinVector` returns what
the stamp extracts from each piece by itself, in order; or throws, at the first piece whose extraction
throws. It throws when the split throws. -/
theorem C48_vector_bin_partial (hr : Reachable b) :
    (VecReturns s.sizes.1 s.sizes.2 b parts left → parts.length ≤ INT_MAX →
      (∀ outs, List.Forall₂ (fun p out => onNew s.extractBin p = .ok out) parts outs →
        GalleyEnds (fun n => vectorBin n s) b (.ok outs) left) ∧
      (∀ pre p post outs, parts = pre ++ p :: post →
        List.Forall₂ (fun p out => onNew s.extractBin p = .ok out) pre outs →
        onNew s.extractBin p = .outOfData → GalleyEnds (fun n => vectorBin n s) b .outOfData left)) ∧
    (VecThrows s.sizes.1 s.sizes.2 b left → GalleyEnds (fun n => vectorBin n s) b .outOfData left) :=
  ⟨fun h hn => ⟨fun _ hf => vecEach_ok (sim_extractBin s) hr h hn hf,
    fun _ _ _ _ hp hf ht => vecEach_throws (sim_extractBin s) hr h hn hp hf ht⟩,
    fun h => vecEach_splitThrows h⟩

/-- **C48 violated**: with 2^31 pieces or more, all extracted without trouble, the `int` loop counter
overflows. -/
theorem C48_violated (hr : Reachable b) (h : VecReturns s.sizes.1 s.sizes.2 b parts left)
    (hn : INT_MAX < parts.length) (hf : ∀ p ∈ parts, ∃ out, onNew s.extractBin p = .ok out) :
    GalleyEnds (fun n => vectorBin n s) b (.ub .intOverflow) left :=
  vecEach_overflow (sim_extractBin s) hr h hn hf

end

/-! ### Sets -/

theorem setEach_onNew {ss : List BinStamp} {ps : List Blob} {parts : List Bytes} (h : BRL ps parts)
    {o : List Bytes}
    (hf : List.Forall₂ (fun (x : BinStamp × Bytes) out => onNew x.1.extractBin x.2 = .ok out) (ss.zip parts) o) :
    List.Forall₂ (fun (it : M Blob Bytes × Blob) out => (it.1 it.2).1 = .ok out)
      ((ss.map BinStamp.extractBin).zip ps) o := by
  induction h generalizing o ss with
  | nil => simp only [List.zip_nil_right] at hf ⊢; cases hf; exact .nil
  | cons hc _ ih =>
    cases ss with
    | nil => cases hf; exact .nil
    | cons s ss =>
      rw [List.zip_cons_cons] at hf
      rw [List.map_cons, List.zip_cons_cons]
      cases hf with
      | cons h1 h2 => exact .cons (by rw [piece_onNew (sim_extractBin s) hc, h1]) (ih h2)

/-- **C48, sets.** When the set galley hands out one piece per stamp, and there are fewer than 2^31
stamps, `ExtractBinSet` returns what each stamp extracts from its piece by itself, in order; or throws,
at the first piece whose extraction throws. It throws when the split throws. -/
theorem C48_set_bin_partial {ss : List BinStamp} {b : Blob} {parts : List Bytes} {left : Bytes} (hr : Reachable b) :
    (SetReturns (ss.map BinStamp.sizes) b parts left → parts.length ≤ INT_MAX → parts.length = ss.length →
      (∀ outs, List.Forall₂ (fun (x : BinStamp × Bytes) out => onNew x.1.extractBin x.2 = .ok out)
          (ss.zip parts) outs → GalleyEnds (fun _ => setBin ss) b (.ok outs) left) ∧
      (∀ ss1 s ss2 pre p post outs, ss = ss1 ++ s :: ss2 → parts = pre ++ p :: post → ss1.length = pre.length →
        List.Forall₂ (fun (x : BinStamp × Bytes) out => onNew x.1.extractBin x.2 = .ok out) (ss1.zip pre) outs →
        onNew s.extractBin p = .outOfData → GalleyEnds (fun _ => setBin ss) b .outOfData left)) ∧
    (SetThrows (ss.map BinStamp.sizes) b left → GalleyEnds (fun _ => setBin ss) b .outOfData left) := by
  refine ⟨fun h hn hl => ?_, fun ⟨b', h1, h2⟩ => ⟨b', ⟨0, fun _ _ => ?_⟩, h2⟩⟩
  · obtain ⟨ps, b', hs, h2, h3⟩ := set_blobs hr h
    have key : ∀ o, eachPiece 0 ((ss.map BinStamp.extractBin).zip ps) = o →
        GalleyEnds (fun _ => setBin ss) b o left := by
      intro o ho
      refine ⟨b', ⟨0, fun _ _ => ?_⟩, h3⟩
      show setBin ss b = _
      unfold setBin
      rw [M.bind_ok hs]
      exact Prod.ext ho rfl
    refine ⟨fun outs hf => key _ (eachPiece_ok 0 ?_ (setEach_onNew h2 hf)), ?_⟩
    · rw [List.length_zip, List.length_map, h2.length_eq, hl, Nat.min_self]; omega
    · intro ss1 s ss2 pre p post outs e1 e2 e3 hf ht
      apply key
      subst e1 e2
      obtain ⟨ps1, ps2, h4, h5, rfl⟩ := forall₂_append_right h2
      cases h5 with
      | @cons c _ ps2 _ hc h5 =>
        rw [List.map_append, List.map_cons, List.zip_append (by rw [List.length_map, h4.length_eq, e3]),
          List.zip_cons_cons]
        refine eachPiece_throws 0 ?_ (setEach_onNew h4 hf) (by rw [piece_onNew (sim_extractBin s) hc, ht])
        rw [List.length_append] at hn
        rw [List.length_zip, List.length_map, h4.length_eq, e3, Nat.min_self]; omega
  · show setBin ss b = _
    unfold setBin
    rw [M.bind_ood h1]

/-- Two `short`s and a byte left. -/
example : (vectorBin 5 (.arith .i16) (Blob.mk' (.at [1, 2, 3, 4, 5] 0) 5)).1 = .ok [[1, 2], [3, 4]] ∧
    (vectorV 5 .i16 (Blob.mk' (.at [1, 2, 3, 4, 5] 0) 5)).1 = .ok [.int 513, .int 1027] := by
  decide +kernel

/-! ## C49 -/

theorem onNew_bin (t : ArithTy) {p : Bytes} (h : p.length = t.size) :
    onNew (extractArithBin t) p = .ok p ∧ onNew (extractValue t) p = .ok (decode t p) := by
  have hp : p.length < 9223372036854775808 := by rw [h]; cases t <;> decide
  have hv := Blob.mk'_valid (buf := p) (off := 0) (n := p.length) (by omega) hp
  have h1 := (sim_extractArithBin t).run hv.1
  have h2 := (sim_extractValue t).run hv.1
  rw [hv.2] at h1 h2
  unfold onNew
  rw [h1.1, h2.1, extractArithBin_abs, extractValue_abs]
  simp [← h]

theorem forall₂_map_self {γ δ : Type} {R : γ → δ → Prop} (f : γ → δ) {l : List γ} (h : ∀ x ∈ l, R x (f x)) :
    List.Forall₂ R l (l.map f) := by
  induction l with
  | nil => exact .nil
  | cons x l ih => exact .cons (h x List.mem_cons_self) (ih fun y hy => h y (List.mem_cons_of_mem _ hy))

/-- **C49**, for fewer than 2^31 elements. A vector of arithmetic values: with fewer bytes than one
value needs it throws and takes nothing. Otherwise the byte vectors are consecutive slices of
`sizeof(T)` bytes, as many as fit, and `ExtractValuesVector` returns the values they represent. -/
theorem C49_arith_vector_partial (t : ArithTy) {b : Blob} {bs : Bytes} (hr : Reachable b) (hh : Holds b bs) :
    (bs.length < sizeofT t → GalleyEnds (fun n => vectorBin n (.arith t)) b .outOfData bs ∧
      GalleyEnds (fun n => vectorV n t) b .outOfData bs) ∧
    (sizeofT t ≤ bs.length → bs.length / sizeofT t ≤ INT_MAX → ∃ outs vs left,
      GalleyEnds (fun n => vectorBin n (.arith t)) b (.ok outs) left ∧
      GalleyEnds (fun n => vectorV n t) b (.ok vs) left ∧
      outs.flatten ++ left = bs ∧ outs.length = bs.length / sizeofT t ∧
      (∀ p ∈ outs, p.length = sizeofT t) ∧ left.length < sizeofT t ∧ List.Forall₂ (HasRepr t) vs outs) := by
  rw [sizeofT_eq] at *
  have hp : 1 ≤ t.size ∧ t.size ≤ INT_MAX := by cases t <;> decide
  obtain ⟨h1, h2⟩ := C16_fixed_pieces hp.1 hp.2 hr hh
  refine ⟨fun h => ⟨vecEach_splitThrows (h1 h), vecEach_splitThrows (h1 h)⟩, fun h hn => ?_⟩
  obtain ⟨parts, left, h3, h4, h5, h6, h7⟩ := h2 h
  refine ⟨parts, parts.map (decode t), left, ?_, ?_, h4, h5, h6, h7, ?_⟩
  · refine vecEach_ok (sim_extractArithBin t) hr h3 (by omega) ?_
    have := forall₂_map_self (R := fun p out => onNew (extractArithBin t) p = .ok out) id
      (fun p hp => (onNew_bin t (h6 p hp)).1)
    rwa [List.map_id] at this
  · exact vecEach_ok (sim_extractValue t) hr h3 (by omega)
      (forall₂_map_self _ fun p hp => (onNew_bin t (h6 p hp)).2)
  · exact (forall₂_map_self (R := fun p v => HasRepr t v p) _ fun p hp => decode_hasRepr t (h6 p hp)).flip

/-- **C49 violated**: a blob of 2^31 values or more makes the loop counter overflow. -/
theorem C49_violated (t : ArithTy) {b : Blob} {bs : Bytes} (hr : Reachable b) (hh : Holds b bs)
    (hn : INT_MAX < bs.length / sizeofT t) :
    ∃ left, GalleyEnds (fun n => vectorBin n (.arith t)) b (.ub .intOverflow) left ∧
      GalleyEnds (fun n => vectorV n t) b (.ub .intOverflow) left := by
  rw [sizeofT_eq] at *
  have hp : 1 ≤ t.size ∧ t.size ≤ INT_MAX := by cases t <;> decide
  have hl : t.size ≤ bs.length := by
    by_contra hc
    rw [Nat.div_eq_of_lt (by omega)] at hn; omega
  obtain ⟨parts, left, h3, _, h5, h6, _⟩ := (C16_fixed_pieces hp.1 hp.2 hr hh).2 hl
  exact ⟨left, vecEach_overflow (sim_extractArithBin t) hr h3 (by omega) fun p hp => ⟨_, (onNew_bin t (h6 p hp)).1⟩,
    vecEach_overflow (sim_extractValue t) hr h3 (by omega) fun p hp => ⟨_, (onNew_bin t (h6 p hp)).2⟩⟩

/-- There is such a blob. -/
example : ∃ b bs, Reachable b ∧ Holds b bs ∧ INT_MAX < bs.length / ArithTy.u8.size := by
  have h := Blob.mk'_valid (buf := List.replicate 2147483648 0) (off := 0) (n := 2147483648)
    (by rw [List.length_replicate]) (by rw [List.length_replicate]; omega)
  refine ⟨_, List.replicate 2147483648 0, .new (buf := List.replicate 2147483648 0) (off := 0) (n := 2147483648)
    (by rw [List.length_replicate]) (by rw [List.length_replicate]; omega), (holds_iff h.1 _).2 ?_, ?_⟩
  · rw [h.2, List.drop_zero, List.take_of_length_le (by rw [List.length_replicate])]
  · rw [List.length_replicate]; show _ < 2147483648 / 1; omega

/-! ## C50 -/

/-- Chop off the sizes one after the other. -/
def slices : List Nat → Bytes → List Bytes
  | [], _ => []
  | n :: ns, bs => bs.take n :: slices ns (bs.drop n)

theorem slices_spec (ns : List Nat) (bs : Bytes) (h : ns.sum ≤ bs.length) :
    (slices ns bs).map List.length = ns ∧ (slices ns bs).flatten ++ bs.drop ns.sum = bs := by
  induction ns generalizing bs with
  | nil => simp [slices]
  | cons n ns ih =>
    rw [List.sum_cons] at h ⊢
    obtain ⟨h1, h2⟩ := ih (bs.drop n) (by rw [List.length_drop]; omega)
    refine ⟨?_, ?_⟩
    · simp only [slices, List.map_cons, h1, List.length_take]
      rw [Nat.min_eq_left (by omega)]
    · simp only [slices, List.flatten_cons, List.append_assoc]
      rw [List.drop_drop] at h2
      rw [h2, List.take_append_drop]

/-- The sizes of stamps of fixed size. -/
def fixedSizes (ns : List Nat) : List SizePair := ns.map fun (n : Nat) => ((n : Int), (n : Int))

theorem fixedSizes_cons (n : Nat) (ns : List Nat) :
    fixedSizes (n :: ns) = ((n : Int), (n : Int)) :: fixedSizes ns := rfl

theorem fixedPair (n : Nat) : SizePair.fixed ((n : Int), (n : Int)) = true ∧ SizePair.unb ((n : Int), (n : Int)) = false ∧
    SizePair.var ((n : Int), (n : Int)) = false := by
  have h1 : SizePair.fixed ((n : Int), (n : Int)) = true := by simp [SizePair.fixed]
  refine ⟨h1, ?_, by unfold SizePair.var; rw [h1]; rfl⟩
  simp only [SizePair.unb, beq_eq_false_iff_ne]; omega

theorem setTotals_fixed (ns : List Nat) (f m : Int) (h0 : 0 ≤ f) (h : f + ns.sum ≤ INT_MAX) :
    setTotals (fixedSizes ns) ⟨f, m, 0, 0⟩ = .ok ⟨f + ns.sum, m, 0, 0⟩ := by
  induction ns generalizing f with
  | nil => simp [fixedSizes, setTotals]
  | cons n ns ih =>
    rw [List.sum_cons] at h ⊢
    push_cast at h ⊢
    have hs : 0 ≤ ((ns.sum : Nat) : Int) := Int.natCast_nonneg _
    obtain ⟨_, h2, h3⟩ := fixedPair n
    rw [fixedSizes_cons]
    unfold setTotals
    rw [h2, h3]
    simp only [Bool.false_eq_true, if_false]
    rw [ckInt_ok (by omega) (by omega), Out.bind_ok', ih _ (by omega) (by omega)]
    congr 2; omega

theorem setModLoop_fixed (ns : List Nat) (u : Nat) (p q : FV) (a : ABlob) :
    (setModLoop u (fixedSizes ns) p q : M ABlob _) a = (.ok ⟨List.replicate ns.length (.fin 0), p, q⟩, a) := by
  induction ns with
  | nil => rfl
  | cons n ns ih =>
    rw [fixedSizes_cons]
    unfold setModLoop
    rw [(fixedPair n).1, if_pos rfl, M.bind_ok ih]; rfl

theorem setModFix_fixed (ns : List Nat) (u : FV) (ms : List FV) (h : ms.length = ns.length) :
    setModFix (fixedSizes ns) ms u = (ms, u) := by
  induction ns generalizing ms with
  | nil => cases ms with
    | nil => rfl
    | cons => simp at h
  | cons n ns ih =>
    cases ms with
    | nil => simp at h
    | cons m ms =>
      rw [fixedSizes_cons]
      unfold setModFix
      rw [(fixedPair n).2.1, ih ms (by simpa using h)]; rfl

theorem setChopLoop_fixed (kv ku vr ur : FV) (ns : List Nat) (ms : List FV) (h : ms.length = ns.length)
    (a : ABlob) (ha : ns.sum ≤ a.length) (hi : ns.sum ≤ INT_MAX) :
    (setChopLoop kv ku (fixedSizes ns) ms vr ur : M ABlob _) a = (.ok (slices ns a), a.drop ns.sum) := by
  induction ns generalizing ms a with
  | nil => cases ms with
    | nil => rfl
    | cons => simp at h
  | cons n ns ih =>
    cases ms with
    | nil => simp at h
    | cons m ms =>
      rw [List.sum_cons] at ha hi ⊢
      rw [fixedSizes_cons]
      unfold setChopLoop
      rw [(fixedPair n).2.1, (fixedPair n).1]
      simp only [Bool.false_eq_true, if_false, if_true]
      have e : (chop (toSz (n : Int)) : M ABlob ABlob) a = (.ok (a.take n), a.drop n) := by
        rw [toSz_of_nonneg (by omega) (by omega), chop_abs, if_neg (by omega)]; rfl
      have e2 := ih ms (by simpa using h) (a.drop n) (by rw [List.length_drop]; omega) (by omega)
      rw [M.bind_ok e, M.bind_ok e2]
      show (Out.ok (slices (n :: ns) a), _) = _
      rw [List.drop_drop]

theorem setSplit_fixed (ns : List Nat) (hi : ns.sum ≤ INT_MAX) (a : ABlob) :
    (setSplit (fixedSizes ns) : M ABlob _) a =
      if a.length < ns.sum then (.outOfData, a) else (.ok (slices ns a), a.drop ns.sum) := by
  have ht := setTotals_fixed ns 0 0 (le_refl _) (by omega)
  rw [zero_add] at ht
  have hs : 0 ≤ ((ns.sum : Nat) : Int) := Int.natCast_nonneg _
  have hf : setFixed ⟨(ns.sum : Int), 0, 0, 0⟩ = ns.sum := by
    unfold setFixed
    simp only [Nat.cast_zero, mul_zero, add_zero, lt_irrefl, false_and, if_false]
    rw [if_neg (by omega), wrap32_of_fits (by omega) (by omega)]
  unfold setSplit
  rw [ht, M.bind_ok (show M.lift (Out.ok _) a = (.ok _, a) from rfl)]
  simp only
  rw [M.bind_ok (M.get_apply a), hf, toSz_of_nonneg (by omega) (by omega), size_abs]
  by_cases h : a.length < ns.sum
  · rw [if_pos (by omega), if_pos h]; rfl
  rw [if_neg (by omega), if_neg h]
  generalize hav : wrap32 _ = av
  have hv : -W31 ≤ av ∧ av < W31 := by rw [← hav]; exact wrap32_fits _
  have hl : (setLimit ⟨(ns.sum : Int), 0, 0, 0⟩ av : M ABlob Int) a = (.ok (if av < 0 then av else 0), a) := rfl
  rw [M.bind_ok hl, M.bind_ok (setModLoop_fixed ns _ _ _ a)]
  simp only
  rw [setModFix_fixed ns _ _ List.length_replicate]
  generalize hlim : (if av < 0 then av else 0 : Int) = lim
  have hlim' : (av < 0 ∧ lim = av) ∨ (0 ≤ av ∧ lim = 0) := by
    rw [← hlim]; split <;> omega
  have hle : lim ≤ 0 := by omega
  have hnlt : FV.lt (.fin 0) (FV.ofInt f64 lim) = false := by
    rw [ofInt64_int (by omega) (by omega)]
    show decide ((0 : ℚ) < lim) = false
    rw [decide_eq_false_iff_not, not_lt]
    exact_mod_cast hle
  rw [hnlt]
  simp only [Bool.false_eq_true, if_false, lt_irrefl, ite_self]

  rw [M.bind_ok (show M.lift (Out.ok lim) a = (.ok lim, a) from rfl), ckInt_ok (by omega) (by omega)]
  rw [M.bind_ok (show M.lift (Out.ok (av - lim)) a = (.ok (av - lim), a) from rfl)]
  exact setChopLoop_fixed _ _ _ _ ns _ List.length_replicate a (by omega) hi

/-- **C50.** A set of arithmetic stamps whose sizes add up to an `int`: with fewer
bytes than the sum of their sizes `ExtractBinSet` throws and takes nothing; otherwise it returns
consecutive slices of the blob, of the sizes of the stamps in order. -/
theorem C50_arith_set (ts : List ArithTy) (hi : (ts.map sizeofT).sum ≤ INT_MAX) {b : Blob} {bs : Bytes}
    (hr : Reachable b) (hh : Holds b bs) :
    (bs.length < (ts.map sizeofT).sum →
      GalleyEnds (fun _ => setBin (ts.map BinStamp.arith)) b .outOfData bs) ∧
    ((ts.map sizeofT).sum ≤ bs.length → ∃ outs left,
      GalleyEnds (fun _ => setBin (ts.map BinStamp.arith)) b (.ok outs) left ∧
      outs.flatten ++ left = bs ∧ outs.map List.length = ts.map sizeofT) := by
  rw [show sizeofT = ArithTy.size from funext sizeofT_eq] at *
  have hl : ts.length ≤ (ts.map ArithTy.size).sum := by
    clear hi
    induction ts with
    | nil => simp
    | cons t ts ih =>
      have := t.size_pos
      simp only [List.map_cons, List.sum_cons, List.length_cons]; omega
  have hm : (ts.map BinStamp.arith).map BinStamp.sizes = fixedSizes (ts.map ArithTy.size) := by
    unfold fixedSizes; rw [List.map_map, List.map_map]; rfl
  have hsp := setSplit_fixed (ts.map ArithTy.size) hi bs
  refine ⟨fun h => ?_, fun h => ?_⟩
  · rw [if_pos h] at hsp
    refine (C48_set_bin_partial hr (parts := [])).2 ?_
    rw [hm]
    exact SetThrows.intro hr.valid hh hsp
  · rw [if_neg (by omega)] at hsp
    obtain ⟨h1, h2⟩ := slices_spec _ _ h
    have hlen : (slices (ts.map ArithTy.size) bs).length = ts.length := by
      have := congrArg List.length h1
      rwa [List.length_map, List.length_map] at this
    refine ⟨_, _, ((C48_set_bin_partial hr).1 (by rw [hm]; exact SetReturns.intro hr.valid hh hsp) ?_ ?_).1 _ ?_,
      h2, h1⟩
    · rw [hlen]; omega
    · rw [hlen, List.length_map]
    · generalize slices (ts.map ArithTy.size) bs = ps at h1
      clear hsp hm hl hi h h2 hlen hh hr
      induction ts generalizing ps with
      | nil => cases ps with
        | nil => exact .nil
        | cons => simp at h1
      | cons t ts ih =>
        cases ps with
        | nil => simp at h1
        | cons p ps =>
          simp only [List.map_cons, List.cons.injEq] at h1
          rw [List.map_cons, List.zip_cons_cons]
          exact .cons (onNew_bin t h1.1).1 (ih ps h1.2)

/-- A byte, a `short` and a byte. -/
example : (setBin [.arith .u8, .arith .i16, .arith .u8] (Blob.mk' (.at [1, 2, 3, 4, 5] 0) 5)).1 =
      .ok [[1], [2, 3], [4]] ∧
    (setBin [.arith .u8, .arith .i16, .arith .u8] (Blob.mk' (.at [1, 2, 3, 4, 5] 0) 3)).1 = .outOfData := by
  decide +kernel

end BS
