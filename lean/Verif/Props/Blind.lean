import Verif.Spec.Blind
import Verif.Lemmas.Blind
import Verif.Props.Bin
import Verif.Props.Record
import Verif.Props.Experiment
import Verif.Props.Compose
import Verif.Props.Swap
import Verif.Props.Grow

/-!
# C95: bytes that are left over have no influence
-/

namespace BS
open BlobLike

/-! ## From lists of bytes to blobs -/

theorem GalleyEnds.leaving {α : Type} {m : Nat → M Blob α} {b : Blob} {o : Out α} {left : Bytes} (h : GalleyEnds m b o left) :
    EndsLeaving m b o left := by
  obtain ⟨b', ⟨N, hN⟩, hh⟩ := h
  exact ⟨N, fun n hn => ⟨b', hN n hn, hh⟩⟩

theorem SimOut.mono_eq {α : Type} {o o' : Out α} (h : SimOut Eq o o') : o = o' := h.eq

theorem Blind.takes {α : Type} {m : Nat → M Blob α} {m' : Nat → M ABlob α} (hs : ∀ n, Sim BR Eq (m n) (m' n))
    (hb : ∀ n, Blind (m' n)) {b : Blob} {bs : Bytes} (hr : Reachable b) (hh : Holds b bs) {o : Out α} {left : Bytes}
    (h : EndsLeaving m b o left) : TakesOnly m bs o left := by
  obtain ⟨N, hN⟩ := h
  have key : ∀ n ≥ N, m' n bs = (o, left) := by
    intro n hn
    obtain ⟨b', e, hl⟩ := hN n hn
    have hbr : BR b bs := ⟨hr.valid, (holds_iff hr.valid bs).1 hh⟩
    obtain ⟨h1, h2⟩ := hs n b bs hbr
    rw [e] at h1 h2
    exact Prod.ext h1.eq.symm (h2.2.symm.trans ((holds_iff h2.1 left).1 hl))
  obtain ⟨p, rfl, -⟩ := hb N _ _ _ (key N le_rfl)
  refine ⟨p, rfl, fun b2 left2 hr2 hh2 hl => ⟨N, fun n hn => ?_⟩⟩
  obtain ⟨p', hp', e⟩ := hb n _ _ _ (key n hn)
  obtain rfl : p = p' := List.append_cancel_right hp'
  have hbr : BR b2 (p ++ left2) := ⟨hr2.valid, (holds_iff hr2.valid _).1 hh2⟩
  obtain ⟨h1, h2⟩ := hs n b2 _ hbr
  rw [e left2 hl] at h1 h2
  exact ⟨_, Prod.ext h1.eq rfl, (holds_iff h2.1 _).2 h2.2⟩

theorem simOut_eachPiece {α : Type} {ps : List (M Blob α × Blob)} {ps' : List (M ABlob α × ABlob)}
    (h : List.Forall₂ (fun x y => Sim BR Eq x.1 y.1 ∧ BR x.2 y.2) ps ps') (k : Int) : eachPiece k ps = eachPiece k ps' := by
  induction h generalizing k with
  | nil => rfl
  | @cons x y ps ps' hxy _ ih =>
    obtain ⟨ex, c⟩ := x
    obtain ⟨ex', c'⟩ := y
    unfold eachPiece
    rw [(hxy.1 c c' hxy.2).1.eq]
    simp only [ih]

theorem sim_pieces {α : Type} {m : M Blob α} {m' : M ABlob α} (h : Sim BR Eq m m') {ps : List Blob} {qs : List ABlob} (hp : BRL ps qs) :
    Sim BR Eq (M.lift (eachPiece 0 (ps.map fun c => (m, c)))) (M.lift (eachPiece 0 (qs.map fun c => (m', c)))) := by
  rw [simOut_eachPiece (ps' := qs.map fun c => (m', c))]
  · exact .lift
  · rw [List.forall₂_map_left_iff, List.forall₂_map_right_iff]
    exact hp.imp fun _ _ e => ⟨h, e⟩

theorem sim_vectorBin (n : Nat) (s : BinStamp) : Sim BR Eq (vectorBin n s) (vectorBin n s) :=
  .bind (sim_vecSplit _ _ _) fun _ _ hp => sim_pieces (sim_extractBin s) hp
theorem sim_vectorV (n : Nat) (t : ArithTy) : Sim BR Eq (vectorV n t) (vectorV n t) :=
  .bind (sim_vecSplit _ _ _) fun _ _ hp => sim_pieces (sim_extractValue t) hp
theorem sim_vectorRecord (n : Nat) (ts : List ArithTy) : Sim BR Eq (vectorRecord n ts) (vectorRecord n ts) :=
  .bind (sim_vecSplit _ _ _) fun _ _ hp => sim_pieces (sim_recordV ts) hp

theorem forall₂_zip_stamps {ss : List BinStamp} {ps : List Blob} {qs : List ABlob} (h : BRL ps qs) :
    List.Forall₂ (fun (x : M Blob Bytes × Blob) (y : M ABlob Bytes × ABlob) => Sim BR Eq x.1 y.1 ∧ BR x.2 y.2)
      ((ss.map BinStamp.extractBin).zip ps) ((ss.map BinStamp.extractBin).zip qs) := by
  induction h generalizing ss with
  | nil => cases ss <;> exact .nil
  | cons h1 _ ih =>
    cases ss with
    | nil => exact .nil
    | cons s ss => exact .cons ⟨sim_extractBin s, h1⟩ ih

theorem sim_setBin (ss : List BinStamp) : Sim BR Eq (setBin ss) (setBin ss) := by
  refine .bind (sim_setSplit _) fun _ _ hp => ?_
  rw [simOut_eachPiece (forall₂_zip_stamps hp)]
  exact .lift

/-! ## Stamps -/

section
variable {G : Graph} {fl fl' : Flags} {i : Id}

/-- **C95.** However the extraction of a stamp ends, there are bytes it has taken, and on every other blob that begins with
these and has as many more, it ends in the same way and leaves the others. Stamps written by clients must be of this kind
themselves. -/
theorem C95_ends (hu : LocalUsers G) {b : Blob} {bs : Bytes} (hr : Reachable b) (hh : Holds b bs) {o : Out Bytes} (ho : o ≠ .fuel)
    {b' : Blob} (h : Extracts G fl i b o fl' b') {left : Bytes} (hl : Holds b' left) :
    ∃ took, bs = took ++ left ∧ ∀ c left', Reachable c → Holds c (took ++ left') → left'.length = left.length →
      ∃ c', Extracts G fl i c o fl' c' ∧ Holds c' left' := by
  obtain ⟨hv, N, hN⟩ := h.abs hr.valid
  rw [(holds_iff hr.valid bs).1 hh, (holds_iff hv left).1 hl] at hN
  obtain ⟨p, rfl, e⟩ := blind_extract hu N i _ _ _ _ _ (hN N le_rfl)
  refine ⟨p, rfl, fun c left2 hr2 hh2 hle => ?_⟩
  have e2 : Extracts G fl i (c.abs : ABlob) o fl' left2 := by
    rw [(holds_iff hr2.valid _).1 hh2]
    exact Extracts.intro (e left2 hle) ho
  obtain ⟨c', h1, h2, h3⟩ := e2.conc hr2.valid ho
  exact ⟨c', h1, (holds_iff h2 _).2 h3⟩

/-- **C95.** Among blobs of one size, what the stamp takes is never the beginning of more that it takes of another blob: if it is,
the two extractions end in the same way and take the same. -/
theorem C95_prefix (hu : LocalUsers G) {b c : Blob} {took took' left left' : Bytes} (hb : Reachable b) (hc : Reachable c)
    (hhb : Holds b (took ++ left)) (hhc : Holds c (took' ++ left')) (hn : (took ++ left).length = (took' ++ left').length)
    (hp : took <+: took') {o o' : Out Bytes} (ho : o ≠ .fuel) {fl'' : Flags} {b' c' : Blob} (h : Extracts G fl i b o fl' b')
    (h' : Extracts G fl i c o' fl'' c') (hl : Holds b' left) (hl' : Holds c' left') : o = o' ∧ fl' = fl'' ∧ took = took' := by
  obtain ⟨more, rfl⟩ := hp
  obtain ⟨p, e, H⟩ := C95_ends hu hb hhb ho h hl
  obtain rfl : took = p := List.append_cancel_right e
  rw [List.append_assoc] at hhc hn
  obtain ⟨c2, ⟨N, e1⟩, e2⟩ := H c (more ++ left') hc hhc (by simp only [List.length_append] at hn ⊢; omega)
  obtain ⟨N', e3⟩ := h'
  have e4 := (e1 _ (Nat.le_max_left N N')).symm.trans (e3 _ (Nat.le_max_right N N'))
  cases e4
  unfold Holds at e2 hl'
  rw [hl'] at e2
  have e5 : left' = more ++ left' := Out.ok.inj e2
  have : more = [] := List.append_cancel_right (show more ++ left' = [] ++ left' from e5.symm)
  subst this
  exact ⟨rfl, rfl, (List.append_nil _).symm⟩

/-- **C95.** A text depends only on the bytes that are taken and on how many there are. -/
theorem C95_returns (hu : LocalUsers G) {b : Blob} {bs : Bytes} (hr : Reachable b) (hh : Holds b bs) {s left : Bytes}
    (h : Returns G fl i b s left) : ∃ took, bs = took ++ left ∧ ∀ c left', Reachable c → Holds c (took ++ left') →
      left'.length = left.length → Returns G fl i c s left' := by
  obtain ⟨b', h1, h2⟩ := h
  exact C95_ends hu hr hh (by simp) h1 h2

/-- **C95.** So does the exception. -/
theorem C95_throws (hu : LocalUsers G) {b : Blob} {bs : Bytes} (hr : Reachable b) (hh : Holds b bs) {left : Bytes}
    (h : Throws G fl i b left) : ∃ took, bs = took ++ left ∧ ∀ c left', Reachable c → Holds c (took ++ left') →
      left'.length = left.length → Throws G fl i c left' := by
  obtain ⟨b', h1, h2⟩ := h
  exact C95_ends hu hr hh (by decide) h1 h2

end

/-! ## Galleys and the recursion experiment -/

/-- **C95** for galleys of binary values, of typed values, and of structures. It holds with any stamps of clients, which are given
pieces of their own. -/
theorem C95_galleys {b : Blob} {bs : Bytes} (hr : Reachable b) (hh : Holds b bs) :
    (∀ s o left, EndsLeaving (fun n => vectorBin n s) b o left → TakesOnly (fun n => vectorBin n s) bs o left) ∧
    (∀ t o left, EndsLeaving (fun n => vectorV n t) b o left → TakesOnly (fun n => vectorV n t) bs o left) ∧
    (∀ ss o left, EndsLeaving (fun _ => setBin ss) b o left → TakesOnly (fun _ => setBin ss) bs o left) ∧
    (∀ ts o left, EndsLeaving (fun n => vectorRecord n ts) b o left → TakesOnly (fun n => vectorRecord n ts) bs o left) :=
  ⟨fun s _ _ => Blind.takes (fun n => sim_vectorBin n s) (fun n => .vectorBin n s) hr hh,
    fun t _ _ => Blind.takes (fun n => sim_vectorV n t) (fun n => .vectorV n t) hr hh,
    fun ss _ _ => Blind.takes (fun _ => sim_setBin ss) (fun _ => .setBin ss) hr hh,
    fun ts _ _ => Blind.takes (fun n => sim_vectorRecord n ts) (fun n => .vectorRecord n ts) hr hh⟩

/-- **C95** for the recursion of t/320. -/
theorem C95_experiment {b : Blob} {bs : Bytes} (hr : Reachable b) (hh : Holds b bs) {o : Out Bytes} {left : Bytes}
    (h : EndsLeaving (fun n => experiment n) b o left) : TakesOnly (fun n => experiment n) bs o left :=
  Blind.takes (fun n => sim_experiment n) (fun n => .experiment n) hr hh h

/-! ## Examples -/

/-- Words and numbers: of [0, 128, 7] the lottery takes two bytes, whatever the third is. -/
example : ∀ x : UInt8, ∀ b, Reachable b → Holds b [0, 128, x] → Returns wordsOrLongs Flags.init 0 b (str "b") [x] := by
  intro x b hr hh
  obtain ⟨b0, hr0, hh0⟩ := exists_blob (bs := [0, 128, 7]) (by decide)
  have h : Returns wordsOrLongs Flags.init 0 b0 (str "b") [7] := (returns_iff hr0 hh0).2 (arun_of 9 (by decide +kernel))
  have hu : LocalUsers wordsOrLongs := by
    intro i u hi
    match i with
    | 0 => cases hi
    | 1 => cases hi
    | 2 => cases hi
    | 3 => cases hi
    | 4 => cases hi
  obtain ⟨took, e, H⟩ := C95_returns hu hr0 hh0 h
  obtain rfl : took = [0, 128] := List.append_cancel_right (show took ++ [7] = [0, 128] ++ [7] from e.symm)
  exact H b [x] hr hh rfl

/-- The galley of t/320 on nine bytes, and with another last byte. -/
example : (experiment 4 (([10, 200, 100, 1, 2, 3, 4, 5, 6] : Bytes) : ABlob)).2 = [6] ∧
    (experiment 4 (([10, 200, 100, 1, 2, 3, 4, 5, 6] : Bytes) : ABlob)).1 =
      (experiment 4 (([10, 200, 100, 1, 2, 3, 4, 5, 9] : Bytes) : ABlob)).1 := by
  decide +kernel

/-- A galley of three-byte records leaves one byte of seven. -/
example : (vectorRecord 9 [.u8, .u16] ([1, 2, 3, 4, 5, 6, 7] : ABlob)).2 = [7] ∧
    (vectorRecord 9 [.u8, .u16] ([1, 2, 3, 4, 5, 6, 7] : ABlob)).1 = (vectorRecord 9 [.u8, .u16] ([1, 2, 3, 4, 5, 6, 8] : ABlob)).1 := by
  decide +kernel

/-! ## Where bytes that are left over have influence -/

/-- **C95**, its limits. How many bytes are left does matter: a lottery of words and numbers of four bytes makes a word of three
bytes, and leaves one, but of these and two more it makes a number. And a stamp of a client may look at bytes without taking
them. -/
theorem C95_violated :
    (∀ b, Reachable b → Holds b [0, 128, 7] → Returns wordsOrLongs Flags.init 0 b (str "b") [7]) ∧
    (∀ b, Reachable b → Holds b [0, 128, 7, 7, 7] → Returns wordsOrLongs Flags.init 0 b (str "117901184") []) ∧
    ¬ LocalUsers peekGraph ∧
    (∀ y : UInt8, ∀ b, Reachable b → Holds b [1, y] → Returns peekGraph Flags.init 0 b [y] [y]) := by
  refine ⟨fun b hr hh => (returns_iff hr hh).2 (arun_of 9 (by decide +kernel)),
    fun b hr hh => (returns_iff hr hh).2 (arun_of 9 (by decide +kernel)), fun h => ?_,
    fun y b hr hh => (returns_iff hr hh).2 ⟨1, rfl⟩⟩
  have := h 0 _ rfl [1, 2] [1, 3] rfl rfl
  revert this
  decide

end BS
