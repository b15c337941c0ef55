import Verif.Spec.Shared
import Verif.Props.Load
import Verif.Lemmas.Stays
import Verif.Props.Safety

/-!
# C99: loaded stamps read the client's memory when they are unloaded
-/

namespace BS

theorem World.load_eq (w : World) (G : Graph) (n : Nat) (i : Id) {b : Blob} (h : w.blob.look w.mem = some b) :
    World.load G n i w = ((loadPiece G n i (w.flags, b)).1.map fun _ => (),
      { w with
        kept := match (loadPiece G n i (w.flags, b)).1 with | .ok c => w.kept.set i (w.blob.back c) | _ => w.kept
        blob := w.blob.back (loadPiece G n i (w.flags, b)).2.2
        flags := (loadPiece G n i (w.flags, b)).2.1 }) := by
  unfold World.load
  rw [h]
  rfl

/-- A blob about part of a buffer that is there. -/
theorem Spans.look {v : View} {k lo hi : Nat} (h : Spans v k lo hi) {H : Heap} {buf : Bytes} (hk : H k = some buf)
    (hl : hi ≤ buf.length) (hb : buf.length < 2 ^ 63) :
    v.look H = some ⟨.at buf v.off, v.beg, v.fin⟩ ∧ Reachable ⟨.at buf v.off, v.beg, v.fin⟩ ∧
      Holds ⟨.at buf v.off, v.beg, v.fin⟩ (bytesAt buf lo hi) := by
  obtain ⟨h1, h2, h3, h4, h5⟩ := h
  set b : Blob := ⟨.at buf v.off, v.beg, v.fin⟩ with hbd
  have hstop : b.stop = (v.fin + 1) % 2 ^ 64 := rfl
  have hv : b.Valid := by
    refine ⟨h4, ?_⟩
    show v.beg ≤ b.stop ∧ v.off + b.stop ≤ buf.length ∧ buf.length < 9223372036854775808
    rw [hstop]
    exact ⟨by omega, by omega, by omega⟩
  refine ⟨by unfold View.look; rw [h1, hk]; rfl, ?_, ?_⟩
  · have r0 : Reachable (Blob.mk' (.at buf v.off) b.stop) := .new (by rw [hstop]; omega) (by omega)
    have e : (ChopCall.one v.beg).run (Blob.mk' (.at buf v.off) b.stop)
        = (.ok (Blob.mk' (.at buf v.off) v.beg), b) := by
      show Blob.chop v.beg (Blob.mk' (.at buf v.off) b.stop) = _
      have hs := Holds.size r0 ((holds_iff r0.valid _).2 rfl)
      rw [(Blob.mk'_valid (buf := buf) (off := v.off) (n := b.stop) (by rw [hstop]; omega) (by omega)).2,
        List.length_take, List.length_drop] at hs
      unfold Blob.chop
      rw [if_neg (by omega)]
      show (match Ptr.add (.at buf v.off) 0 with | .ok p => _ | .ub r => _ | _ => _) = _
      rw [Ptr.add_at, if_pos (by omega)]
      simp only [Nat.add_zero]
      refine Prod.ext rfl ?_
      show (⟨.at buf v.off, toSz (((0 : Nat) : Int) + v.beg), toSz ((b.stop : Int) - 1)⟩ : Blob) = _
      rw [hbd]
      congr 1
      · rw [Nat.cast_zero, zero_add, toSz_natCast (by omega)]
      · rw [← hbd, hstop]; unfold toSz; omega
    exact .rest r0 e
  · rw [holds_iff hv]
    show (buf.drop (v.off + v.beg)).take (b.stop - v.beg) = _
    unfold bytesAt
    rw [List.drop_take, h2]
    congr 1
    rw [hstop]; omega

/-- **C99**, `Load`: from a blob about the bytes from `lo` up to `hi` of a buffer the stamp keeps the address of the first of them, at
most `maxSize()`, and the client's blob goes on after them. Nothing is copied, no memory is written. -/
theorem C99_load {G : Graph} {i : Id} {mn mx : Int} {w : World} {k lo hi : Nat} {buf : Bytes} (hs : Spans w.blob k lo hi)
    (hk : w.mem k = some buf) (hl : hi ≤ buf.length) (hb : buf.length < 2 ^ 63)
    (hmin : HasMin G w.flags i mn) (hmax : HasMax G w.flags i mx) (h0 : 0 ≤ mn) (h1 : mn ≤ INT_MAX)
    (hx : mx = -1 ∨ (0 ≤ mx ∧ mx ≤ INT_MAX)) (hn : mn ≤ (hi - lo : Nat)) :
    ∃ v u, WLoads G i w (.ok ()) { w with kept := w.kept.set i v, blob := u } ∧
      Spans v k lo (lo + if mx = -1 then hi - lo else min mx.toNat (hi - lo)) ∧
      Spans u k (lo + if mx = -1 then hi - lo else min mx.toNat (hi - lo)) hi := by
  obtain ⟨e1, hr, hh⟩ := hs.look hk hl hb
  have hlen : (bytesAt buf lo hi).length = hi - lo := by
    unfold bytesAt; rw [List.length_drop, List.length_take]; have := hs.2.2.1; omega
  obtain ⟨N, hN⟩ := hmin
  obtain ⟨N', hN'⟩ := hmax
  set t := (if mx = -1 then hi - lo else min mx.toNat (hi - lo)) with ht
  have ht' : loadTake mx (bytesAt buf lo hi).length = t := by unfold loadTake; rw [hlen]
  have htl : t ≤ hi - lo := by rw [ht]; split <;> omega
  clear_value t
  have hsz := Holds.size hr hh
  obtain ⟨s1, s2, s3, s4, s5⟩ := hs
  have hc : Blob.chop t ⟨.at buf w.blob.off, w.blob.beg, w.blob.fin⟩ =
      (.ok (Blob.mk' (.at buf lo) t), ⟨.at buf w.blob.off, w.blob.beg + t, w.blob.fin⟩) := by
    unfold Blob.chop
    rw [if_neg (by omega)]
    show (match Ptr.add (.at buf w.blob.off) w.blob.beg with | .ok p => _ | .ub r => _ | _ => _) = _
    rw [Ptr.add_at, if_pos (by omega), s2]
    refine Prod.ext rfl ?_
    show (⟨.at buf w.blob.off, toSz ((w.blob.beg : Int) + t), w.blob.fin⟩ : Blob) = _
    congr 1
    unfold toSz; omega
  refine ⟨⟨k, lo, 0, toSz ((t : Int) - 1)⟩, ⟨k, w.blob.off, w.blob.beg + t, w.blob.fin⟩, ⟨max N N', fun n hn' => ?_⟩, ?_, ?_⟩
  · have e2 := loadPiece_ok (hN n (by omega)) (hN' n (by omega)) h0 h1 hx (by rw [hlen]; exact hn) hr hh
    rw [ht', hc] at e2
    rw [World.load_eq w G n i e1, e2]
    show (Out.ok (), World.mk _ _ _ _) = (Out.ok (), World.mk _ _ _ _)
    rw [← s1]
    rfl
  · refine ⟨rfl, by show lo + 0 = lo; omega, by omega, toSz_lt _, ?_⟩
    show lo + (toSz ((t : Int) - 1) + 1) % 2 ^ 64 = _
    unfold toSz; omega
  · exact ⟨rfl, by show w.blob.off + (w.blob.beg + t) = _; omega, by omega, s4, s5⟩

theorem textOf_iff {G : Graph} {fl : Flags} {i : Id} {b : Blob} {bs : Bytes} (hr : Reachable b) (hh : Holds b bs)
    (hb : bs.length < 2 ^ 63) (o : Out Bytes) :
    (∃ N, ∀ n ≥ N, (extract G n i (fl, b)).1 = o) ↔ TextOf G fl i bs o := by
  have hm := Blob.mk'_valid (buf := bs) (off := 0) (n := bs.length) (by omega) (by omega)
  have key : ∀ n, (extract G n i (fl, b)).1 = (extract G n i (fl, Blob.mk' (.at bs 0) bs.length)).1 := by
    intro n
    rw [(extract_refines G n i fl hr.valid).1, (extract_refines G n i fl hm.1).1, hm.2, (holds_iff hr.valid _).1 hh]
    simp
  unfold TextOf
  simp only [key]

/-- **C99**, `UnloadStr()`: whatever happened since, the text is that of the bytes that are in the memory now. -/
theorem C99_unload {G : Graph} {i : Id} {w : World} {v : View} {k lo hi : Nat} {buf : Bytes} (hv : w.kept i = some v)
    (hs : Spans v k lo hi) (hk : w.mem k = some buf) (hl : hi ≤ buf.length) (hb : buf.length < 2 ^ 63) (o : Out Bytes) :
    WUnloads G i w o ↔ TextOf G w.flags i (bytesAt buf lo hi) o := by
  obtain ⟨e1, hr, hh⟩ := hs.look hk hl hb
  rw [← textOf_iff hr hh (by unfold bytesAt; rw [List.length_drop, List.length_take]; omega)]
  unfold WUnloads World.unload
  rw [hv]
  dsimp only
  rw [e1]

/-- **C99**, `ExtractStr` of the client's blob: the same. -/
theorem C99_extract {G : Graph} {i : Id} {w : World} {k lo hi : Nat} {buf : Bytes} (hs : Spans w.blob k lo hi)
    (hk : w.mem k = some buf) (hl : hi ≤ buf.length) (hb : buf.length < 2 ^ 63) (o : Out Bytes) :
    WExtracts G i w o ↔ TextOf G w.flags i (bytesAt buf lo hi) o := by
  obtain ⟨e1, hr, hh⟩ := hs.look hk hl hb
  rw [← textOf_iff hr hh (by unfold bytesAt; rw [List.length_drop, List.length_take]; omega)]
  unfold WExtracts World.extract
  rw [e1]

/-- **C99**, other changes: what the client does to other buffers, or to other bytes of this one, is not seen. -/
theorem C99_elsewhere {G : Graph} {i : Id} {w w' : World} {v : View} {k lo hi : Nat} {buf buf' : Bytes} (hv : w.kept i = some v)
    (hv' : w'.kept i = some v) (hf : w'.flags = w.flags) (hs : Spans v k lo hi) (hk : w.mem k = some buf)
    (hk' : w'.mem k = some buf') (hl : hi ≤ buf.length) (hl' : hi ≤ buf'.length) (hb : buf.length < 2 ^ 63)
    (hb' : buf'.length < 2 ^ 63) (he : ∀ p, lo ≤ p → p < hi → buf'[p]? = buf[p]?) (o : Out Bytes) :
    WUnloads G i w' o ↔ WUnloads G i w o := by
  have e : bytesAt buf' lo hi = bytesAt buf lo hi := by
    refine List.ext_getElem? fun p => ?_
    unfold bytesAt
    rw [List.getElem?_drop, List.getElem?_drop, List.getElem?_take, List.getElem?_take]
    split
    · exact he _ (by omega) (by assumption)
    · rfl
  rw [C99_unload hv' hs hk' hl' hb', C99_unload hv hs hk hl hb, hf, e]

/-- **C99**, all together: after `Load`, the client gives the buffer whatever contents; `UnloadStr()` writes the text of the new bytes
in the place from which the stamp was loaded. -/
theorem C99_load_change_unload {G : Graph} {i : Id} {mn mx : Int} {w : World} {k lo hi : Nat} {buf buf' : Bytes}
    (hs : Spans w.blob k lo hi) (hk : w.mem k = some buf) (hl : hi ≤ buf.length) (hb : buf.length < 2 ^ 63)
    (hmin : HasMin G w.flags i mn) (hmax : HasMax G w.flags i mx) (h0 : 0 ≤ mn) (h1 : mn ≤ INT_MAX)
    (hx : mx = -1 ∨ (0 ≤ mx ∧ mx ≤ INT_MAX)) (hn : mn ≤ (hi - lo : Nat)) (hl' : buf'.length = buf.length) :
    ∃ w1, WLoads G i w (.ok ()) w1 ∧ w1.mem = w.mem ∧ ∀ o,
      WUnloads G i { w1 with mem := w1.mem.put k (some buf') } o ↔
        TextOf G w.flags i (bytesAt buf' lo (lo + if mx = -1 then hi - lo else min mx.toNat (hi - lo))) o := by
  obtain ⟨v, u, e, hv, _⟩ := C99_load hs hk hl hb hmin hmax h0 h1 hx hn
  have hlt : lo + (if mx = -1 then hi - lo else min mx.toNat (hi - lo)) ≤ hi := by
    have := hs.2.2.1
    split <;> omega
  refine ⟨_, e, rfl, fun o => ?_⟩
  exact C99_unload (w := { w with kept := w.kept.set i v, blob := u, mem := w.mem.put k (some buf') })
    (Bitten.set_self _ _ _) hv (if_pos rfl) (by omega) (by omega) o

/-- **C99**, lifetime: once the client has freed the buffer, the kept blob must not be used any more. -/
theorem C99_freed {G : Graph} {i : Id} {w : World} {v : View} (hv : w.kept i = some v) (hk : w.mem v.buf = none) :
    WUnloads G i w (.ub .nullDeref) := by
  refine ⟨0, fun n _ => ?_⟩
  have e : v.look w.mem = none := by unfold View.look; rw [hk]; rfl
  unfold World.unload
  rw [hv]
  dsimp only
  rw [e]

/-- The blob is about some of the bytes from `lo` up to `hi` of the buffer. -/
def BlobIn (buf : Bytes) (lo hi : Nat) (b : Blob) : Prop :=
  b.Valid ∧ ∃ o, b.data = .at buf o ∧ lo ≤ o + b.beg ∧ o + b.stop ≤ hi

theorem blobIn_chop (buf : Bytes) (lo hi : Nat) : ChopKeeps (BlobIn buf lo hi) := by
  have key : ∀ k b, BlobIn buf lo hi b → (Blob.chop k b = (.outOfData, b)) ∨
      ∃ c b', Blob.chop k b = (.ok c, b') ∧ BlobIn buf lo hi c ∧ BlobIn buf lo hi b' := by
    intro k b hb
    obtain ⟨hv, o, hd, h1, h2⟩ := hb
    by_cases hk : b.size < k
    · left; unfold Blob.chop; rw [if_pos hk]
    right
    obtain ⟨c, b', e, vc, vb, -⟩ := Blob.chop_ok hv (n := k) (by omega)
    refine ⟨c, b', e, ?_⟩
    have hsz := hv.size_eq
    have hle := hv.beg_le
    have hst := hv.stop_lt
    have hm := hv.2
    rw [hd] at hm
    dsimp only at hm
    unfold Blob.chop at e
    rw [if_neg hk, hd, Ptr.add_at, if_pos (by omega)] at e
    obtain ⟨e1, e2⟩ := Prod.mk.inj e
    have e1' := Out.ok.inj e1
    have hc : c.stop = k := by
      rw [← e1']; unfold Blob.mk' Blob.stop toSz; dsimp only; omega
    have hb' : b'.beg = b.beg + k := by
      rw [← e2]; dsimp only; unfold toSz; omega
    refine ⟨⟨vc, o + b.beg, by rw [← e1']; rfl, ?_, by rw [hc]; omega⟩, ⟨vb, o, by rw [← e2], by omega, ?_⟩⟩
    · have : c.beg = 0 := by rw [← e1']; rfl
      omega
    · have : b'.stop = b.stop := by rw [← e2]; rfl
      omega
  intro k
  refine ⟨fun b hb => ?_, fun b c hb h => ?_⟩
  · rcases key k b hb with e | ⟨c, b', e, -, h⟩
    · show BlobIn buf lo hi (Blob.chop k b).2
      rw [e]; exact hb
    · show BlobIn buf lo hi (Blob.chop k b).2
      rw [e]; exact h
  · have h' : (Blob.chop k b).1 = .ok c := h
    rcases key k b hb with e | ⟨c', b', e, h1, -⟩ <;> rw [e] at h'
    · cases h'
    · cases h'; exact h1

theorem Spans.blobIn {v : View} {k lo hi : Nat} (h : Spans v k lo hi) {H : Heap} {buf : Bytes} (hk : H k = some buf)
    (hl : hi ≤ buf.length) (hb : buf.length < 2 ^ 63) : ∃ b, v.look H = some b ∧ BlobIn buf lo hi b := by
  obtain ⟨e, hr, -⟩ := h.look hk hl hb
  exact ⟨_, e, hr.valid, v.off, rfl, h.2.1.ge, h.2.2.2.2.le⟩

theorem BlobIn.back {buf : Bytes} {lo hi : Nat} {b : Blob} (h : BlobIn buf lo hi b) (v : View) : SpansIn (v.back b) v.buf lo hi := by
  obtain ⟨hv, o, hd, h1, h2⟩ := h
  have e : v.back b = ⟨v.buf, o, b.beg, b.fin⟩ := by unfold View.back; rw [hd]
  have := hv.beg_le
  exact ⟨o + b.beg, o + b.stop, by rw [e]; exact ⟨rfl, rfl, by omega, hv.1, rfl⟩, h1, h2⟩

/-- The blob is about the last bytes of those from `lo` up to `hi` of the buffer. -/
def BlobTo (buf : Bytes) (lo hi : Nat) (b : Blob) : Prop :=
  b.Valid ∧ ∃ o, b.data = .at buf o ∧ lo ≤ o + b.beg ∧ o + b.stop = hi

theorem blobTo_chop (buf : Bytes) (lo hi : Nat) (k : Nat) : Stays (BlobTo buf lo hi) (BlobLike.chop k : M Blob Blob) := by
  intro b hb
  obtain ⟨hv, o, hd, h1, h2⟩ := hb
  obtain ⟨h3, h4⟩ := stays_place b.data b.fin b.beg k b ⟨hv, rfl, rfl, le_refl _⟩
  obtain ⟨h5, h6, h7⟩ := h4
  refine ⟨h3, o, by rw [h5]; exact hd, by omega, ?_⟩
  have : (BlobLike.chop k b).2.stop = b.stop := by unfold Blob.stop; rw [h6]
  omega

theorem Spans.blobTo {v : View} {k lo hi : Nat} (h : Spans v k lo hi) {H : Heap} {buf : Bytes} (hk : H k = some buf)
    (hl : hi ≤ buf.length) (hb : buf.length < 2 ^ 63) : ∃ b, v.look H = some b ∧ BlobTo buf lo hi b := by
  obtain ⟨e, hr, -⟩ := h.look hk hl hb
  exact ⟨_, e, hr.valid, v.off, rfl, h.2.1.ge, h.2.2.2.2⟩

theorem BlobTo.back {buf : Bytes} {lo hi : Nat} {b : Blob} (h : BlobTo buf lo hi b) (v : View) :
    ∃ p, Spans (v.back b) v.buf p hi ∧ lo ≤ p := by
  obtain ⟨hv, o, hd, h1, h2⟩ := h
  have e : v.back b = ⟨v.buf, o, b.beg, b.fin⟩ := by unfold View.back; rw [hd]
  have := hv.beg_le
  exact ⟨o + b.beg, by rw [e]; exact ⟨rfl, rfl, by omega, hv.1, h2⟩, h1⟩

/-- **C99**, afterwards: however `UnloadStr()` ends, the blob that the stamp goes on keeping is about the last of the same bytes, so that
`C99_unload` says what the next `UnloadStr()` does. Other stamps keep what they kept, and no memory is written. -/
theorem C99_after_unload {G : Graph} {n : Nat} {i : Id} {w : World} {v : View} {k lo hi : Nat} {buf : Bytes} (hv : w.kept i = some v)
    (hs : Spans v k lo hi) (hk : w.mem k = some buf) (hl : hi ≤ buf.length) (hb : buf.length < 2 ^ 63) :
    let w' := ClientCall.run G n w (.unload i)
    w'.mem = w.mem ∧ w'.blob = w.blob ∧ (∃ v' p, w'.kept i = some v' ∧ Spans v' k p hi ∧ lo ≤ p) ∧ ∀ j, j ≠ i → w'.kept j = w.kept j := by
  obtain ⟨b, e, hin⟩ := hs.blobTo hk hl hb
  have h := stays_extract (blobTo_chop buf lo hi) G n i (w.flags, b) hin
  have e' : ClientCall.run G n w (.unload i) =
      { w with kept := w.kept.set i (v.back (extract G n i (w.flags, b)).2.2), flags := (extract G n i (w.flags, b)).2.1 } := by
    show (w.unload G n i).2 = _
    unfold World.unload
    rw [hv]
    dsimp only
    rw [e]
  obtain ⟨p, hbk, hp⟩ := BlobTo.back h v
  rw [hs.1] at hbk
  dsimp only
  rw [e']
  exact ⟨rfl, rfl, ⟨_, p, Bitten.set_self _ _ _, hbk, hp⟩, fun j hj => if_neg hj⟩

/-- **C99**, the client's blob after `ExtractStr`, however it ends. -/
theorem C99_after_extract {G : Graph} {n : Nat} {i : Id} {w : World} {k lo hi : Nat} {buf : Bytes}
    (hs : Spans w.blob k lo hi) (hk : w.mem k = some buf) (hl : hi ≤ buf.length) (hb : buf.length < 2 ^ 63) :
    let w' := ClientCall.run G n w (.extract i)
    w'.mem = w.mem ∧ w'.kept = w.kept ∧ ∃ p, Spans w'.blob k p hi ∧ lo ≤ p := by
  obtain ⟨b, e, hin⟩ := hs.blobTo hk hl hb
  have h := stays_extract (blobTo_chop buf lo hi) G n i (w.flags, b) hin
  have e' : ClientCall.run G n w (.extract i) =
      { w with blob := w.blob.back (extract G n i (w.flags, b)).2.2, flags := (extract G n i (w.flags, b)).2.1 } := by
    show (w.extract G n i).2 = _
    unfold World.extract
    rw [e]
  have hbk := BlobTo.back h w.blob
  rw [hs.1] at hbk
  dsimp only
  rw [e']
  exact ⟨rfl, rfl, hbk⟩

/-- **C99**, `Load` of any stamp, however it ends: the stamp keeps the address of some of the client's bytes, or what it kept. -/
theorem C99_after_load {G : Graph} {n : Nat} {i : Id} {w : World} {k lo hi : Nat} {buf : Bytes}
    (hs : Spans w.blob k lo hi) (hk : w.mem k = some buf) (hl : hi ≤ buf.length) (hb : buf.length < 2 ^ 63) :
    let w' := ClientCall.run G n w (.load i)
    w'.mem = w.mem ∧ SpansIn w'.blob k lo hi ∧
      ∀ j, w'.kept j = w.kept j ∨ (j = i ∧ ∃ v, w'.kept j = some v ∧ SpansIn v k lo hi) := by
  obtain ⟨b, e, hin⟩ := hs.blobIn hk hl hb
  have h := stays_loadPiece (fun k => (blobIn_chop buf lo hi k).1) G n i (w.flags, b) hin
  have hbk := BlobIn.back h w.blob
  rw [hs.1] at hbk
  intro w'
  have e' : w' = (w.load G n i).2 := rfl
  rw [e', World.load_eq w G n i e]
  refine ⟨rfl, hbk, fun j => ?_⟩
  dsimp only
  rcases e1 : (loadPiece G n i (w.flags, b)).1 with c | _ | _ | _ | _ <;> dsimp only
  · by_cases hj : j = i
    · have := (loadPiece_has (blobIn_chop buf lo hi) (s := (w.flags, b)) hin e1).back w.blob
      rw [hs.1] at this
      exact .inr ⟨hj, _, by rw [hj]; exact Bitten.set_self _ _ _, this⟩
    · exact .inl (if_neg hj)
  all_goals exact .inl rfl

/-- **C99**, `LoadAll` of any stamps, however it ends: each stamp keeps the address of some of the client's bytes, or what it kept. -/
theorem C99_after_load_all {G : Graph} {n : Nat} {cs : List Id} {w : World} {k lo hi : Nat} {buf : Bytes}
    (hs : Spans w.blob k lo hi) (hk : w.mem k = some buf) (hl : hi ≤ buf.length) (hb : buf.length < 2 ^ 63) :
    let w' := ClientCall.run G n w (.loadAll cs)
    w'.mem = w.mem ∧ SpansIn w'.blob k lo hi ∧
      ∀ j, w'.kept j = w.kept j ∨ ∃ v, w'.kept j = some v ∧ SpansIn v k lo hi := by
  obtain ⟨b, e, hin⟩ := hs.blobIn hk hl hb
  obtain ⟨h, h2⟩ := loadAll_has (blobIn_chop buf lo hi) G n cs (fun _ => none, (w.flags, b)) hin (by simp)
  have e' : ClientCall.run G n w (.loadAll cs) = { w with
      kept := fun j => match (loadAll G n cs (fun _ => none, (w.flags, b))).2.1 j with
        | some c => some (w.blob.back c) | none => w.kept j
      blob := w.blob.back (loadAll G n cs (fun _ => none, (w.flags, b))).2.2.2
      flags := (loadAll G n cs (fun _ => none, (w.flags, b))).2.2.1 } := by
    show (w.loadAll G n cs).2 = _
    unfold World.loadAll
    rw [e]
    rfl
  have hbk := BlobIn.back h w.blob
  rw [hs.1] at hbk
  dsimp only
  rw [e']
  refine ⟨rfl, hbk, fun j => ?_⟩
  dsimp only
  cases e1 : (loadAll G n cs (fun _ => none, (w.flags, b))).2.1 j with
  | none => exact .inl rfl
  | some c =>
    have := (h2 j c e1).back w.blob
    rw [hs.1] at this
    exact .inr ⟨_, rfl, this⟩

/-- Every blob there is lies within its buffer. -/
def World.Placed (L : Nat → Nat) (w : World) : Prop :=
  w.mem.Fits L ∧ SpansIn w.blob w.blob.buf 0 (L w.blob.buf) ∧ ∀ j v, w.kept j = some v → SpansIn v v.buf 0 (L v.buf)

theorem Heap.Fits.put {L : Nat → Nat} {H : Heap} (h : H.Fits L) {k : Nat} {x : Option Bytes} (hx : ∀ bs, x = some bs → bs.length = L k) :
    (H.put k x).Fits L := by
  intro j buf hj
  unfold Heap.put at hj
  split at hj
  · next e => rw [e]; exact hx _ hj
  · exact h _ _ hj

theorem SpansIn.same {v : View} {k lo hi lo' hi' : Nat} (h : SpansIn v k lo hi) (h1 : lo' ≤ lo) (h2 : hi ≤ hi') :
    SpansIn v v.buf lo' hi' := by
  obtain ⟨p, q, hs, ha, hb⟩ := h
  exact ⟨p, q, by rw [hs.1]; exact hs, by omega, by omega⟩

theorem placed_run {G : Graph} {n : Nat} {L : Nat → Nat} (hL : ∀ k, L k < 2 ^ 63) {w : World} (hw : w.Placed L) {c : ClientCall}
    (hc : c.Fair L) : (c.run G n w).Placed L := by
  obtain ⟨hm, hb, hk⟩ := hw
  have fromBlob : ∀ w' : World, (w.mem w.blob.buf ≠ none → w'.mem = w.mem ∧ ∃ lo hi, hi ≤ L w.blob.buf ∧
      SpansIn w'.blob w.blob.buf lo hi ∧ ∀ j, w'.kept j = w.kept j ∨ ∃ v, w'.kept j = some v ∧ SpansIn v w.blob.buf lo hi) →
      (w.mem w.blob.buf = none → w' = w) → w'.Placed L := by
    intro w' h1 h2
    by_cases h : w.mem w.blob.buf = none
    · rw [h2 h]; exact ⟨hm, hb, hk⟩
    obtain ⟨e, lo, hi, hh, hb', hk'⟩ := h1 h
    have hbuf : ∀ v : View, SpansIn v w.blob.buf lo hi → SpansIn v v.buf 0 (L v.buf) := by
      intro v hv
      have e : v.buf = w.blob.buf := by obtain ⟨_, _, hs, _⟩ := hv; exact hs.1
      exact hv.same (Nat.zero_le _) (by rw [e]; exact hh)
    refine ⟨by rw [e]; exact hm, hbuf _ hb', fun j v hj => ?_⟩
    rcases hk' j with h3 | ⟨v', h3, h4⟩
    · exact hk j v (by rw [← h3]; exact hj)
    · rw [h3] at hj; cases hj; exact hbuf _ h4
  have nolook : ∀ v : View, w.mem v.buf = none → v.look w.mem = none := by
    intro v h; unfold View.look; rw [h]; rfl
  obtain ⟨p, q, hs, -, hq⟩ := hb
  cases c with
  | load i =>
    refine fromBlob _ (fun h => ?_) (fun h => ?_)
    · obtain ⟨buf, h⟩ := Option.ne_none_iff_exists'.1 h
      have hl := hm _ _ h
      obtain ⟨h1, h2, h3⟩ := C99_after_load (G := G) (n := n) (i := i) hs h (by omega) (by have := hL w.blob.buf; omega)
      exact ⟨h1, p, q, hq, h2, fun j => (h3 j).imp id fun x => x.2⟩
    · show (w.load G n i).2 = w
      unfold World.load; rw [nolook _ h]
  | loadAll cs =>
    refine fromBlob _ (fun h => ?_) (fun h => ?_)
    · obtain ⟨buf, h⟩ := Option.ne_none_iff_exists'.1 h
      have hl := hm _ _ h
      obtain ⟨h1, h2, h3⟩ := C99_after_load_all (G := G) (n := n) (cs := cs) hs h (by omega) (by have := hL w.blob.buf; omega)
      exact ⟨h1, p, q, hq, h2, h3⟩
    · show (w.loadAll G n cs).2 = w
      unfold World.loadAll; rw [nolook _ h]
  | extract i =>
    refine fromBlob _ (fun h => ?_) (fun h => ?_)
    · obtain ⟨buf, h⟩ := Option.ne_none_iff_exists'.1 h
      have hl := hm _ _ h
      obtain ⟨h1, h2, ⟨p', h3, h3'⟩⟩ := C99_after_extract (G := G) (n := n) (i := i) hs h (by omega) (by have := hL w.blob.buf; omega)
      exact ⟨h1, p, q, hq, ⟨p', q, h3, h3', le_refl _⟩, fun j => .inl (by rw [h2])⟩
    · show (w.extract G n i).2 = w
      unfold World.extract; rw [nolook _ h]
  | unload i =>
    have hb : SpansIn w.blob w.blob.buf 0 (L w.blob.buf) := ⟨p, q, hs, Nat.zero_le _, hq⟩
    show (w.unload G n i).2.Placed L
    cases hv : w.kept i with
    | none =>
      have e : (w.unload G n i).2 = w := by unfold World.unload; rw [hv]
      rw [e]; exact ⟨hm, hb, hk⟩
    | some v =>
      cases h : w.mem v.buf with
      | none =>
        have e : (w.unload G n i).2 = w := by unfold World.unload; rw [hv]; dsimp only; rw [nolook _ h]
        rw [e]; exact ⟨hm, hb, hk⟩
      | some buf =>
        have hl := hm _ _ h
        obtain ⟨a, z, ha, -, hz⟩ := hk i v hv
        obtain ⟨h1, h2, ⟨v', p', h3, h4', h4''⟩, h5⟩ := C99_after_unload (G := G) (n := n) hv ha h (by omega) (by have := hL v.buf; omega)
        have h4 : SpansIn v' v.buf a z := ⟨p', z, h4', h4'', le_refl _⟩
        show (ClientCall.run G n w (.unload i)).Placed L
        refine ⟨by rw [h1]; exact hm, by rw [h2]; exact hb, fun j u hj => ?_⟩
        by_cases e : j = i
        · rw [e, h3] at hj
          cases hj
          have e : v'.buf = v.buf := by obtain ⟨_, _, hs, _⟩ := h4; exact hs.1
          exact h4.same (Nat.zero_le _) (by rw [e]; exact hz)
        · rw [h5 j e] at hj; exact hk j u hj
  | blob k m =>
    have hc' : m ≤ L k := hc
    have hLk := hL k
    refine ⟨hm, ⟨0, m, ⟨rfl, rfl, Nat.zero_le _, toSz_lt _, ?_⟩, le_refl _, hc'⟩, hk⟩
    show 0 + (toSz ((m : Int) - 1) + 1) % 2 ^ 64 = m
    unfold toSz; omega
  | write k bs => exact ⟨hm.put (by intro b hb; cases hb; exact hc), ⟨p, q, hs, Nat.zero_le _, hq⟩, hk⟩
  | free k => exact ⟨hm.put (by intro b hb; cases hb), ⟨p, q, hs, Nat.zero_le _, hq⟩, hk⟩

/-- **C99**, every program: whatever the client does, in whatever order and however its calls end, with buffers of less than 2^63 bytes
and blobs made of bytes that are there, each loaded stamp is about bytes `lo` up to `hi` of one of its buffers. If that buffer has not
been freed, the next `UnloadStr()` gives the text of what these bytes are now; if it has been, the behaviour is undefined. -/
theorem C99_program {G : Graph} {n : Nat} {L : Nat → Nat} (hL : ∀ k, L k < 2 ^ 63) {H : Heap} (hH : H.Fits L) (fl : Flags) {k m : Nat}
    (hm : m ≤ L k) {cs : List ClientCall} (hc : ∀ c ∈ cs, c.Fair L) {i : Id} {v : View} :
    let w := cs.foldl (ClientCall.run G n) ⟨H, fun _ => none, View.make k m, fl⟩
    w.kept i = some v → ∃ b lo hi, Spans v b lo hi ∧ hi ≤ L b ∧
      (∀ buf, w.mem b = some buf → ∀ o, WUnloads G i w o ↔ TextOf G w.flags i (bytesAt buf lo hi) o) ∧
      (w.mem b = none → WUnloads G i w (.ub .nullDeref)) := by
  intro w hv
  have h0 : (⟨H, fun _ => none, View.make k m, fl⟩ : World).Placed L := by
    have := placed_run (G := G) (n := n) hL (w := ⟨H, fun _ => none, View.make k 0, fl⟩) (c := .blob k m)
      ⟨hH, ⟨0, 0, by unfold Spans; exact ⟨rfl, rfl, le_refl _, by show toSz (((0 : Nat) : Int) - 1) < 2 ^ 64; decide, by show 0 + (toSz (((0 : Nat) : Int) - 1) + 1) % 2 ^ 64 = 0; decide⟩, le_refl _, Nat.zero_le _⟩, by simp⟩ hm
    exact this
  have hall : ∀ (cs : List ClientCall) (w : World), w.Placed L → (∀ c ∈ cs, c.Fair L) →
      (cs.foldl (ClientCall.run G n) w).Placed L := by
    intro cs
    induction cs with
    | nil => exact fun w hw _ => hw
    | cons c cs ih =>
      exact fun w hw hf => ih _ (placed_run hL hw (hf c List.mem_cons_self)) fun d hd => hf d (List.mem_cons_of_mem _ hd)
  obtain ⟨hm', -, hk'⟩ := hall cs _ h0 hc
  obtain ⟨p, q, hs, -, hq⟩ := hk' i v hv
  refine ⟨v.buf, p, q, hs, hq, fun buf hb o => ?_, fun hb => C99_freed hv hb⟩
  have hl : buf.length = L v.buf := hm' _ _ hb
  have := hL v.buf
  exact C99_unload hv hs hb (by omega) (by omega) o

/-- One-byte numbers everywhere. -/
def byteStamps : Graph := fun _ => some (.arith .u8)

/-- Two bytes, 65 and 66, and a blob about them. -/
def memAB : World := ⟨fun _ => some [65, 66], fun _ => none, View.make 0 2, Flags.init⟩

theorem memAB_spans : Spans memAB.blob 0 0 2 := by unfold Spans; decide

/-- A stamp is loaded from 65; the client turns the two bytes into 90 and 91; the stamp says 90, and a second stamp, 91. -/
example : let w1 := (World.load byteStamps 2 0 memAB).2
    let w2 := { w1 with mem := w1.mem.put 0 (some [90, 91]) }
    (World.unload byteStamps 2 0 w1).1 = .ok (str "65") ∧ (World.unload byteStamps 2 0 w2).1 = .ok (str "90") ∧
      (World.extract byteStamps 2 1 w2).1 = .ok (str "91") ∧
      (World.unload byteStamps 2 0 { w1 with mem := w1.mem.put 0 none }).1 = .ub .nullDeref := by decide +kernel

example : ∃ w1, WLoads byteStamps 0 memAB (.ok ()) w1 ∧ w1.mem = memAB.mem ∧ ∀ o,
    WUnloads byteStamps 0 { w1 with mem := w1.mem.put 0 (some [90, 91]) } o ↔ TextOf byteStamps Flags.init 0 [90] o :=
  C99_load_change_unload (mn := 1) (mx := 1) memAB_spans rfl (by decide) (by decide) (SizeRuns.intro (n := 1) rfl)
    (SizeRuns.intro (n := 1) rfl) (by decide) (by decide) (.inr (by decide)) (by decide) rfl

/-- Two stamps are loaded as a set, and one is read, changed, and read again; then the memory is freed. -/
example : let w := [ClientCall.loadAll [0, 1], .write 0 [90, 91]].foldl (ClientCall.run byteStamps 3) memAB
    (World.unload byteStamps 3 0 w).1 = .ok (str "90") ∧ (World.unload byteStamps 3 1 w).1 = .ok (str "91") ∧
      (World.unload byteStamps 3 1 (ClientCall.run byteStamps 3 w (.unload 1))).1 = .outOfData ∧
      (World.unload byteStamps 3 1 (ClientCall.run byteStamps 3 w (.free 0))).1 = .ub .nullDeref := by decide +kernel

example : ∃ b lo hi, Spans ⟨0, 1, 0, 0⟩ b lo hi ∧ hi ≤ 2 := by
  have h := C99_program (G := byteStamps) (n := 3) (L := fun _ => 2) (fun _ => by decide) (H := fun _ => some [65, 66])
    (by intro k b h; cases h; rfl) Flags.init (k := 0) (m := 2) (by decide) (cs := [.loadAll [0, 1], .write 0 [90, 91]])
    (by simp [ClientCall.Fair]) (i := 1) (v := ⟨0, 1, 0, 0⟩) (by decide +kernel)
  obtain ⟨b, lo, hi, h1, h2, -⟩ := h
  exact ⟨b, lo, hi, h1, h2⟩

end BS
