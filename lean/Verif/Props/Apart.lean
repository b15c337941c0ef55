import Verif.Props.Shared
import Verif.Props.Arith

/-!
# C99: stamps loaded together have bytes of their own
-/

namespace BS

/-- The blob is about the bytes from `a` up to `z` of the buffer. -/
def Lies (buf : Bytes) (c : Blob) (a z : Nat) : Prop := c.Valid ∧ ∃ o, c.data = .at buf o ∧ o + c.beg = a ∧ o + c.stop = z

theorem Lies.le {buf : Bytes} {c : Blob} {a z : Nat} (h : Lies buf c a z) : a ≤ z := by
  obtain ⟨hv, o, -, h1, h2⟩ := h
  have := hv.beg_le
  omega

/-- The blobs lie one after the other between `x` and `y`. -/
def Tiles (buf : Bytes) : List Blob → Nat → Nat → Prop
  | [], x, y => x ≤ y
  | c :: r, x, y => ∃ a z, x ≤ a ∧ Lies buf c a z ∧ Tiles buf r z y

theorem Tiles.from_ {buf : Bytes} {l : List Blob} {x x' y : Nat} (h : Tiles buf l x y) (hx : x' ≤ x) : Tiles buf l x' y := by
  cases l with
  | nil => exact hx.trans h
  | cons c r => obtain ⟨a, z, h1, h2⟩ := h; exact ⟨a, z, hx.trans h1, h2⟩

theorem Tiles.all {buf : Bytes} {l : List Blob} {x y : Nat} (h : Tiles buf l x y) :
    x ≤ y ∧ ∀ c ∈ l, ∃ a z, Lies buf c a z ∧ x ≤ a ∧ z ≤ y := by
  induction l generalizing x with
  | nil => exact ⟨h, by simp⟩
  | cons c r ih =>
    obtain ⟨a, z, h1, h2, h3⟩ := h
    obtain ⟨h4, h5⟩ := ih h3
    have := h2.le
    refine ⟨by omega, fun d hd => ?_⟩
    rcases List.mem_cons.1 hd with rfl | hd
    · exact ⟨a, z, h2, h1, h4⟩
    · obtain ⟨a', z', h6, h7, h8⟩ := h5 d hd
      exact ⟨a', z', h6, by omega, h8⟩

/-- Two blobs of which one ends before the other begins. -/
def LieApart (buf : Bytes) (x y : Nat) (c d : Blob) : Prop :=
  ∃ a z a' z', Lies buf c a z ∧ Lies buf d a' z' ∧ x ≤ a ∧ x ≤ a' ∧ z ≤ y ∧ z' ≤ y ∧ (z ≤ a' ∨ z' ≤ a)

theorem Tiles.pairwise {buf : Bytes} {l : List Blob} {x x0 y : Nat} (h : Tiles buf l x y) (h0 : x0 ≤ x) :
    l.Pairwise (LieApart buf x0 y) := by
  induction l generalizing x with
  | nil => exact .nil
  | cons c r ih =>
    obtain ⟨a, z, h1, h2, h3⟩ := h
    have hle := h2.le
    refine .cons (fun d hd => ?_) (ih h3 (by omega))
    obtain ⟨h4, h5⟩ := h3.all
    obtain ⟨a', z', h6, h7, h8⟩ := h5 d hd
    exact ⟨a, z, a', z', h2, h6, by omega, by omega, h4, h8, .inl h7⟩

/-- Same memory, same end, not before `g`. -/
def AtPlace (d : Ptr) (f g : Nat) (b : Blob) : Prop := b.Valid ∧ b.data = d ∧ b.fin = f ∧ g ≤ b.beg

/-- On success the pieces lie one after the other between the old and the new beginning of the blob. -/
def Tiled (buf : Bytes) (m : M Blob (List Blob)) : Prop := ∀ o b l b', b.Valid → b.data = .at buf o → m b = (.ok l, b') →
  Tiles buf l (o + b.beg) (o + b'.beg)

namespace Tiled
variable {buf : Bytes} {α : Type}

theorem nil : Tiled buf (Pure.pure []) := by
  intro o b l b' _ _ h; cases h; exact le_refl _

theorem out {x : Out (List Blob)} (h : ∀ l, x ≠ .ok l) : Tiled buf (M.out x) := by
  intro o b l b' _ _ e; cases e; exact absurd rfl (h l)

theorem bind {m : M Blob α} {f : α → M Blob (List Blob)} (h : ∀ d e g, Stays (AtPlace d e g) m) (hf : ∀ x, Tiled buf (f x)) :
    Tiled buf (m >>= f) := by
  intro o b l b' hv hd e
  obtain ⟨x, b1, h1, h2⟩ := M.bind_eq_ok.1 e
  have hp := h b.data b.fin b.beg b ⟨hv, rfl, rfl, le_refl _⟩
  rw [h1] at hp
  exact (hf x o b1 l b' hp.1 (hp.2.1.trans hd) h2).from_ (by have := hp.2.2.2; dsimp only at this; omega)

theorem ite {c : Prop} [Decidable c] {m n : M Blob (List Blob)} (h : Tiled buf m) (h' : Tiled buf n) :
    Tiled buf (if c then m else n) := by split <;> assumption

theorem cons {r : M Blob (List Blob)} (k : Nat) (h : Tiled buf r) :
    Tiled buf (BlobLike.chop k >>= fun c => r >>= fun l => Pure.pure (c :: l)) := by
  intro o b y b' hv hd e
  obtain ⟨c, b1, h1, e⟩ := M.bind_eq_ok.1 e
  obtain ⟨l, b2, h2, e⟩ := M.bind_eq_ok.1 e
  cases e
  have h1' : Blob.chop k b = (.ok c, b1) := h1
  have hk : ¬ b.size < k := by
    intro hk; unfold Blob.chop at h1'; rw [if_pos hk] at h1'; cases h1'
  obtain ⟨c', b1', e, vc, vb, -⟩ := Blob.chop_ok hv (n := k) (by omega)
  rw [h1'] at e
  cases e
  have hsz := hv.size_eq
  have hle := hv.beg_le
  have hst := hv.stop_lt
  have hm := hv.2
  rw [hd] at hm
  dsimp only at hm
  unfold Blob.chop at h1'
  rw [if_neg hk, hd, Ptr.add_at, if_pos (by omega)] at h1'
  obtain ⟨e1, e2⟩ := Prod.mk.inj h1'
  have e1' := Out.ok.inj e1
  have hc : c.stop = k := by
    rw [← e1']; unfold Blob.mk' Blob.stop toSz; dsimp only; omega
  have hb' : b1.beg = b.beg + k := by
    rw [← e2]; dsimp only; unfold toSz; omega
  have hc0 : c.beg = 0 := by rw [← e1']; rfl
  have h3 := h o b1 l _ vb (by rw [← e2]) h2
  exact ⟨o + b.beg, o + b1.beg, le_refl _, ⟨vc, o + b.beg, by rw [← e1']; rfl, by omega, by omega⟩, h3⟩
end Tiled

theorem place_chop (d : Ptr) (f g k : Nat) : Stays (AtPlace d f g) (BlobLike.chop k : M Blob Blob) := stays_place d f g k

theorem tiled_setChopLoop (buf : Bytes) (kv ku : FV) (ss : List SizePair) (ms : List FV) (v u : FV) :
    Tiled buf (setChopLoop kv ku ss ms v u) := by
  have hl : ∀ {α : Type} (x : Out α) d e g, Stays (AtPlace d e g) (M.lift x : M Blob α) := fun x _ _ _ => .lift x
  induction ss generalizing ms v u with
  | nil => unfold setChopLoop; exact .nil
  | cons s ss ih =>
    cases ms with
    | nil => unfold setChopLoop; exact .nil
    | cons m ms =>
      unfold setChopLoop
      exact .ite (.bind (hl _) fun _ => .bind (hl _) fun _ => .cons _ (ih _ _ _)) (.ite (.cons _ (ih _ _ _))
        (.bind (hl _) fun _ => .bind (hl _) fun _ => .bind (hl _) fun _ => .cons _ (ih _ _ _)))

theorem tiled_setSplit (buf : Bytes) (ss : List SizePair) : Tiled buf (setSplit ss) := by
  have hl : ∀ {α : Type} (x : Out α) d e g, Stays (AtPlace d e g) (M.lift x : M Blob α) := fun x _ _ _ => .lift x
  have ho : ∀ d e g, Stays (AtPlace d e g) (oracle : M Blob Nat) := fun d e g => stays_oracle (place_chop d e g)
  unfold setSplit setLimit
  exact .bind (hl _) fun _ => .bind (fun _ _ _ => .get) fun _ => .ite (.out (by simp)) (.bind
    (fun d e g => .ite (.bind (ho d e g) fun _ => .bind (hl _ d e g) fun _ => .pure _) (.pure _)) fun _ =>
    .bind (fun d e g => stays_setModLoop (place_chop d e g) _ _ _ _) fun _ => .bind (hl _) fun _ => .bind (hl _) fun _ =>
      tiled_setChopLoop buf _ _ _ _ _ _)

/-- **C99**, `LoadAll` of stamps that were not loaded before, however it ends: two different stamps have bytes of their own, and none of
them is among those that are left in the client's blob. -/
theorem C99_apart {G : Graph} {n : Nat} {cs : List Id} {w : World} {k lo hi : Nat} {buf : Bytes}
    (hs : Spans w.blob k lo hi) (hk : w.mem k = some buf) (hl : hi ≤ buf.length) (hb : buf.length < 2 ^ 63) {i j : Id} (hij : i ≠ j)
    (hi0 : w.kept i = none) (hj0 : w.kept j = none) {u v : View} (hu : (ClientCall.run G n w (.loadAll cs)).kept i = some u)
    (hv : (ClientCall.run G n w (.loadAll cs)).kept j = some v) :
    ∃ p q r s t, Spans u k p q ∧ Spans v k r s ∧ Spans (ClientCall.run G n w (.loadAll cs)).blob k t hi ∧ lo ≤ p ∧ lo ≤ r ∧ q ≤ t ∧ s ≤ t ∧
      (q ≤ r ∨ s ≤ p) := by
  obtain ⟨e, hr, -⟩ := hs.look hk hl hb
  set b : Blob := ⟨.at buf w.blob.off, w.blob.beg, w.blob.fin⟩ with hbd
  have e' : (ClientCall.run G n w (.loadAll cs)) = { w with
      kept := fun j => match (loadAll G n cs (fun _ => none, (w.flags, b))).2.1 j with
        | some c => some (w.blob.back c) | none => w.kept j
      blob := w.blob.back (loadAll G n cs (fun _ => none, (w.flags, b))).2.2.2
      flags := (loadAll G n cs (fun _ => none, (w.flags, b))).2.2.1 } := by
    show (w.loadAll G n cs).2 = _
    unfold World.loadAll
    rw [e]
    rfl
  rw [e'] at hu hv ⊢
  dsimp only at hu hv ⊢
  set m : XM Blob (List Blob) := (do
    let mns ← liftF (queryAll (sizeQ G n .min) cs)
    let mxs ← liftF (queryAll (sizeQ G n .max) cs)
    liftB (setSplit (mns.zip mxs))) with hm
  have hL := loadAll_eq G n cs ((fun _ => none), (w.flags, b))
  rw [← hm] at hL
  dsimp only at hL
  have hpl : Stays (fun s => AtPlace b.data b.fin b.beg s.2) m :=
    .bind (stays_liftF _) fun _ => .bind (stays_liftF _) fun _ => stays_liftB (stays_setSplit (place_chop _ _ _) _)
  have hp := hpl (w.flags, b) ⟨hr.valid, rfl, rfl, le_refl _⟩
  rcases em : m (w.flags, b) with ⟨o, s'⟩
  rw [em] at hp hL
  cases o with
  | ok blobs =>
    dsimp only at hL hp
    rw [hL] at hu hv ⊢
    dsimp only at hu hv ⊢
    obtain ⟨hv', hdat, hf', hg'⟩ := hp
    have ht : Tiles buf blobs lo (w.blob.off + s'.2.beg) := by
      rw [hm] at em
      obtain ⟨_, t1, e1, em⟩ := M.bind_eq_ok.1 em
      obtain ⟨_, t2, e2, em⟩ := M.bind_eq_ok.1 em
      have h2 : t2.2 = b := by rw [← (Prod.mk.inj e2).2]; dsimp only; rw [← (Prod.mk.inj e1).2]
      have h3 : setSplit _ t2.2 = (.ok blobs, s'.2) := Prod.ext (Prod.mk.inj em).1 (by rw [← (Prod.mk.inj em).2])
      rw [h2] at h3
      have := tiled_setSplit buf _ w.blob.off b blobs s'.2 hr.valid rfl h3
      rw [← hs.2.1]
      exact this
    have kept_of : ∀ {x : Id} {y : View}, w.kept x = none →
        (match (loadEach G n (cs.zip blobs) (fun _ => none, s'.1)).2.1 x with
          | some c => some (w.blob.back c) | none => w.kept x) = some y →
        ∃ d, (x, d) ∈ cs.zip blobs ∧ ∀ a z, Lies buf d a z → SpansIn y k a z := by
      intro x y hx hy
      cases ec : (loadEach G n (cs.zip blobs) (fun _ => none, s'.1)).2.1 x with
      | none => rw [ec] at hy; dsimp only at hy; rw [hx] at hy; cases hy
      | some c =>
        rw [ec] at hy
        cases hy
        rcases loadEach_from G n _ _ ec with h | ⟨d, fl, hd, hc⟩
        · cases h
        · refine ⟨d, hd, fun a z hLz => ?_⟩
          obtain ⟨dv, o, do_, h1, h2⟩ := hLz
          have := (loadPiece_has (blobIn_chop buf a z) (s := (fl, d)) ⟨dv, o, do_, h1.ge, h2.le⟩ hc).back w.blob
          rw [hs.1] at this
          exact this
    obtain ⟨d, hd, Hd⟩ := kept_of hi0 hu
    obtain ⟨d', hd', Hd'⟩ := kept_of hj0 hv
    have hpw : ∀ (xs : List Id) (bl : List Blob), bl.Pairwise (LieApart buf lo (w.blob.off + s'.2.beg)) →
        (xs.zip bl).Pairwise fun x y => x.1 ≠ y.1 → LieApart buf lo (w.blob.off + s'.2.beg) x.2 y.2 := by
      intro xs bl hbl
      induction xs generalizing bl with
      | nil => exact .nil
      | cons x xs ih =>
        cases bl with
        | nil => exact .nil
        | cons c bl =>
          obtain ⟨h1, h2⟩ := List.pairwise_cons.1 hbl
          exact .cons (fun y hy _ => h1 _ (List.of_mem_zip hy).2) (ih bl h2)
    have hap : LieApart buf lo (w.blob.off + s'.2.beg) d d' := by
      have hsym : ∀ x y : Id × Blob, (x.1 ≠ y.1 → LieApart buf lo (w.blob.off + s'.2.beg) x.2 y.2) →
          (y.1 ≠ x.1 → LieApart buf lo (w.blob.off + s'.2.beg) y.2 x.2) := by
        intro x y h hne
        obtain ⟨a, z, a', z', h1, h2, h3, h4, h5, h6, h7⟩ := h hne.symm
        exact ⟨a', z', a, z, h2, h1, h4, h3, h6, h5, h7.symm⟩
      have hall : ∀ l : List (Id × Blob), (l.Pairwise fun x y => x.1 ≠ y.1 → LieApart buf lo (w.blob.off + s'.2.beg) x.2 y.2) →
          ∀ x ∈ l, ∀ y ∈ l, x.1 ≠ y.1 → LieApart buf lo (w.blob.off + s'.2.beg) x.2 y.2 := by
        intro l h
        induction h with
        | nil => simp
        | cons h1 _ ih =>
          intro x hx y hy
          rcases List.mem_cons.1 hx with rfl | hx' <;> rcases List.mem_cons.1 hy with rfl | hy'
          · exact fun h => absurd rfl h
          · exact h1 y hy'
          · exact hsym _ _ (h1 x hx')
          · exact ih x hx' y hy'
      exact hall _ (hpw cs blobs (ht.pairwise (le_refl _))) (i, d) hd (j, d') hd' hij
    obtain ⟨a, z, a', z', h1, h2, h3, h4, h5, h6, h7⟩ := hap
    obtain ⟨p, q, hpq, hp1, hp2⟩ := Hd a z h1
    obtain ⟨r, s, hrs, hr1, hr2⟩ := Hd' a' z' h2
    have hpq' := hpq.2.2.1
    have hrs' := hrs.2.2.1
    refine ⟨p, q, r, s, w.blob.off + s'.2.beg, hpq, hrs, ?_, by omega, by omega, by omega, by omega, by omega⟩
    have hbk : w.blob.back s'.2 = ⟨w.blob.buf, w.blob.off, s'.2.beg, s'.2.fin⟩ := by unfold View.back; rw [hdat]
    rw [hbk, hf']
    have hle := hv'.beg_le
    have hst : s'.2.stop = (w.blob.fin + 1) % 2 ^ 64 := by unfold Blob.stop; rw [hf']; rfl
    have h5' := hs.2.2.2.2
    exact ⟨hs.1, rfl, by omega, hs.2.2.2.1, h5'⟩
  | _ =>
    dsimp only at hL
    rw [hL] at hu
    dsimp only at hu
    rw [hi0] at hu
    cases hu

/-- **C99**, one byte: of two stamps loaded by one `LoadAll`, a change of one byte of the buffer is seen by at most one. -/
theorem C99_one_byte {G : Graph} {n : Nat} {cs : List Id} {w : World} {k lo hi x : Nat} {buf buf' : Bytes}
    (hs : Spans w.blob k lo hi) (hk : w.mem k = some buf) (hl : hi ≤ buf.length) (hb : buf.length < 2 ^ 63) {i j : Id} (hij : i ≠ j)
    (hi0 : w.kept i = none) (hj0 : w.kept j = none) {u v : View} (hu : (ClientCall.run G n w (.loadAll cs)).kept i = some u)
    (hv : (ClientCall.run G n w (.loadAll cs)).kept j = some v) (hlen : buf'.length = buf.length) (hx : ∀ p, p ≠ x → buf'[p]? = buf[p]?) :
    let w1 := (ClientCall.run G n w (.loadAll cs))
    let w2 := { w1 with mem := w1.mem.put k (some buf') }
    (∀ o, WUnloads G i w2 o ↔ WUnloads G i w1 o) ∨ (∀ o, WUnloads G j w2 o ↔ WUnloads G j w1 o) := by
  obtain ⟨p, q, r, s, t, h1, h2, h3, h4, h5, h6, h7, h8⟩ := C99_apart hs hk hl hb hij hi0 hj0 hu hv
  obtain ⟨hm, -⟩ := C99_after_load_all (G := G) (n := n) (cs := cs) hs hk hl hb
  have ht := h3.2.2.1
  intro w1 w2
  have hk1 : w1.mem k = some buf := by show (ClientCall.run G n w (.loadAll cs)).mem k = _; rw [hm]; exact hk
  have hk2 : w2.mem k = some buf' := if_pos rfl
  by_cases hin : p ≤ x ∧ x < q
  · right
    intro o
    exact C99_elsewhere (w := w1) (w' := w2) hv hv rfl h2 hk1 hk2 (by omega) (by omega) hb (by omega)
      (fun y hy1 hy2 => hx y (by omega)) o
  · left
    intro o
    exact C99_elsewhere (w := w1) (w' := w2) hu hu rfl h1 hk1 hk2 (by omega) (by omega) hb (by omega)
      (fun y hy1 hy2 => hx y (by omega)) o

/-- **C99**, `UnloadValue()` and `UnloadBin()`: the value and the bytes are those that are in the memory now. -/
theorem C99_value {t : ArithTy} {i : Id} {w : World} {v : View} {k lo hi : Nat} {buf : Bytes} (hv : w.kept i = some v)
    (hs : Spans v k lo hi) (hk : w.mem k = some buf) (hl : hi ≤ buf.length) (hb : buf.length < 2 ^ 63) :
    (hi - lo < sizeofT t → (w.unloadValue t i).1 = .outOfData ∧ (w.unloadBin t i).1 = .outOfData) ∧
    (sizeofT t ≤ hi - lo → (∃ x, (w.unloadValue t i).1 = .ok x ∧ HasRepr t x (bytesAt buf lo (lo + sizeofT t))) ∧
      (w.unloadBin t i).1 = .ok (bytesAt buf lo (lo + sizeofT t))) := by
  obtain ⟨e, hr, hh⟩ := hs.look hk hl hb
  have e1 : (w.unloadValue t i).1 = (extractValue t (⟨.at buf v.off, v.beg, v.fin⟩ : Blob)).1 := by
    unfold World.unloadValue; rw [hv]; dsimp only; rw [e]
  have e2 : (w.unloadBin t i).1 = (extractArithBin t (⟨.at buf v.off, v.beg, v.fin⟩ : Blob)).1 := by
    unfold World.unloadBin; rw [hv]; dsimp only; rw [e]
  have hlen : (bytesAt buf lo hi).length = hi - lo := by
    unfold bytesAt; rw [List.length_drop, List.length_take]; have := hs.2.2.1; omega
  obtain ⟨c1, c2⟩ := C06_arith_bijection t hr hh
  rw [hlen] at c1 c2
  rw [e1, e2]
  refine ⟨fun h => ⟨(c1 h).1, (c1 h).2.2.1⟩, fun h => ?_⟩
  have ht : (bytesAt buf lo hi).take (sizeofT t) = bytesAt buf lo (lo + sizeofT t) := by
    unfold bytesAt
    rw [List.drop_take, List.drop_take, List.take_take]
    congr 1
    omega
  obtain ⟨x, h1, h2, _, h3, _⟩ := c2 h
  rw [ht] at h2 h3
  exact ⟨⟨x, h1, h2⟩, h3⟩

/-- A stamp loaded from 65; the memory changes to 90. -/
example : let w1 := (World.load byteStamps 2 0 memAB).2
    let w2 := { w1 with mem := w1.mem.put 0 (some [90, 91]) }
    (w1.unloadValue .u8 0).1 = .ok (.int 65) ∧ (w2.unloadValue .u8 0).1 = .ok (.int 90) ∧ (w2.unloadBin .u8 0).1 = .ok [90] ∧
      (w2.unloadValue .u16 0).1 = .outOfData := by decide +kernel

/-- Two stamps of one byte each: the first has 65, the second 66. -/
example : ∃ p q r s t, Spans ⟨0, 0, 0, 0⟩ 0 p q ∧ Spans ⟨0, 1, 0, 0⟩ 0 r s ∧
    Spans ((ClientCall.run byteStamps 3 memAB (.loadAll [0, 1])).blob) 0 t 2 ∧ 0 ≤ p ∧ 0 ≤ r ∧ q ≤ t ∧ s ≤ t ∧ (q ≤ r ∨ s ≤ p) :=
  C99_apart (i := 0) (j := 1) memAB_spans rfl (by decide) (by decide) (by decide) rfl rfl (by decide +kernel) (by decide +kernel)

/-- The second byte becomes 91: the first stamp still says 65, the second says 91. -/
example : let w1 := (ClientCall.run byteStamps 3 memAB (.loadAll [0, 1]))
    let w2 := { w1 with mem := w1.mem.put 0 (some [65, 91]) }
    (World.unload byteStamps 3 0 w2).1 = .ok (str "65") ∧ (World.unload byteStamps 3 1 w1).1 = .ok (str "66") ∧
      (World.unload byteStamps 3 1 w2).1 = .ok (str "91") := by decide +kernel

end BS
