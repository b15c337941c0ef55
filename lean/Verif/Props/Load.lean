import Verif.Spec.Load
import Verif.Lemmas.Returns
import Verif.Lemmas.Invert
import Verif.Lemmas.Infix
import Verif.Props.GalleySet
import Verif.Props.Enough

/-!
# C43 and C44: loading and unloading
-/

namespace BS

/-- Bytes `Load` takes off a blob of `len` bytes for a stamp of this `maxSize()`. -/
def loadTake (mx : Int) (len : Nat) : Nat := if mx = -1 then len else min mx.toNat len

theorem reach_chop {b c b' : Blob} {n : Nat} (hr : Reachable b) (h : Blob.chop n b = (.ok c, b')) :
    Reachable c ∧ Reachable b' :=
  ⟨.piece (c := .one n) hr h, .rest (c := .one n) hr h⟩

theorem Holds.size {b : Blob} {bs : Bytes} (hr : Reachable b) (hh : Holds b bs) : b.size = bs.length := by
  rw [holds_iff hr.valid] at hh
  rw [← hh, hr.valid.abs_length]

theorem chop_holds {b : Blob} {bs : Bytes} (hr : Reachable b) (hh : Holds b bs) {n : Nat} (hn : n ≤ bs.length) :
    ∃ c b', Blob.chop n b = (.ok c, b') ∧ Reachable c ∧ Reachable b' ∧ Holds c (bs.take n) ∧ Holds b' (bs.drop n) := by
  obtain ⟨c, b', h, h1, h2, h3, h4, _⟩ := Blob.chop_ok hr.valid (n := n) (by rw [Holds.size hr hh]; exact hn)
  obtain ⟨r1, r2⟩ := reach_chop hr h
  rw [holds_iff hr.valid] at hh
  refine ⟨c, b', h, r1, r2, ?_, ?_⟩
  · rw [holds_iff h1, h3, hh]
  · rw [holds_iff h2, h4, hh]

section
variable {G : Graph} {fl : Flags} {i : Id} {mn mx : Int} {b : Blob} {bs : Bytes}

theorem loadPiece_short {n : Nat} (hmin : sizeQ G n .min i fl = (.ok mn, fl)) (h0 : 0 ≤ mn) (h1 : mn ≤ INT_MAX)
    (hr : Reachable b) (hh : Holds b bs) (hl : (bs.length : Int) < mn) :
    loadPiece G n i (fl, b) = (.outOfData, (fl, b)) := by
  unfold loadPiece
  have e1 : (liftF (sizeQ G n .min i) : XM Blob Int) (fl, b) = (.ok mn, (fl, b)) := by
    unfold liftF; rw [hmin]
  rw [M.bind_ok e1, M.bind_ok (show (curSize : XM Blob Nat) (fl, b) = (.ok b.size, (fl, b)) from rfl),
    toSz_of_nonneg h0 (by omega), if_pos (by rw [Holds.size hr hh]; omega)]
  rfl

theorem loadPiece_ok {n : Nat} (hmin : sizeQ G n .min i fl = (.ok mn, fl)) (hmax : sizeQ G n .max i fl = (.ok mx, fl))
    (h0 : 0 ≤ mn) (h1 : mn ≤ INT_MAX) (hx : mx = -1 ∨ (0 ≤ mx ∧ mx ≤ INT_MAX)) (hl : mn ≤ bs.length)
    (hr : Reachable b) (hh : Holds b bs) :
    loadPiece G n i (fl, b) =
      ((Blob.chop (loadTake mx bs.length) b).1, (fl, (Blob.chop (loadTake mx bs.length) b).2)) := by
  unfold loadPiece
  have e1 : (liftF (sizeQ G n .min i) : XM Blob Int) (fl, b) = (.ok mn, (fl, b)) := by
    unfold liftF; rw [hmin]
  have e2 : (liftF (sizeQ G n .max i) : XM Blob Int) (fl, b) = (.ok mx, (fl, b)) := by
    unfold liftF; rw [hmax]
  rw [M.bind_ok e1, M.bind_ok (show (curSize : XM Blob Nat) (fl, b) = (.ok b.size, (fl, b)) from rfl),
    toSz_of_nonneg h0 (by omega), Holds.size hr hh, if_neg (by omega), M.bind_ok e2]
  unfold loadTake
  by_cases hm : mx = -1
  · rw [if_pos hm, if_pos hm]; rfl
  · rw [if_neg hm, if_neg hm, M.bind_ok e2]
    have hx' := hx.resolve_left hm
    rw [toSz_of_nonneg hx'.1 (by omega)]
    have : (if bs.length < mx.toNat then bs.length else mx.toNat) = min mx.toNat bs.length := by
      split <;> omega
    rw [this]
    rfl

/-- **C43**, `Load` for every stamp whose sizes are known: it throws `OutOfData`, leaving blob and
stamps unchanged, when the blob holds fewer than `minSize()` bytes; otherwise the stamp keeps the first
`maxSize()` bytes (all of them, if the stamp is unbounded or the blob is shorter) and they are gone from
the blob. -/
theorem C43_load (hmin : HasMin G fl i mn) (hmax : HasMax G fl i mx) (h0 : 0 ≤ mn) (h1 : mn ≤ INT_MAX)
    (hx : mx = -1 ∨ (0 ≤ mx ∧ mx ≤ INT_MAX)) (bt : Bitten Blob) (hr : Reachable b) (hh : Holds b bs) :
    ((bs.length : Int) < mn → Loads G fl bt i b .outOfData bt b) ∧
    (mn ≤ bs.length → ∃ c b', Loads G fl bt i b (.ok ()) (bt.set i c) b' ∧ Reachable c ∧ Reachable b' ∧
      Holds c (bs.take (if mx = -1 then bs.length else mx.toNat)) ∧
      Holds b' (bs.drop (if mx = -1 then bs.length else mx.toNat))) := by
  obtain ⟨N, hN⟩ := hmin
  obtain ⟨N', hN'⟩ := hmax
  constructor
  · intro hl
    refine ⟨N, fun n hn => ?_⟩
    unfold load
    rw [loadPiece_short (hN n hn) h0 h1 hr hh hl]
    rfl
  · intro hl
    obtain ⟨c, b', h, r1, r2, k1, k2⟩ := chop_holds hr hh (n := loadTake mx bs.length) (by
      unfold loadTake; split <;> omega)
    have e1 : bs.take (loadTake mx bs.length) = bs.take (if mx = -1 then bs.length else mx.toNat) := by
      unfold loadTake
      split
      · rfl
      · rw [← List.take_take, List.take_length]
    have e2 : bs.drop (loadTake mx bs.length) = bs.drop (if mx = -1 then bs.length else mx.toNat) := by
      unfold loadTake
      split
      · rfl
      · by_cases hc : mx.toNat ≤ bs.length
        · rw [min_eq_left hc]
        · rw [min_eq_right (by omega), List.drop_length, List.drop_of_length_le (by omega)]
    refine ⟨c, b', ⟨max N N', fun n hn => ?_⟩, r1, r2, e1 ▸ k1, e2 ▸ k2⟩
    unfold load
    rw [loadPiece_ok (hN n (by omega)) (hN' n (by omega)) h0 h1 hx hl hr hh, h]
    rfl

end

theorem Bitten.set_self {β : Type} (bt : Bitten β) (i : Id) (c : β) : bt.set i c i = some c := if_pos rfl
theorem Bitten.set_ne {β : Type} (bt : Bitten β) {i j : Id} (c : β) (h : j ≠ i) : bt.set i c j = bt j := if_neg h
theorem Bitten.set_set {β : Type} (bt : Bitten β) (i : Id) (c d : β) : (bt.set i c).set i d = bt.set i d := by
  funext j; unfold Bitten.set; split <;> rfl

/-- `UnloadStr()` extracts from the kept blob. -/
theorem unload_iff {G : Graph} {fl : Flags} {bt : Bitten Blob} {i : Id} {c : Blob} (hc : bt i = some c) {o : Out Bytes}
    {bt' : Bitten Blob} :
    Unloads G fl bt i o bt' ↔ ∃ c', Extracts G fl i c o fl c' ∧ bt' = bt.set i c' := by
  have key : ∀ n, unloadStr G n i (bt, fl) = ((extract G n i (fl, c)).1,
      (bt.set i (extract G n i (fl, c)).2.2, (extract G n i (fl, c)).2.1)) := by
    intro n; unfold unloadStr unload; dsimp only; rw [hc]
  constructor
  · rintro ⟨N, h⟩
    have e := fun n hn => (key n).symm.trans (h n hn)
    have e2 : ∀ n ≥ N, (extract G n i (fl, c)).2.2 = (extract G N i (fl, c)).2.2 := by
      intro n hn
      have h1 := congrArg (fun r => r.2.1 i) ((e n hn).trans (e N le_rfl).symm)
      simp only [Bitten.set_self] at h1
      exact Option.some.inj h1
    refine ⟨(extract G N i (fl, c)).2.2, ⟨N, fun n hn => ?_⟩, ?_⟩
    · have := e n hn
      exact Prod.ext (Prod.mk.inj this).1 (Prod.ext (Prod.mk.inj (Prod.mk.inj this).2).2 (e2 n hn))
    · exact (congrArg (fun r => r.2.1) (e N le_rfl)).symm
  · rintro ⟨c', ⟨N, h⟩, rfl⟩
    exact ⟨N, fun n hn => by rw [key, h n hn]⟩

/-! ## Stamps that read only what `Load` keeps -/

/-- On the remaining bytes: the same string with or without what lies beyond `k`, and `k` bytes are
taken. -/
def Exact (m : M ABlob Bytes) (mn k : Nat) (a : ABlob) : Prop :=
  (∀ s a', m a = (.ok s, a') ↔ mn ≤ a.length ∧ a' = a.drop k ∧ ∃ r, m (a.take k) = (.ok s, r))

theorem exact_arith (t : ArithTy) (a : ABlob) : Exact (extractArithStr t) t.size t.size a := by
  intro s a'
  rw [extractArithStr_abs, extractArithStr_abs]
  by_cases h : a.length < t.size
  · rw [if_pos h]
    constructor
    · intro e; cases e
    · intro ⟨h', _⟩; omega
  · rw [if_neg h, if_neg (by rw [List.length_take]; omega), List.take_take, min_self]
    constructor
    · intro e
      obtain ⟨e1, e2⟩ := Prod.mk.inj e
      exact ⟨by omega, e2.symm, _, Prod.ext e1 rfl⟩
    · rintro ⟨_, rfl, r, e⟩
      exact Prod.ext (Prod.mk.inj e).1 rfl

theorem exact_dict (ws : List Bytes) (a : ABlob) :
    Exact (extractDict ws) (chooseStampSize ws.length).1 (chooseStampSize ws.length).1 a := by
  obtain ⟨ty, hty, _⟩ := chooseStampSize_ty ws.length
  have hu := uOracle_abs hty
  intro s a'
  unfold extractDict
  by_cases h : a.length < (chooseStampSize ws.length).1
  · rw [M.bind_ood (by rw [hu, if_pos h])]
    constructor
    · intro e; cases e
    · intro ⟨h', _⟩; omega
  · rw [M.bind_ok (by rw [hu, if_neg h]), M.bind_ok (s := a.take _) (by rw [hu, if_neg (by rw [List.length_take]; omega)]),
      List.take_take, min_self]
    generalize (chooseStampSize ws.length).1 = w at *
    constructor
    · intro e
      obtain ⟨x, s1, h1, h2⟩ := M.bind_eq_ok.1 e
      cases h1' : scaledIndex (leNat (List.take w a)) (chooseStampSize ws.length).2 ws.length with
      | ok v =>
        rw [h1'] at h1
        cases h1
        obtain ⟨e1, e2⟩ := Prod.mk.inj h2
        refine ⟨by omega, e2.symm, (a.take w).drop w, ?_⟩
        rw [M.bind_ok (show (M.lift (.ok x) : M ABlob Int) _ = (.ok x, _) from rfl)]
        exact Prod.ext e1 rfl
      | _ => rw [h1'] at h1; cases h1
    · rintro ⟨_, rfl, r, e⟩
      obtain ⟨x, s1, h1, h2⟩ := M.bind_eq_ok.1 e
      cases h1' : scaledIndex (leNat (List.take w a)) (chooseStampSize ws.length).2 ws.length with
      | ok v =>
        rw [h1'] at h1
        cases h1
        obtain ⟨e1, e2⟩ := Prod.mk.inj h2
        rw [M.bind_ok (show (M.lift (.ok x) : M ABlob Int) _ = (.ok x, _) from rfl)]
        exact Prod.ext e1 rfl
      | _ => rw [h1'] at h1; cases h1

theorem exact_text (f : UInt8 → UInt8) (a : ABlob) (hb : a.length < W64) :
    Exact (extractText f) 1 a.length a := by
  intro s a'
  rw [List.take_length, List.drop_length, extractText_abs f a hb]
  by_cases h : a.length = 0
  · rw [if_pos h]
    constructor
    · intro e; cases e
    · intro ⟨h', _⟩; omega
  · rw [if_neg h]
    constructor
    · intro e; cases e; exact ⟨by omega, rfl, _, rfl⟩
    · rintro ⟨_, rfl, r, e⟩; cases e; rfl

/-- The stamps of C43: arithmetic, dictionary and text. -/
def Node.Simple : Node → Prop
  | .arith _ | .dict _ | .latin1 | .ascii => True
  | _ => False

theorem simple_sizes {G : Graph} {fl : Flags} {i : Id} {nd : Node} (hG : G i = some nd) (hs : nd.Simple) :
    ∃ (mn : Nat) (mx : Int), HasMin G fl i mn ∧ HasMax G fl i mx ∧ 1 ≤ mn ∧ mn ≤ 8 ∧ (mx = -1 ∨ mx = mn) ∧
      ∀ n a, List.length a < W64 → ∃ m : M ABlob Bytes, extract G (n + 1) i = liftB m ∧
        Exact m mn (if mx = -1 then a.length else mx.toNat) a := by
  have hq : ∀ n sel, sizeQ G (n + 1) sel i = sizeQ (fun _ => some nd) (n + 1) sel i := by
    intro n sel
    cases nd <;> first | (cases hs; done) | (unfold sizeQ; rw [hG])
  have hsz : ∀ (sel : Sel) (v : Int), (∀ n, sizeQ (fun _ => some nd) (n + 1) sel i fl = (.ok v, fl)) →
      SizeRuns G fl sel i v fl := by
    intro sel v h
    refine ⟨1, fun n hn => ?_⟩
    obtain ⟨m, rfl⟩ : ∃ m, n = m + 1 := ⟨n - 1, by omega⟩
    rw [hq, h]
  cases nd with
  | arith t =>
    refine ⟨t.size, t.size, hsz _ _ fun _ => rfl, hsz _ _ fun _ => rfl, ?_, ?_, .inr rfl, fun n a ha =>
      ⟨extractArithStr t, ?_, ?_⟩⟩
    · cases t <;> decide
    · cases t <;> decide
    · unfold extract; rw [hG]
    · rw [if_neg (by omega)]; exact exact_arith t a
  | dict ws =>
    refine ⟨(chooseStampSize ws.length).1, (chooseStampSize ws.length).1, hsz _ _ fun _ => rfl, hsz _ _ fun _ => rfl,
      ?_, ?_, .inr rfl, fun n a ha => ⟨extractDict ws, ?_, ?_⟩⟩
    · unfold chooseStampSize; split_ifs <;> norm_num
    · unfold chooseStampSize; split_ifs <;> norm_num
    · unfold extract; rw [hG]
    · rw [if_neg (by omega)]; exact exact_dict ws a
  | latin1 =>
    refine ⟨1, -1, hsz _ _ fun _ => rfl, hsz _ _ fun _ => rfl, le_rfl, by norm_num, .inl rfl, fun n a ha =>
      ⟨extractText latin1Char, ?_, ?_⟩⟩
    · unfold extract; rw [hG]
    · rw [if_pos rfl]; exact exact_text _ a ha
  | ascii =>
    refine ⟨1, -1, hsz _ _ fun _ => rfl, hsz _ _ fun _ => rfl, le_rfl, by norm_num, .inl rfl, fun n a ha =>
      ⟨extractText asciiChar, ?_, ?_⟩⟩
    · unfold extract; rw [hG]
    · rw [if_pos rfl]; exact exact_text _ a ha
  | _ => cases hs

theorem Loads.det {G : Graph} {fl : Flags} {bt bt1 bt2 : Bitten Blob} {i : Id} {b b1 b2 : Blob} {o1 o2 : Out Unit}
    (h1 : Loads G fl bt i b o1 bt1 b1) (h2 : Loads G fl bt i b o2 bt2 b2) : o1 = o2 ∧ bt1 = bt2 ∧ b1 = b2 := by
  obtain ⟨N, h1⟩ := h1
  obtain ⟨N', h2⟩ := h2
  have := (h1 (max N N') (by omega)).symm.trans (h2 _ (by omega))
  obtain ⟨e1, e2⟩ := Prod.mk.inj this
  obtain ⟨e2, e3⟩ := Prod.mk.inj e2
  exact ⟨e1, e2, (Prod.mk.inj e3).2⟩

theorem Holds.inj {b : Blob} {p q : Bytes} (h : Holds b p) (h' : Holds b q) : p = q :=
  Out.ok.inj (h.symm.trans h')

theorem length_lt_W64 {b : Blob} {bs : Bytes} (hr : Reachable b) (hh : Holds b bs) : bs.length < W64 := by
  rw [← Holds.size hr hh]; exact toSz_lt _

/-- **C43**: for arithmetic, dictionary and text stamps, `ExtractStr(blob)` returns `s` leaving `left` exactly
when `Load(blob)` succeeds leaving `left` and one `UnloadStr()` then returns `s`; and `Load` throws
`OutOfData`, leaving blob and stamps unchanged, exactly when the blob holds fewer than `minSize()`
bytes. -/
theorem C43_load_unload {G : Graph} {fl : Flags} {i : Id} {nd : Node} (hG : G i = some nd) (hs : nd.Simple)
    (bt : Bitten Blob) {b : Blob} {bs : Bytes} (hr : Reachable b) (hh : Holds b bs) :
    (∀ s left, Returns G fl i b s left ↔ ∃ bt1 bt2 b', Loads G fl bt i b (.ok ()) bt1 b' ∧ Holds b' left ∧
      Unloads G fl bt1 i (.ok s) bt2) ∧
    (∃ m, HasMin G fl i m ∧ ((bs.length : Int) < m ↔ Loads G fl bt i b .outOfData bt b) ∧
      (m ≤ bs.length ↔ ∃ bt1 b', Loads G fl bt i b (.ok ()) bt1 b')) := by
  obtain ⟨mn, mx, hmin, hmax, h1, h8, hx, hex⟩ := simple_sizes (fl := fl) hG hs
  have hW := length_lt_W64 hr hh
  obtain ⟨hshort, hlong⟩ := C43_load hmin hmax (by omega) (by omega) (hx.imp_right fun e => by omega) bt hr hh
  refine ⟨fun s left => ⟨fun h => ?_, ?_⟩, mn, hmin, ⟨hshort, fun h => ?_⟩, fun h => ?_, ?_⟩
  · obtain ⟨n, hn⟩ := Returns.inv hr hh h
    obtain ⟨m, e, hE⟩ := hex n bs hW
    have h2 := liftB_ok (e ▸ hn (n + 1) (by omega))
    obtain ⟨k1, k2, r, k3⟩ := (hE _ _).1 h2.1
    obtain ⟨c, b', hL, rc, rb, hc, hb⟩ := hlong (by exact_mod_cast k1)
    have hret : Returns G fl i c s r := by
      refine Returns.intro rc.valid hc (Extracts.intro (n := n + 1) ?_ (by simp))
      rw [e]; unfold liftB; rw [k3]
    obtain ⟨c', hc', _⟩ := hret
    refine ⟨_, _, b', hL, ?_, (unload_iff (Bitten.set_self bt i c)).2 ⟨c', hc', rfl⟩⟩
    have : left = bs.drop (if mx = -1 then bs.length else mx.toNat) := k2
    rw [this]; exact hb
  · rintro ⟨bt1, bt2, b', hL, hb, hU⟩
    rcases Int.lt_or_le (bs.length : Int) mn with hl | hl
    · exact absurd (Loads.det hL (hshort hl)).1 (by simp)
    · obtain ⟨c, b'', hL', rc, rb, hc, hb'⟩ := hlong hl
      obtain ⟨_, rfl, rfl⟩ := Loads.det hL hL'
      obtain ⟨c', hE, _⟩ := (unload_iff (Bitten.set_self bt i c)).1 hU
      obtain ⟨hv, N, hN⟩ := Extracts.abs rc.valid hE
      obtain ⟨m, e, hE⟩ := hex N bs hW
      rw [holds_iff rc.valid] at hc
      have h2 := liftB_ok (e ▸ hN (N + 1) (by omega))
      have hc2 : m (bs.take (if mx = -1 then bs.length else mx.toNat)) = (.ok s, c'.abs) := by
        rw [← hc]; exact h2.1
      have hm := (hE s (bs.drop (if mx = -1 then bs.length else mx.toNat))).2 ⟨by exact_mod_cast hl, rfl, _, hc2⟩
      rw [Holds.inj hb hb']
      refine Returns.intro hr.valid hh (Extracts.intro (n := N + 1) ?_ (by simp))
      rw [e]; unfold liftB; rw [hm]
  · by_contra hl
    obtain ⟨c, b', hL, _⟩ := hlong (by omega)
    exact absurd (Loads.det h hL).1 (by simp)
  · obtain ⟨c, b', hL, _⟩ := hlong h
    exact ⟨_, _, hL⟩
  · rintro ⟨bt1, b', hL⟩
    by_contra hl
    exact absurd (Loads.det hL (hshort (by omega))).1 (by simp)

/-- For an unbounded stamp of any kind, loading and unloading gives the string extraction gives (but
takes the whole blob). -/
theorem C43_unbounded {G : Graph} {fl : Flags} {i : Id} {mn : Int} (hmin : HasMin G fl i mn) (hmax : HasMax G fl i (-1))
    (h0 : 0 ≤ mn) (h1 : mn ≤ INT_MAX) (bt : Bitten Blob) {b : Blob} {bs : Bytes} (hr : Reachable b) (hh : Holds b bs)
    (hl : mn ≤ bs.length) (s : Bytes) :
    (∃ left, Returns G fl i b s left) ↔ ∃ bt1 bt2 b', Loads G fl bt i b (.ok ()) bt1 b' ∧ Holds b' [] ∧
      Unloads G fl bt1 i (.ok s) bt2 := by
  obtain ⟨c, b', hL, rc, rb, hc, hb⟩ := (C43_load hmin hmax h0 h1 (.inl rfl) bt hr hh).2 hl
  rw [if_pos rfl, List.take_length] at hc
  rw [if_pos rfl, List.drop_length] at hb
  constructor
  · rintro ⟨left, h⟩
    obtain ⟨n, hn⟩ := Returns.inv hr hh h
    obtain ⟨c', hc', _⟩ := Returns.intro rc.valid hc (Extracts.intro (hn n le_rfl) (by simp))
    exact ⟨_, _, b', hL, hb, (unload_iff (Bitten.set_self bt i c)).2 ⟨c', hc', rfl⟩⟩
  · rintro ⟨bt1, bt2, b'', hL', _, hU⟩
    obtain ⟨_, rfl, rfl⟩ := Loads.det hL hL'
    obtain ⟨c', hE, _⟩ := (unload_iff (Bitten.set_self bt i c)).1 hU
    obtain ⟨hv, N, hN⟩ := Extracts.abs rc.valid hE
    rw [holds_iff rc.valid] at hc
    rw [hc] at hN
    exact ⟨_, Returns.intro hr.valid hh (Extracts.intro (hN N le_rfl) (by simp))⟩

/-- A second `UnloadStr()` of those stamps throws `OutOfData`: the kept blob is used up. -/
theorem C43_unload_once {G : Graph} {fl : Flags} {i : Id} {nd : Node} (hG : G i = some nd) (hs : nd.Simple)
    {bt bt1 bt2 : Bitten Blob} {b b' : Blob} {bs s : Bytes} (hr : Reachable b) (hh : Holds b bs)
    (hL : Loads G fl bt i b (.ok ()) bt1 b') (hU : Unloads G fl bt1 i (.ok s) bt2) :
    ∃ bt3, Unloads G fl bt2 i .outOfData bt3 := by
  obtain ⟨mn, mx, hmin, hmax, h1, h8, hx, hex⟩ := simple_sizes (fl := fl) hG hs
  have hW := length_lt_W64 hr hh
  obtain ⟨hshort, hlong⟩ := C43_load hmin hmax (by omega) (by omega) (hx.imp_right fun e => by omega) bt hr hh
  rcases Int.lt_or_le (bs.length : Int) mn with hl | hl
  · exact absurd (Loads.det hL (hshort hl)).1 (by simp)
  · obtain ⟨c, b'', hL', rc, rb, hc, hb'⟩ := hlong hl
    obtain ⟨_, rfl, rfl⟩ := Loads.det hL hL'
    obtain ⟨c', hE, rfl⟩ := (unload_iff (Bitten.set_self bt i c)).1 hU
    rw [Bitten.set_set]
    obtain ⟨hv, N, hN⟩ := Extracts.abs rc.valid hE
    rw [holds_iff rc.valid] at hc
    have hlen : (c.abs).length < W64 := by rw [hc, List.length_take]; omega
    obtain ⟨m, e, hE'⟩ := hex N c.abs hlen
    have h2 := liftB_ok (e ▸ hN (N + 1) (by omega))
    obtain ⟨_, k2, _⟩ := (hE' _ _).1 h2.1
    have h0 : c'.abs = [] := by
      have k2' : c'.abs = c.abs.drop (if mx = -1 then c.abs.length else mx.toNat) := k2
      rw [k2']
      apply List.drop_of_length_le
      split
      · exact le_rfl
      · rename_i hm
        rw [hc, if_neg hm, List.length_take]; omega
    have hA : Extracts G fl i (c'.abs : ABlob) .outOfData fl (c'.abs : ABlob) := by
      rw [h0]
      refine Extracts.intro (n := 1) ?_ (by simp)
      unfold extract
      rw [hG]
      cases nd with
      | arith t =>
        show liftB (extractArithStr t) (fl, ([] : ABlob)) = _
        have : (extractArithStr t : M ABlob Bytes) [] = (.outOfData, []) := by
          rw [extractArithStr_abs, if_pos (by cases t <;> decide)]
        unfold liftB
        rw [this]
      | dict ws =>
        show liftB (extractDict ws) (fl, ([] : ABlob)) = _
        obtain ⟨ty, hty, _⟩ := chooseStampSize_ty ws.length
        have : (extractDict ws : M ABlob Bytes) [] = (.outOfData, []) := by
          unfold extractDict
          rw [M.bind_ood (by rw [uOracle_abs hty, if_pos (by
            show 0 < _
            unfold chooseStampSize; split_ifs <;> norm_num)])]
        unfold liftB
        rw [this]
      | latin1 => rfl
      | ascii => rfl
      | _ => cases hs
    obtain ⟨d, hd, hdv, hda⟩ := Extracts.conc hv (by simp) hA
    exact ⟨_, (unload_iff (Bitten.set_self bt i c')).2 ⟨d, hd, rfl⟩⟩

/-! ## Loading a set of stamps -/

/-- The stamps `cs` report the sizes `ss`. -/
def HaveSizes (G : Graph) (fl : Flags) (cs : List Id) (ss : List SizePair) : Prop :=
  List.Forall₂ (fun i s => HasMin G fl i s.1 ∧ HasMax G fl i s.2) cs ss

/-- Sizes a stamp may sensibly report. -/
def SizePair.Sane (s : SizePair) : Prop := 0 ≤ s.1 ∧ s.1 ≤ INT_MAX ∧ (s.2 = -1 ∨ (0 ≤ s.2 ∧ s.2 ≤ INT_MAX))

theorem queryAll_sizes {G : Graph} {fl : Flags} {cs : List Id} {ss : List SizePair} (h : HaveSizes G fl cs ss) :
    ∃ N, ∀ n ≥ N, queryAll (sizeQ G n .min) cs fl = (.ok (ss.map Prod.fst), fl) ∧
      queryAll (sizeQ G n .max) cs fl = (.ok (ss.map Prod.snd), fl) := by
  induction h with
  | nil => exact ⟨0, fun _ _ => ⟨rfl, rfl⟩⟩
  | @cons i s cs ss h _ ih =>
    obtain ⟨⟨N1, h1⟩, N2, h2⟩ := h
    obtain ⟨N, ih⟩ := ih
    refine ⟨max N (max N1 N2), fun n hn => ?_⟩
    obtain ⟨e1, e2⟩ := ih n (by omega)
    constructor
    · unfold queryAll
      rw [M.bind_ok (h1 n (by omega)), M.bind_ok e1]
      rfl
    · unfold queryAll
      rw [M.bind_ok (h2 n (by omega)), M.bind_ok e2]
      rfl

theorem zip_fst_snd (ss : List SizePair) : (ss.map Prod.fst).zip (ss.map Prod.snd) = ss := by
  induction ss with
  | nil => rfl
  | cons s ss ih => simp only [List.map_cons, List.zip_cons_cons, ih]

theorem loadAll_split {G : Graph} {fl : Flags} {cs : List Id} {ss : List SizePair} (h : HaveSizes G fl cs ss)
    (bt : Bitten Blob) (b : Blob) : ∃ N, ∀ n ≥ N, loadAll G n cs (bt, (fl, b)) =
      match setSplit ss b with
      | (.ok ps, b') => ((loadEach G n (cs.zip ps) (bt, fl)).1,
          ((loadEach G n (cs.zip ps) (bt, fl)).2.1, ((loadEach G n (cs.zip ps) (bt, fl)).2.2, b')))
      | (o, b') => (o.map fun _ => (), (bt, (fl, b'))) := by
  obtain ⟨N, hN⟩ := queryAll_sizes h
  refine ⟨N, fun n hn => ?_⟩
  obtain ⟨h1, h2⟩ := hN n hn
  unfold loadAll
  dsimp only
  rw [M.bind_ok (show (liftF (queryAll (sizeQ G n .min) cs) : XM Blob _) (fl, b) = (.ok (ss.map Prod.fst), (fl, b)) by
    unfold liftF; rw [h1]), M.bind_ok (show (liftF (queryAll (sizeQ G n .max) cs) : XM Blob _) (fl, b) =
      (.ok (ss.map Prod.snd), (fl, b)) by unfold liftF; rw [h2]), zip_fst_snd]
  unfold liftB
  dsimp only
  generalize setSplit ss b = r
  obtain ⟨o, b'⟩ := r
  cases o <;> rfl

theorem loadEach_ok {G : Graph} {fl : Flags} {cs : List Id} {ss : List SizePair} (h : HaveSizes G fl cs ss)
    (hd : cs.Nodup) (hz : ∀ s ∈ ss, s.Sane) {ps : List Blob} {parts : List Bytes} (hp : List.Forall₂ Holds ps parts)
    (hr : ∀ p ∈ ps, Reachable p) (hl : List.Forall₂ (fun (s : SizePair) (p : Bytes) => s.1 ≤ p.length) ss parts)
    (bt : Bitten Blob) :
    ∃ bt' N, (∀ n ≥ N, loadEach G n (cs.zip ps) (bt, fl) = (.ok (), (bt', fl))) ∧
      (∀ (k : Nat) (i : Id) (s : SizePair) (p : Bytes), cs[k]? = some i → ss[k]? = some s → parts[k]? = some p →
        Keeps bt' i (p.take (if s.2 = -1 then p.length else s.2.toNat))) ∧
      ∀ j ∉ cs, bt' j = bt j := by
  induction h generalizing ps parts bt with
  | nil => exact ⟨bt, 0, fun _ _ => rfl, by simp, fun _ _ => rfl⟩
  | @cons i s cs ss h _ ih =>
    cases hl with
    | @cons _ p _ parts hl0 hl =>
      cases hp with
      | @cons q _ ps _ hp0 hp =>
        obtain ⟨hd0, hd⟩ := List.nodup_cons.1 hd
        obtain ⟨z1, z2, z3⟩ := hz s (by simp)
        have hrq := hr q (by simp)
        obtain ⟨c, b', ⟨N0, hN0⟩, rc, _, hc, _⟩ := (C43_load h.1 h.2 z1 z2 z3 bt hrq hp0).2 hl0
        obtain ⟨bt', N, hN, hk, ho⟩ := ih hd (fun x hx => hz x (by simp [hx])) hp (fun x hx => hr x (by simp [hx])) hl (bt.set i c)
        refine ⟨bt', max N N0, fun n hn => ?_, ?_, ?_⟩
        · rw [List.zip_cons_cons]
          unfold loadEach
          have e : (loadOne G n i q : M (Bitten Blob × Flags) Unit) (bt, fl) = (.ok (), (bt.set i c, fl)) := by
            unfold loadOne; rw [hN0 n (by omega)]
          rw [M.bind_ok e, hN n (by omega)]
        · intro k
          cases k with
          | zero =>
            intro i' s' p' e1 e2 e3
            cases e1; cases e2; cases e3
            refine ⟨c, ?_, rc, hc⟩
            rw [ho i hd0, Bitten.set_self]
          | succ k =>
            intro i' s' p' e1 e2 e3
            exact hk k i' s' p' e1 e2 e3
        · intro j hj
          rw [List.mem_cons, not_or] at hj
          rw [ho j hj.2, Bitten.set_ne _ _ hj.1]

/-- **C44**: when the set splits the blob into `parts` each of which is at least its stamp's minimum,
`LoadAll` returns; stamp number `k` then keeps `parts[k]` (its first `maxSize()` bytes), no other stamp has
changed, and the blob holds what the split leaves. -/
theorem C44_load_all_partial {G : Graph} {fl : Flags} {cs : List Id} {ss : List SizePair} (h : HaveSizes G fl cs ss)
    (hd : cs.Nodup) (hz : ∀ s ∈ ss, s.Sane) {b : Blob} (hr : Reachable b) {parts : List Bytes} {left : Bytes}
    (hs : SetReturns ss b parts left)
    (hl : List.Forall₂ (fun (s : SizePair) (p : Bytes) => s.1 ≤ p.length) ss parts) (bt : Bitten Blob) :
    ∃ bt' b', LoadsAll G fl bt cs b (.ok ()) bt' b' ∧ Holds b' left ∧
      (∀ (k : Nat) (i : Id) (s : SizePair) (p : Bytes), cs[k]? = some i → ss[k]? = some s → parts[k]? = some p →
        Keeps bt' i (p.take (if s.2 = -1 then p.length else s.2.toNat))) ∧
      ∀ j ∉ cs, bt' j = bt j := by
  obtain ⟨ps, b', hs, hp, hb⟩ := hs
  obtain ⟨bt', N, hN, hk, ho⟩ := loadEach_ok h hd hz hp ((pieces_setSplit reachable_closed _ _ _ _ hr hs).2) hl bt
  obtain ⟨N', hN'⟩ := loadAll_split h bt b
  refine ⟨bt', b', ⟨max N N', fun n hn => ?_⟩, hb, hk, ho⟩
  rw [hN' n (by omega), hs]
  dsimp only
  rw [hN n (by omega)]

/-- **C44**: on a blob shorter than the set's minimum `LoadAll` throws `OutOfData` with nothing loaded
and the blob unchanged. -/
theorem C44_short_partial {G : Graph} {fl : Flags} {cs : List Id} {ss : List SizePair} (h : HaveSizes G fl cs ss)
    {b : Blob} {bs : Bytes} (hr : Reachable b) (hh : Holds b bs) (hz : SetSizes ss)
    (hlt : (bs.length : Int) < setNeeds ss) (bt : Bitten Blob) :
    ∃ b', LoadsAll G fl bt cs b .outOfData bt b' ∧ Holds b' bs := by
  obtain ⟨b', hs, hb⟩ := C25_short_throws_partial hr hh hz hlt
  obtain ⟨N', hN'⟩ := loadAll_split h bt b
  refine ⟨b', ⟨N', fun n hn => ?_⟩, hb⟩
  rw [hN' n hn, hs]
  rfl

/-- **C44** from the data alone: sensible sizes, at least `minSize()` bytes, oracles as in C21 and none of
them 0. -/
theorem C44_enough_partial {G : Graph} {fl : Flags} {cs : List Id} {ss : List SizePair} (h : HaveSizes G fl cs ss)
    (hd : cs.Nodup) (hz : SetSizes ss) {b : Blob} {bs : Bytes} (hr : Reachable b) (hh : Holds b bs)
    (hmin : setNeeds ss ≤ bs.length) (ho : SetOraclesOk ss bs)
    (ho0 : ∀ k : Nat, (setOracles ss bs)[k]? ≠ some (some 0))
    (hS : bs.length ≤ 2147483646) (hn : ss.length * (bs.length + 1) ≤ 2 ^ 49) (bt : Bitten Blob) :
    ∃ (oracles : Bytes) (parts : List Bytes) (left : Bytes) (bt' : Bitten Blob) (b' : Blob),
      LoadsAll G fl bt cs b (.ok ()) bt' b' ∧ Holds b' left ∧ parts.length = cs.length ∧
      oracles ++ parts.flatten ++ left = bs ∧
      (∀ (k : Nat) (i : Id) (s : SizePair) (p : Bytes), cs[k]? = some i → ss[k]? = some s → parts[k]? = some p →
        Keeps bt' i (p.take (if s.2 = -1 then p.length else s.2.toNat))) ∧
      ∀ j ∉ cs, bt' j = bt j := by
  rw [setNeeds_eq] at hmin
  obtain ⟨parts, left, h1, h2, h3, h4, _⟩ := set_core hz ho hmin hS hn
  have hl : List.Forall₂ (fun (s : SizePair) (p : Bytes) => s.1 ≤ p.length) ss parts := by
    rw [List.forall₂_iff_get]
    refine ⟨h2.symm, fun k k1 k2 => ?_⟩
    exact (h4 k _ _ (List.getElem?_eq_getElem k1) (List.getElem?_eq_getElem k2)).2.1 (.inl (ho0 k))
  have hsane : ∀ s ∈ ss, s.Sane := by
    intro s hs
    obtain ⟨z1, z2⟩ := hz.sizes s hs
    have : s.1 ≤ (ss.map Prod.fst).sum := by
      apply List.single_le_sum
      · intro x hx
        obtain ⟨y, hy, rfl⟩ := List.mem_map.1 hx
        exact (hz.sizes y hy).1
      · exact List.mem_map_of_mem hs
    have := hz.total
    exact ⟨z1, by omega, z2.imp_right fun h => ⟨by omega, h.2⟩⟩
  obtain ⟨bt', b', k1, k2, k3, k4⟩ := C44_load_all_partial h hd hsane hr (SetReturns.intro hr.valid hh h1) hl bt
  exact ⟨_, parts, left, bt', b', k1, k2, by rw [h2, ← h.length_eq], h3, k3, k4⟩

/-! ## Examples -/

section
/-- A 4-byte number, a text, another text, a third text; a user stamp of 0 to 1 bytes three times. -/
def loadGraph : Graph
  | 0 => some (.arith .i32)
  | 1 => some .latin1
  | 2 => some .latin1
  | 3 => some .latin1
  | 4 => some (.user ⟨0, 1, false, fun b => (.ok b, b.length)⟩)
  | 5 => some (.user ⟨0, 1, false, fun b => (.ok b, b.length)⟩)
  | 6 => some (.user ⟨0, 1, false, fun b => (.ok b, b.length)⟩)
  | 7 => some .jsonStr
  | _ => none

theorem loadGraph_leaf {i : Id} {sel : Sel} {v : Int} (fl : Flags)
    (h : ∀ n fl, sizeQ loadGraph (n + 1) sel i fl = (.ok v, fl)) : SizeRuns loadGraph fl sel i v fl := by
  refine ⟨1, fun n hn => ?_⟩
  obtain ⟨m, rfl⟩ : ∃ m, n = m + 1 := ⟨n - 1, by omega⟩
  exact h m fl

theorem loadGraph_sizes (fl : Flags) :
    HaveSizes loadGraph fl [0, 1] [(4, 4), (1, -1)] ∧
    HaveSizes loadGraph fl [1, 2, 3] [(1, -1), (1, -1), (1, -1)] ∧
    HaveSizes loadGraph fl [4, 5, 6] [(0, 1), (0, 1), (0, 1)] := by
  refine ⟨.cons ⟨?_, ?_⟩ (.cons ⟨?_, ?_⟩ .nil), .cons ⟨?_, ?_⟩ (.cons ⟨?_, ?_⟩ (.cons ⟨?_, ?_⟩ .nil)),
    .cons ⟨?_, ?_⟩ (.cons ⟨?_, ?_⟩ (.cons ⟨?_, ?_⟩ .nil))⟩ <;> exact loadGraph_leaf fl fun _ _ => rfl

/-- C43: a number taken from the front of a longer blob, at once and by way of `Load`. -/
example (fl : Flags) (bt : Bitten Blob) {b : Blob} (hr : Reachable b) (hh : Holds b [57, 48, 0, 0, 7, 8]) :
    ∃ bt1 bt2 b', Loads loadGraph fl bt 0 b (.ok ()) bt1 b' ∧ Holds b' [7, 8] ∧
      Unloads loadGraph fl bt1 0 (.ok (str "12345")) bt2 :=
  ((C43_load_unload (nd := .arith .i32) rfl trivial bt hr hh).1 _ _).1
    (Returns.intro hr.valid hh (Extracts.intro (n := 1) (by
      show liftB (extractArithStr .i32) (fl, ([57, 48, 0, 0, 7, 8] : ABlob)) = _
      have : (extractArithStr .i32 : M ABlob Bytes) [57, 48, 0, 0, 7, 8] = (.ok (str "12345"), [7, 8]) := by
        decide +kernel
      unfold liftB
      rw [this]) (by simp)))

/-- C43: three bytes are too short for it. -/
example (fl : Flags) (bt : Bitten Blob) {b : Blob} (hr : Reachable b) (hh : Holds b [57, 48, 0]) :
    Loads loadGraph fl bt 0 b .outOfData bt b :=
  (C43_load (mx := 4) (loadGraph_leaf (v := 4) fl fun _ _ => rfl) (loadGraph_leaf fl fun _ _ => rfl) (by norm_num) (by norm_num)
    (.inr (by norm_num)) bt hr hh).1 (by norm_num)

/-- C44: a number and a text, from one blob. -/
example (fl : Flags) {b : Blob} (hr : Reachable b) (hh : Holds b [57, 48, 0, 0, 72, 105]) :
    ∃ bt' b', LoadsAll loadGraph fl (fun _ => none) [0, 1] b (.ok ()) bt' b' ∧ Keeps bt' 0 [57, 48, 0, 0] ∧
      Keeps bt' 1 [72, 105] ∧ bt' 2 = none := by
  obtain ⟨bt', b', h1, _, h3, h4⟩ := C44_load_all_partial (loadGraph_sizes fl).1 (by decide)
    (by intro s hs; simp at hs; rcases hs with rfl | rfl <;> exact ⟨by norm_num, by norm_num, by norm_num⟩) hr
    (parts := [[57, 48, 0, 0], [72, 105]]) (left := []) (SetReturns.intro hr.valid hh (by decide +kernel))
    (.cons (by norm_num) (.cons (by norm_num) .nil)) (fun _ => none)
  exact ⟨bt', b', h1, h3 0 _ _ _ rfl rfl rfl, h3 1 _ _ _ rfl rfl rfl, h4 2 (by decide)⟩
end

/-! ## Violations -/

/-- `UnloadStr()` of a stamp that has loaded nothing is undefined. -/
theorem C43_unload_unloaded (G : Graph) (fl : Flags) {bt : Bitten Blob} {i : Id} (h : bt i = none) :
    Unloads G fl bt i (.ub .nullDeref) bt :=
  ⟨0, fun n _ => by unfold unloadStr unload; dsimp only; rw [h]⟩

/-- Outside the stamps of C43 `Load` may take more than `ExtractStr`: `StampJSONString` takes one byte,
but loads eight. -/
theorem C43_json_string_differs (fl : Flags) (bt : Bitten Blob) {b : Blob} (hr : Reachable b)
    (hh : Holds b [0, 1, 2, 3, 4, 5, 6, 7, 8]) :
    (∃ s, Returns loadGraph fl 7 b s [1, 2, 3, 4, 5, 6, 7, 8]) ∧
    ∃ bt1 b', Loads loadGraph fl bt 7 b (.ok ()) bt1 b' ∧ Holds b' [8] := by
  constructor
  · exact (C40_violated rfl fl hr hh).2
  · obtain ⟨c, b', h, _, _, _, hb⟩ := (C43_load (i := 7) (mn := 8) (mx := 8) (loadGraph_leaf fl fun _ _ => rfl)
      (loadGraph_leaf fl fun _ _ => rfl) (by norm_num) (by norm_num) (.inr (by norm_num)) bt hr hh).2 (by norm_num)
    exact ⟨_, b', h, hb⟩

/-- **C44 is violated**: with 14 bytes for three texts that need 9, `LoadAll` throws `OutOfData` after
the first stamp has been loaded and the blob used up. -/
theorem C44_violated (fl : Flags) {b : Blob} (hr : Reachable b)
    (hh : Holds b [255, 255, 0, 0, 255, 255, 1, 2, 3, 4, 5, 6, 7, 8]) :
    setMinSize [(1, -1), (1, -1), (1, -1)] = .ok 9 ∧
    ∃ bt' b', LoadsAll loadGraph fl (fun _ => none) [1, 2, 3] b .outOfData bt' b' ∧ Holds b' [] ∧
      Keeps bt' 1 [1, 2, 3, 4] ∧ bt' 2 = none ∧ bt' 3 = none := by
  refine ⟨by decide, ?_⟩
  obtain ⟨ps, b', hs, hp, hb⟩ := (C22_violated hr hh).2
  have hrp := (pieces_setSplit reachable_closed _ _ _ _ hr hs).2
  cases hp with
  | @cons p1 _ ps _ hp1 hp =>
  cases hp with
  | @cons p2 _ ps _ hp2 hp =>
  have hsz : ∀ i, i = 1 ∨ i = 2 → HasMin loadGraph fl i 1 ∧ HasMax loadGraph fl i (-1) := by
    rintro i (rfl | rfl) <;> exact ⟨loadGraph_leaf fl fun _ _ => rfl, loadGraph_leaf fl fun _ _ => rfl⟩
  obtain ⟨c, q, ⟨N1, h1⟩, rc, _, hc, _⟩ := (C43_load (hsz 1 (by simp)).1 (hsz 1 (by simp)).2 (by norm_num) (by norm_num)
    (.inl rfl) (fun _ => none) (hrp p1 (by simp)) hp1).2 (by norm_num)
  obtain ⟨N2, h2⟩ := (C43_load (hsz 2 (by simp)).1 (hsz 2 (by simp)).2 (by norm_num) (by norm_num)
    (.inl rfl) (Bitten.set (fun _ => none) 1 c) (hrp p2 (by simp)) hp2).1 (by norm_num)
  obtain ⟨N, hN⟩ := loadAll_split (loadGraph_sizes fl).2.1 (fun _ => none) b
  refine ⟨Bitten.set (fun _ => none) 1 c, b', ⟨max N (max N1 N2), fun n hn => ?_⟩, hb, ⟨c, rfl, rc, hc⟩, rfl, rfl⟩
  rw [hN n (by omega), hs]
  dsimp only
  have e : loadEach loadGraph n ([1, 2, 3].zip (p1 :: p2 :: ps)) (fun _ => none, fl) =
      (.outOfData, (Bitten.set (fun _ => none) 1 c, fl)) := by
    rw [List.zip_cons_cons, List.zip_cons_cons]
    unfold loadEach
    have e1 : (loadOne loadGraph n 1 p1 : M (Bitten Blob × Flags) Unit) (fun _ => none, fl) =
        (.ok (), (Bitten.set (fun _ => none) 1 c, fl)) := by
      unfold loadOne; rw [h1 n (by omega)]
    rw [M.bind_ok e1]
    unfold loadEach
    have e2 : (loadOne loadGraph n 2 p2 : M (Bitten Blob × Flags) Unit) (Bitten.set (fun _ => none) 1 c, fl) =
        (.outOfData, (Bitten.set (fun _ => none) 1 c, fl)) := by
      unfold loadOne; rw [h2 n (by omega)]
    rw [M.bind_ood e2]
  rw [e]

/-- **C44 is violated**: a piece can be longer than the stamp accepts, and its end is lost. -/
theorem C44_violated_lost (fl : Flags) {b : Blob} (hr : Reachable b)
    (hh : Holds b [0x99, 0x59, 255, 255, 0x67, 0x26, 1, 2, 3, 4, 5]) :
    SetReturns [(0, 1), (0, 1), (0, 1)] b [[], [1, 2], []] [3, 4, 5] ∧
    ∃ bt' b', LoadsAll loadGraph fl (fun _ => none) [4, 5, 6] b (.ok ()) bt' b' ∧ Keeps bt' 5 [1] := by
  have hs : SetReturns [(0, 1), (0, 1), (0, 1)] b [[], [1, 2], []] [3, 4, 5] :=
    SetReturns.intro hr.valid hh (by decide +kernel)
  refine ⟨hs, ?_⟩
  obtain ⟨bt', b', h1, _, h3, h4⟩ := C44_load_all_partial (loadGraph_sizes fl).2.2 (by decide)
    (by intro s hs; simp at hs; subst hs; exact ⟨by norm_num, by norm_num, by norm_num⟩) hr hs
    (.cons (by norm_num) (.cons (by norm_num) (.cons (by norm_num) .nil))) (fun _ => none)
  exact ⟨bt', b', h1, h3 1 _ _ _ rfl rfl rfl⟩

end BS
