import Verif.Spec.Compose
import Verif.Lemmas.Invert
import Verif.Props.VecRuns
import Verif.Props.Format
import Verif.Props.Bin
import Verif.Props.Load

/-!
# C67: a stamp made of stamps succeeds exactly when its parts do
-/

namespace BS

/-! ## Runs over the bytes left -/

/-- A run over the bytes left. -/
def ARun (G : Graph) (fl : Flags) (i : Id) (a : ABlob) (o : Out Bytes) (a' : ABlob) : Prop :=
  ∃ n, extract G n i (fl, a) = (o, (fl, a'))

theorem lift_run {G : Graph} {n m : Nat} (h : n ≤ m) {i : Id} {s s' : Flags × ABlob} {o : Out Bytes} (ho : o ≠ .fuel)
    (e : extract G n i s = (o, s')) : extract G m i s = (o, s') := by
  rcases fle_extract (β := ABlob) G h i s with e' | e'
  · rw [e] at e'; exact absurd e' ho
  · rw [← e', e]

theorem vecSplit_lift {n m : Nat} (h : n ≤ m) {mn mx : Int} {a a' : ABlob} {o : Out (List ABlob)} (ho : o ≠ .fuel)
    (e : vecSplit n mn mx a = (o, a')) : vecSplit m mn mx a = (o, a') := by
  rcases fle_vecSplit (β := ABlob) h mn mx a with e' | e'
  · rw [e] at e'; exact absurd e' ho
  · rw [← e', e]

theorem returns_iff {G : Graph} {fl : Flags} {i : Id} {b : Blob} {bs s left : Bytes} (hr : Reachable b)
    (hh : Holds b bs) : Returns G fl i b s left ↔ ARun G fl i bs (.ok s) left := by
  constructor
  · intro h
    obtain ⟨n, hn⟩ := Returns.inv hr hh h
    exact ⟨n, hn n le_rfl⟩
  · rintro ⟨n, h⟩
    exact Returns.intro hr.valid hh (Extracts.intro h (by simp))

theorem throws_iff {G : Graph} {fl : Flags} {i : Id} {b : Blob} {bs left : Bytes} (hr : Reachable b)
    (hh : Holds b bs) : Throws G fl i b left ↔ ARun G fl i bs .outOfData left := by
  constructor
  · intro h
    obtain ⟨n, hn⟩ := Throws.inv hr hh h
    exact ⟨n, hn n le_rfl⟩
  · rintro ⟨n, h⟩
    exact Throws.intro hr.valid hh (Extracts.intro h (by simp))

theorem gives_iff {G : Graph} {fl : Flags} {i : Id} {p x : Bytes} (hp : p.length < 9223372036854775808) :
    Gives G fl i p x ↔ ∃ left, ARun G fl i p (.ok x) left := by
  constructor
  · rintro ⟨left, h⟩
    obtain ⟨b, hr, hh⟩ := exists_blob hp
    exact ⟨left, (returns_iff hr hh).1 (h b hr hh)⟩
  · rintro ⟨left, h⟩
    exact ⟨left, fun b hr hh => (returns_iff hr hh).2 h⟩

theorem refuses_iff {G : Graph} {fl : Flags} {i : Id} {p : Bytes} (hp : p.length < 9223372036854775808) :
    Refuses G fl i p ↔ ∃ left, ARun G fl i p .outOfData left := by
  constructor
  · rintro ⟨left, h⟩
    obtain ⟨b, hr, hh⟩ := exists_blob hp
    exact ⟨left, (throws_iff hr hh).1 (h b hr hh)⟩
  · rintro ⟨left, h⟩
    exact ⟨left, fun b hr hh => (throws_iff hr hh).2 h⟩

/-! ## The loop over the pieces -/

theorem ckInt_inv {z k : Int} (h : ckInt z = .ok k) : z ≤ INT_MAX ∧ k = z := by
  unfold ckInt at h
  split at h
  · next hc =>
    rw [fitsInt_iff] at hc
    cases h
    exact ⟨by omega, rfl⟩
  · cases h

theorem liftCk_ok {z k : Int} {s s' : Flags × ABlob} (h : (M.lift (ckInt z) : XM ABlob Int) s = (.ok k, s')) :
    z ≤ INT_MAX ∧ k = z ∧ s' = s := by
  rw [show (M.lift (ckInt z) : XM ABlob Int) s = (ckInt z, s) from rfl, Prod.mk.injEq] at h
  obtain ⟨h1, h2⟩ := ckInt_inv h.1
  exact ⟨h1, h2, h.2.symm⟩

theorem liftCk_ood {z : Int} {s s' : Flags × ABlob} (h : (M.lift (ckInt z) : XM ABlob Int) s = (.outOfData, s')) :
    False := by
  rw [show (M.lift (ckInt z) : XM ABlob Int) s = (ckInt z, s) from rfl, Prod.mk.injEq] at h
  have h := h.1
  unfold ckInt at h
  split at h <;> cases h

section
variable {G : Graph} {fl : Flags}

/-- Piece `q` gives text `x`. -/
def PieceRun (G : Graph) (fl : Flags) (q : Id × ABlob) (x : Bytes) : Prop := ∃ left, ARun G fl q.1 q.2 (.ok x) left

theorem pieces_fuel {l : List (Id × ABlob)} {xs : List Bytes} (h : List.Forall₂ (PieceRun G fl) l xs) :
    ∃ N, ∀ n ≥ N, List.Forall₂ (fun q x => ∃ left, extract G n q.1 (fl, q.2) = (.ok x, (fl, left))) l xs := by
  induction h with
  | nil => exact ⟨0, fun _ _ => .nil⟩
  | cons hx _ ih =>
    obtain ⟨N, hN⟩ := ih
    obtain ⟨left, n, hx⟩ := hx
    exact ⟨max N n, fun m hm => .cons ⟨left, lift_run (by omega) (by simp) hx⟩ (hN m (by omega))⟩

theorem each_ok {n : Nat} {l : List (Id × ABlob)} {xs : List Bytes}
    (h : List.Forall₂ (fun q x => ∃ left, extract G n q.1 (fl, q.2) = (.ok x, (fl, left))) l xs) (a : ABlob) :
    ∀ k : Nat, k + l.length ≤ INT_MAX → extractEach (extract G n) (k : Int) l (fl, a) = (.ok xs, (fl, a)) := by
  induction h with
  | nil => intro k _; rfl
  | @cons q x l xs hx _ ih =>
    intro k hk
    obtain ⟨left, hx⟩ := hx
    obtain ⟨c, p⟩ := q
    rw [List.length_cons] at hk
    unfold extractEach
    have e1 : onBlob p (extract G n c) (fl, a) = (.ok x, (fl, a)) := by
      unfold onBlob; dsimp only; rw [hx]
    rw [M.bind_ok e1]
    have e2 : (M.lift (ckInt ((k : Int) + 1)) : XM ABlob Int) (fl, a) = (.ok ((k + 1 : Nat) : Int), (fl, a)) := by
      rw [ckInt_ok (by omega) (by omega)]; rfl
    rw [M.bind_ok e2, M.bind_ok (ih (k + 1) (by omega))]
    rfl

theorem each_ood {n : Nat} {pre post : List (Id × ABlob)} {q : Id × ABlob} {xs : List Bytes} {left : ABlob}
    (h : List.Forall₂ (fun q x => ∃ left, extract G n q.1 (fl, q.2) = (.ok x, (fl, left))) pre xs) (a : ABlob)
    (hq : extract G n q.1 (fl, q.2) = (.outOfData, (fl, left))) :
    ∀ k : Nat, k + pre.length ≤ INT_MAX →
      extractEach (extract G n) (k : Int) (pre ++ q :: post) (fl, a) = (.outOfData, (fl, a)) := by
  induction h with
  | nil =>
    intro k _
    obtain ⟨c, p⟩ := q
    rw [List.nil_append]
    unfold extractEach
    have e1 : onBlob p (extract G n c) (fl, a) = (.outOfData, (fl, a)) := by
      unfold onBlob; dsimp only; rw [hq]
    exact M.bind_ood e1
  | @cons q' x l xs hx _ ih =>
    intro k hk
    obtain ⟨left, hx⟩ := hx
    obtain ⟨c, p⟩ := q'
    rw [List.length_cons] at hk
    rw [List.cons_append]
    unfold extractEach
    have e1 : onBlob p (extract G n c) (fl, a) = (.ok x, (fl, a)) := by
      unfold onBlob; dsimp only; rw [hx]
    rw [M.bind_ok e1]
    have e2 : (M.lift (ckInt ((k : Int) + 1)) : XM ABlob Int) (fl, a) = (.ok ((k + 1 : Nat) : Int), (fl, a)) := by
      rw [ckInt_ok (by omega) (by omega)]; rfl
    rw [M.bind_ok e2, M.bind_ood (ih (k + 1) (by omega))]

theorem each_len {n : Nat} {l : List (Id × ABlob)} {xs : List Bytes} {k : Nat} {s s' : Flags × ABlob}
    (hk : k ≤ INT_MAX) (h : extractEach (extract G n) (k : Int) l s = (.ok xs, s')) : k + l.length ≤ INT_MAX := by
  induction l generalizing k s s' xs with
  | nil => simpa using hk
  | cons q l ih =>
    obtain ⟨i, c⟩ := q
    unfold extractEach at h
    obtain ⟨x, s1, h1, h⟩ := M.bind_eq_ok.1 h
    obtain ⟨k', s3, h0, h⟩ := M.bind_eq_ok.1 h
    obtain ⟨ys, s2, h2, h⟩ := M.bind_eq_ok.1 h
    obtain ⟨hf, rfl, -⟩ := liftCk_ok h0
    have := ih (k := k + 1) (by omega) (by rw [Nat.cast_add, Nat.cast_one]; exact h2)
    rw [List.length_cons]; omega

/-- How the loop can end with `OutOfData`. -/
theorem each_ood_inv {n : Nat} {l : List (Id × ABlob)} {k : Nat} {s s' : Flags × ABlob}
    (hk : k ≤ INT_MAX) (h : extractEach (extract G n) (k : Int) l s = (.outOfData, s')) :
    s' = s ∧ ∃ pre q post xs left, l = pre ++ q :: post ∧ k + pre.length ≤ INT_MAX ∧
      List.Forall₂ (fun q x => ∃ left, extract G n q.1 (s.1, q.2) = (.ok x, (s.1, left))) pre xs ∧
      extract G n q.1 (s.1, q.2) = (.outOfData, (s.1, left)) := by
  induction l generalizing k s s' with
  | nil => cases h
  | cons q l ih =>
    obtain ⟨i, c⟩ := q
    unfold extractEach at h
    rcases M.bind_eq_ood.1 h with h1 | ⟨x, s1, h1, h'⟩
    · have e : (extract G n i (s.1, c)).1 = .outOfData := congrArg Prod.fst h1
      have e2 : ((extract G n i (s.1, c)).2.1, s.2) = s' := congrArg Prod.snd h1
      have e3 := keeps_extract G n i (s.1, c) (Or.inr e)
      refine ⟨?_, [], (i, c), l, [], (extract G n i (s.1, c)).2.2, rfl, by simpa using hk, .nil, ?_⟩
      · rw [← e2, e3]
      · exact Prod.ext e (Prod.ext e3 rfl)
    · obtain ⟨left, e1, e2⟩ := onBlob_ok h1
      have e3 : s1.1 = s.1 := keeps_ok (s := (s.1, c)) (s' := (s1.1, left)) (keeps_extract G n i) e1
      have : s1 = s := Prod.ext e3 e2
      subst this
      rcases M.bind_eq_ood.1 h' with h0 | ⟨k', s3, h0, h''⟩
      · exact (liftCk_ood h0).elim
      · obtain ⟨hf, rfl, rfl⟩ := liftCk_ok h0
        rcases M.bind_eq_ood.1 h'' with h2 | ⟨_, _, _, h2⟩
        · obtain ⟨r1, pre, q, post, xs, left', r2, r3, r4, r5⟩ := ih (k := k + 1) (by omega)
            (by rw [Nat.cast_add, Nat.cast_one]; exact h2)
          refine ⟨r1, (i, c) :: pre, q, post, x :: xs, left', by rw [r2]; rfl, ?_, .cons ⟨left, e1⟩ r4, r5⟩
          rw [List.length_cons]; omega
        · cases h2

/-! ## Lists -/

variable {i c : Id} {join : List Bytes → Bytes}

theorem list_ok_iff (hG : G i = some (.vec c join)) {a a' : ABlob} {s : Bytes} :
    ARun G fl i a (.ok s) a' ↔ ∃ mn mx parts xs, HasMin G fl c mn ∧ HasMax G fl c mx ∧
      (∃ n, vecSplit n mn mx a = (.ok parts, a')) ∧
      List.Forall₂ (fun p x => PieceRun G fl (c, p) x) parts xs ∧ parts.length ≤ INT_MAX ∧ s = join xs := by
  constructor
  · rintro ⟨n, h⟩
    cases n with
    | zero => cases h
    | succ n =>
      obtain ⟨mn, mx, parts, xs, -, h1, h2, h3, h4, h5⟩ := extract_vec_ok hG h
      refine ⟨mn, mx, parts, xs, .intro h1, .intro h2, ⟨n, h3⟩, ?_, ?_, h5⟩
      · refine h4.imp ?_
        rintro p x ⟨left, h⟩
        exact ⟨left, n, h⟩
      · unfold extract at h
        rw [hG] at h
        dsimp only at h
        have q1 : liftF (sizeQ G n .min c) (fl, a) = (.ok mn, (fl, a)) := by unfold liftF; dsimp only; rw [h1]
        have q2 : liftF (sizeQ G n .max c) (fl, a) = (.ok mx, (fl, a)) := by unfold liftF; dsimp only; rw [h2]
        have q3 : liftB (vecSplit n mn mx) (fl, a) = (.ok parts, (fl, a')) := by unfold liftB; dsimp only; rw [h3]
        rw [M.bind_ok q1, M.bind_ok q2, M.bind_ok q3] at h
        obtain ⟨ys, s4, h4, _⟩ := M.bind_eq_ok.1 h
        have := each_len (k := 0) (by omega) h4
        rw [List.length_map] at this
        omega
  · rintro ⟨mn, mx, parts, xs, ⟨N1, h1⟩, ⟨N2, h2⟩, ⟨n, h3⟩, h4, h5, rfl⟩
    have h4' : List.Forall₂ (PieceRun G fl) (parts.map fun p => (c, p)) xs := by
      rw [List.forall₂_map_left_iff]; exact h4
    obtain ⟨N, hN⟩ := pieces_fuel h4'
    set m := max (max N1 N2) (max n N) with hm
    refine ⟨m + 1, ?_⟩
    unfold extract
    rw [hG]
    dsimp only
    have q1 : liftF (sizeQ G m .min c) (fl, a) = (.ok mn, (fl, a)) := by
      unfold liftF; dsimp only; rw [h1 m (by omega)]
    have q2 : liftF (sizeQ G m .max c) (fl, a) = (.ok mx, (fl, a)) := by
      unfold liftF; dsimp only; rw [h2 m (by omega)]
    have q3 : liftB (vecSplit m mn mx) (fl, a) = (.ok parts, (fl, a')) := by
      unfold liftB; dsimp only; rw [vecSplit_lift (by omega) (by simp) h3]
    rw [M.bind_ok q1, M.bind_ok q2, M.bind_ok q3]
    have := each_ok (hN m (by omega)) a' 0 (by rw [List.length_map]; omega)
    rw [Nat.cast_zero] at this
    rw [M.bind_ok this]
    rfl

theorem list_ood_iff (hG : G i = some (.vec c join)) {a a' : ABlob} :
    ARun G fl i a .outOfData a' ↔ ∃ mn mx, HasMin G fl c mn ∧ HasMax G fl c mx ∧
      ((∃ n, vecSplit n mn mx a = (.outOfData, a')) ∨ ∃ pre p post xs,
        (∃ n, vecSplit n mn mx a = (.ok (pre ++ p :: post), a')) ∧ pre.length ≤ INT_MAX ∧
        List.Forall₂ (fun p x => PieceRun G fl (c, p) x) pre xs ∧ ∃ left, ARun G fl c p .outOfData left) := by
  constructor
  · rintro ⟨n, h⟩
    cases n with
    | zero => cases h
    | succ n =>
      unfold extract at h
      rw [hG] at h
      dsimp only at h
      rcases M.bind_eq_ood.1 h with h1 | ⟨mn, s1, h1, h⟩
      · exact absurd (congrArg Prod.fst h1) (keeps_sizeQ G n .min c fl).1
      obtain ⟨e1, rfl⟩ := liftF_ok (keeps_sizeQ _ _ _ _) h1
      rcases M.bind_eq_ood.1 h with h2 | ⟨mx, s1, h2, h⟩
      · exact absurd (congrArg Prod.fst h2) (keeps_sizeQ G n .max c fl).1
      obtain ⟨e2, rfl⟩ := liftF_ok (keeps_sizeQ _ _ _ _) h2
      refine ⟨mn, mx, .intro e1, .intro e2, ?_⟩
      rcases M.bind_eq_ood.1 h with h3 | ⟨parts, s3, h3, h⟩
      · left
        have h3 : ((vecSplit n mn mx a).1, (fl, (vecSplit n mn mx a).2)) = (.outOfData, (fl, a')) := h3
        simp only [Prod.mk.injEq, true_and] at h3
        exact ⟨n, Prod.ext h3.1 h3.2⟩
      · right
        obtain ⟨e3, e3'⟩ := liftB_ok h3
        rcases M.bind_eq_ood.1 h with h4 | ⟨_, _, _, h4⟩
        · obtain ⟨r1, pre, q, post, xs, left, r2, r3, r4, r5⟩ := each_ood_inv (k := 0) (by omega) h4
          obtain ⟨pre', rest, rfl, r6, r7⟩ := List.map_eq_append_iff.1 r2
          obtain ⟨p, post', rfl, r8, r9⟩ := List.map_eq_cons_iff.1 r7
          subst r8
          subst r6
          have hfl : s3.1 = fl := by rw [e3']
          have hb : s3.2 = a' := by rw [← r1]
          rw [List.length_map] at r3
          refine ⟨pre', p, post', xs, ⟨n, ?_⟩, by omega, ?_, left, n, ?_⟩
          · rw [← hb]; exact e3
          · rw [List.forall₂_map_left_iff] at r4
            refine r4.imp ?_
            rintro p x ⟨left, h⟩
            rw [hfl] at h
            exact ⟨left, n, h⟩
          · rw [hfl] at r5; exact r5
        · cases h4
  · rintro ⟨mn, mx, ⟨N1, h1⟩, ⟨N2, h2⟩, h⟩
    rcases h with ⟨n, h3⟩ | ⟨pre, p, post, xs, ⟨n, h3⟩, h5, h4, left, n', h6⟩
    · set m := max (max N1 N2) n with hm
      refine ⟨m + 1, ?_⟩
      unfold extract
      rw [hG]
      dsimp only
      have q1 : liftF (sizeQ G m .min c) (fl, a) = (.ok mn, (fl, a)) := by
        unfold liftF; dsimp only; rw [h1 m (by omega)]
      have q2 : liftF (sizeQ G m .max c) (fl, a) = (.ok mx, (fl, a)) := by
        unfold liftF; dsimp only; rw [h2 m (by omega)]
      have q3 : liftB (vecSplit m mn mx) (fl, a) = (.outOfData, (fl, a')) := by
        unfold liftB; dsimp only; rw [vecSplit_lift (by omega) (by simp) h3]
      rw [M.bind_ok q1, M.bind_ok q2, M.bind_ood q3]
    · have h4' : List.Forall₂ (PieceRun G fl) (pre.map fun p => (c, p)) xs := by
        rw [List.forall₂_map_left_iff]; exact h4
      obtain ⟨N, hN⟩ := pieces_fuel h4'
      set m := max (max (max N1 N2) (max n N)) n' with hm
      refine ⟨m + 1, ?_⟩
      unfold extract
      rw [hG]
      dsimp only
      have q1 : liftF (sizeQ G m .min c) (fl, a) = (.ok mn, (fl, a)) := by
        unfold liftF; dsimp only; rw [h1 m (by omega)]
      have q2 : liftF (sizeQ G m .max c) (fl, a) = (.ok mx, (fl, a)) := by
        unfold liftF; dsimp only; rw [h2 m (by omega)]
      have q3 : liftB (vecSplit m mn mx) (fl, a) = (.ok (pre ++ p :: post), (fl, a')) := by
        unfold liftB; dsimp only; rw [vecSplit_lift (by omega) (by simp) h3]
      rw [M.bind_ok q1, M.bind_ok q2, M.bind_ok q3]
      have := each_ood (post := post.map fun p => (c, p)) (q := (c, p)) (left := left) (hN m (by omega)) a'
        (lift_run (by omega) (by simp) h6) 0 (by rw [List.length_map]; omega)
      rw [Nat.cast_zero] at this
      rw [List.map_append, List.map_cons, M.bind_ood this]

/-! ## Sets -/

variable {cs : List Id} {unb : Bool}

theorem zip_map_pairs (ss : List SizePair) : (ss.map Prod.fst).zip (ss.map Prod.snd) = ss := by
  induction ss with
  | nil => rfl
  | cons s ss ih => simp [ih]

theorem haveSizes_of {n : Nat} {mns mxs : List Int}
    (h1 : List.Forall₂ (fun c v => sizeQ G n .min c fl = (.ok v, fl)) cs mns)
    (h2 : List.Forall₂ (fun c v => sizeQ G n .max c fl = (.ok v, fl)) cs mxs) : HaveSizes G fl cs (mns.zip mxs) := by
  induction h1 generalizing mxs with
  | nil => cases h2; exact .nil
  | cons h _ ih =>
    cases h2 with
    | cons h' h2 => exact .cons ⟨.intro h, .intro h'⟩ (ih h2)

theorem set_ok_iff (hG : G i = some (.set cs join unb)) {a a' : ABlob} {s : Bytes} :
    ARun G fl i a (.ok s) a' ↔ ∃ ss parts xs, HaveSizes G fl cs ss ∧ setSplit ss a = (.ok parts, a') ∧
      List.Forall₂ (PieceRun G fl) (cs.zip parts) xs ∧ cs.length ≤ INT_MAX ∧ s = join xs := by
  constructor
  · rintro ⟨n, h⟩
    cases n with
    | zero => cases h
    | succ n =>
      obtain ⟨mns, mxs, parts, xs, -, h1, h2, h3, h4, h5⟩ := extract_set_ok hG h
      have hs := haveSizes_of h1 h2
      have hl : parts.length = cs.length := by rw [setSplit_length h3, hs.length_eq]
      refine ⟨mns.zip mxs, parts, xs, hs, h3, ?_, ?_, h5⟩
      · refine h4.imp ?_
        rintro p x ⟨left, h⟩
        exact ⟨left, n, h⟩
      · unfold extract at h
        rw [hG] at h
        dsimp only at h
        obtain ⟨_, s1, e1, h⟩ := M.bind_eq_ok.1 h
        obtain ⟨_, s2, e2, h⟩ := M.bind_eq_ok.1 h
        obtain ⟨parts', s3, h3', h⟩ := M.bind_eq_ok.1 h
        obtain ⟨ys, s4, h4', _⟩ := M.bind_eq_ok.1 h
        have hlen := each_len (k := 0) (by omega) h4'
        have h6 := setSplit_length (liftB_ok h3').1
        obtain ⟨f1, rfl⟩ := liftF_ok (keeps_queryAll (fun j => keeps_sizeQ _ _ _ j) _) e1
        obtain ⟨f2, rfl⟩ := liftF_ok (keeps_queryAll (fun j => keeps_sizeQ _ _ _ j) _) e2
        have l1 := ((queryAll_ok (fun j => keeps_sizeQ _ _ _ j) f1).2).length_eq
        have l2 := ((queryAll_ok (fun j => keeps_sizeQ _ _ _ j) f2).2).length_eq
        rw [List.length_zip, ← l1, ← l2] at h6
        rw [List.length_zip, h6] at hlen
        omega
  · rintro ⟨ss, parts, xs, h1, h3, h4, h5, rfl⟩
    obtain ⟨N1, h2⟩ := queryAll_sizes h1
    obtain ⟨N, hN⟩ := pieces_fuel h4
    have hl : (cs.zip parts).length = cs.length := by
      rw [List.length_zip, setSplit_length h3, h1.length_eq, Nat.min_self]
    set m := max N1 N with hm
    obtain ⟨e1, e2⟩ := h2 m (by omega)
    refine ⟨m + 1, ?_⟩
    unfold extract
    rw [hG]
    dsimp only
    have q1 : liftF (queryAll (sizeQ G m .min) cs) (fl, a) = (.ok (ss.map Prod.fst), (fl, a)) := by
      unfold liftF; dsimp only; rw [e1]
    have q2 : liftF (queryAll (sizeQ G m .max) cs) (fl, a) = (.ok (ss.map Prod.snd), (fl, a)) := by
      unfold liftF; dsimp only; rw [e2]
    have q3 : liftB (setSplit ss) (fl, a) = (.ok parts, (fl, a')) := by
      unfold liftB; dsimp only; rw [h3]
    rw [M.bind_ok q1, M.bind_ok q2, zip_map_pairs, M.bind_ok q3]
    have := each_ok (hN m (by omega)) a' 0 (by omega)
    rw [Nat.cast_zero] at this
    rw [M.bind_ok this]
    rfl

theorem set_ood_iff (hG : G i = some (.set cs join unb)) {a a' : ABlob} :
    ARun G fl i a .outOfData a' ↔ ∃ ss, HaveSizes G fl cs ss ∧
      (setSplit ss a = (.outOfData, a') ∨ ∃ parts pre q post xs, setSplit ss a = (.ok parts, a') ∧
        cs.zip parts = pre ++ q :: post ∧ pre.length ≤ INT_MAX ∧
        List.Forall₂ (PieceRun G fl) pre xs ∧ ∃ left, ARun G fl q.1 q.2 .outOfData left) := by
  constructor
  · rintro ⟨n, h⟩
    cases n with
    | zero => cases h
    | succ n =>
      unfold extract at h
      rw [hG] at h
      dsimp only at h
      rcases M.bind_eq_ood.1 h with h1 | ⟨mns, s1, h1, h⟩
      · exact absurd (congrArg Prod.fst h1) (keeps_queryAll (fun j => keeps_sizeQ G n .min j) cs fl).1
      obtain ⟨e1, rfl⟩ := liftF_ok (keeps_queryAll (fun j => keeps_sizeQ _ _ _ j) _) h1
      rcases M.bind_eq_ood.1 h with h2 | ⟨mxs, s1, h2, h⟩
      · exact absurd (congrArg Prod.fst h2) (keeps_queryAll (fun j => keeps_sizeQ G n .max j) cs fl).1
      obtain ⟨e2, rfl⟩ := liftF_ok (keeps_queryAll (fun j => keeps_sizeQ _ _ _ j) _) h2
      refine ⟨mns.zip mxs, haveSizes_of (queryAll_ok (fun j => keeps_sizeQ _ _ _ j) e1).2
        (queryAll_ok (fun j => keeps_sizeQ _ _ _ j) e2).2, ?_⟩
      rcases M.bind_eq_ood.1 h with h3 | ⟨parts, s3, h3, h⟩
      · left
        have h3 : ((setSplit (mns.zip mxs) a).1, (fl, (setSplit (mns.zip mxs) a).2)) = (.outOfData, (fl, a')) := h3
        simp only [Prod.mk.injEq, true_and] at h3
        exact Prod.ext h3.1 h3.2
      · right
        obtain ⟨e3, e3'⟩ := liftB_ok h3
        rcases M.bind_eq_ood.1 h with h4 | ⟨_, _, _, h4⟩
        · obtain ⟨r1, pre, q, post, xs, left, r2, r3, r4, r5⟩ := each_ood_inv (k := 0) (by omega) h4
          have hfl : s3.1 = fl := by rw [e3']
          have hb : s3.2 = a' := by rw [← r1]
          refine ⟨parts, pre, q, post, xs, ?_, r2, by omega, ?_, left, n, ?_⟩
          · rw [← hb]; exact e3
          · refine r4.imp ?_
            rintro p x ⟨left, h⟩
            rw [hfl] at h
            exact ⟨left, n, h⟩
          · rw [hfl] at r5; exact r5
        · cases h4
  · rintro ⟨ss, h1, h⟩
    obtain ⟨N1, h2⟩ := queryAll_sizes h1
    rcases h with h3 | ⟨parts, pre, q, post, xs, h3, h7, h5, h4, left, n', h6⟩
    · obtain ⟨e1, e2⟩ := h2 N1 le_rfl
      refine ⟨N1 + 1, ?_⟩
      unfold extract
      rw [hG]
      dsimp only
      have q1 : liftF (queryAll (sizeQ G N1 .min) cs) (fl, a) = (.ok (ss.map Prod.fst), (fl, a)) := by
        unfold liftF; dsimp only; rw [e1]
      have q2 : liftF (queryAll (sizeQ G N1 .max) cs) (fl, a) = (.ok (ss.map Prod.snd), (fl, a)) := by
        unfold liftF; dsimp only; rw [e2]
      have q3 : liftB (setSplit ss) (fl, a) = (.outOfData, (fl, a')) := by
        unfold liftB; dsimp only; rw [h3]
      rw [M.bind_ok q1, M.bind_ok q2, zip_map_pairs, M.bind_ood q3]
    · obtain ⟨N, hN⟩ := pieces_fuel h4
      set m := max (max N1 N) n' with hm
      obtain ⟨e1, e2⟩ := h2 m (by omega)
      refine ⟨m + 1, ?_⟩
      unfold extract
      rw [hG]
      dsimp only
      have q1 : liftF (queryAll (sizeQ G m .min) cs) (fl, a) = (.ok (ss.map Prod.fst), (fl, a)) := by
        unfold liftF; dsimp only; rw [e1]
      have q2 : liftF (queryAll (sizeQ G m .max) cs) (fl, a) = (.ok (ss.map Prod.snd), (fl, a)) := by
        unfold liftF; dsimp only; rw [e2]
      have q3 : liftB (setSplit ss) (fl, a) = (.ok parts, (fl, a')) := by
        unfold liftB; dsimp only; rw [h3]
      rw [M.bind_ok q1, M.bind_ok q2, zip_map_pairs, M.bind_ok q3]
      have := each_ood (post := post) (q := q) (left := left) (hN m (by omega)) a'
        (lift_run (by omega) (by simp) h6) 0 (by omega)
      rw [Nat.cast_zero, ← h7] at this
      rw [M.bind_ood this]

/-! ## Sequences -/

/-- `InTurn` over the bytes left. -/
inductive ATurn (G : Graph) (fl : Flags) : List Id → ABlob → List Bytes → ABlob → Prop where
  | nil (a : ABlob) : ATurn G fl [] a [] a
  | cons {c : Id} {cs : List Id} {a mid left : ABlob} {x : Bytes} {xs : List Bytes}
      (h : ARun G fl c a (.ok x) mid) (hs : ATurn G fl cs mid xs left) : ATurn G fl (c :: cs) a (x :: xs) left

theorem ATurn.of {n : Nat} {a a' : ABlob} {xs : List Bytes} (h : SeqRuns (extract G n) fl cs a xs a') :
    ATurn G fl cs a xs a' := by
  induction h with
  | nil => exact .nil _
  | cons h _ ih => exact .cons ⟨n, h⟩ ih

theorem ATurn.run {a a' : ABlob} {xs : List Bytes} (h : ATurn G fl cs a xs a') :
    ∃ N, ∀ n ≥ N, extractSeq (extract G n) cs (fl, a) = (.ok xs, (fl, a')) := by
  induction h with
  | nil => exact ⟨0, fun _ _ => rfl⟩
  | cons h _ ih =>
    obtain ⟨N, ih⟩ := ih
    obtain ⟨m, h⟩ := h
    refine ⟨max N m, fun n hn => ?_⟩
    unfold extractSeq
    rw [M.bind_ok (lift_run (by omega) (by simp) h), M.bind_ok (ih n (by omega))]
    rfl

theorem seq_ok_iff (hG : G i = some (.seq cs join unb)) {a a' : ABlob} {s : Bytes} :
    ARun G fl i a (.ok s) a' ↔ ∃ xs, ATurn G fl cs a xs a' ∧ s = join xs := by
  constructor
  · rintro ⟨n, h⟩
    cases n with
    | zero => cases h
    | succ n =>
      obtain ⟨xs, -, h1, h2⟩ := extract_seq_ok hG h
      exact ⟨xs, .of h1, h2⟩
  · rintro ⟨xs, h, rfl⟩
    obtain ⟨N, h⟩ := h.run
    refine ⟨N + 1, ?_⟩
    unfold extract
    rw [hG]
    dsimp only
    rw [M.bind_ok (h N le_rfl)]
    rfl

theorem extractSeq_ood {n : Nat} {a : ABlob} {s' : Flags × ABlob}
    (h : extractSeq (extract G n) cs (fl, a) = (.outOfData, s')) :
    s'.1 = fl ∧ ∃ pre q post xs mid, cs = pre ++ q :: post ∧ ATurn G fl pre a xs mid ∧
      ARun G fl q mid .outOfData s'.2 := by
  induction cs generalizing a with
  | nil => cases h
  | cons c cs ih =>
    unfold extractSeq at h
    rcases M.bind_eq_ood.1 h with h1 | ⟨x, s1, h1, h'⟩
    · have e := keeps_extract G n c (fl, a) (Or.inr (by rw [h1]))
      rw [h1] at e
      refine ⟨e, [], c, cs, [], a, rfl, .nil _, n, ?_⟩
      rw [h1]
      exact Prod.ext rfl (Prod.ext e rfl)
    · have e := keeps_ok (keeps_extract G n c) h1
      obtain ⟨fl1, a1⟩ := s1
      dsimp only at e
      subst e
      rcases M.bind_eq_ood.1 h' with h2 | ⟨_, _, _, h2⟩
      · obtain ⟨r1, pre, q, post, xs, mid, r2, r3, r4⟩ := ih h2
        exact ⟨r1, c :: pre, q, post, x :: xs, mid, by rw [r2]; rfl, .cons ⟨n, h1⟩ r3, r4⟩
      · cases h2

theorem ATurn.run_ood {pre post : List Id} {q : Id} {a mid a' : ABlob} {xs : List Bytes} (h : ATurn G fl pre a xs mid)
    (hq : ARun G fl q mid .outOfData a') :
    ∃ N, ∀ n ≥ N, extractSeq (extract G n) (pre ++ q :: post) (fl, a) = (.outOfData, (fl, a')) := by
  induction h with
  | nil =>
    obtain ⟨m, hq⟩ := hq
    refine ⟨m, fun n hn => ?_⟩
    rw [List.nil_append]
    unfold extractSeq
    exact M.bind_ood (lift_run hn (by simp) hq)
  | cons h _ ih =>
    obtain ⟨N, ih⟩ := ih hq
    obtain ⟨m, h⟩ := h
    refine ⟨max N m, fun n hn => ?_⟩
    rw [List.cons_append]
    unfold extractSeq
    rw [M.bind_ok (lift_run (by omega) (by simp) h), M.bind_ood (ih n (by omega))]

theorem seq_ood_iff (hG : G i = some (.seq cs join unb)) {a a' : ABlob} :
    ARun G fl i a .outOfData a' ↔ ∃ pre q post xs mid, cs = pre ++ q :: post ∧ ATurn G fl pre a xs mid ∧
      ARun G fl q mid .outOfData a' := by
  constructor
  · rintro ⟨n, h⟩
    cases n with
    | zero => cases h
    | succ n =>
      unfold extract at h
      rw [hG] at h
      dsimp only at h
      rcases M.bind_eq_ood.1 h with h1 | ⟨_, _, _, h1⟩
      · exact (extractSeq_ood h1).2
      · cases h1
  · rintro ⟨pre, q, post, xs, mid, rfl, h, hq⟩
    obtain ⟨N, h⟩ := h.run_ood (post := post) hq
    refine ⟨N + 1, ?_⟩
    unfold extract
    rw [hG]
    dsimp only
    rw [M.bind_ood (h N le_rfl)]

/-! ## C67 -/

theorem VecReturns.part_lt {mn mx : Int} {b : Blob} {parts : List Bytes} {left : Bytes}
    (hr : Reachable b) (h : VecReturns mn mx b parts left) : ∀ p ∈ parts, p.length < 9223372036854775808 := by
  obtain ⟨ps, b', -, h2, -⟩ := vec_blobs hr h
  intro p hp
  obtain ⟨c, -, hc⟩ := forall₂_mem h2.flip hp
  obtain ⟨⟨_, h1⟩, h2⟩ := hc
  rw [← h2]
  unfold Blob.abs
  split at h1
  · simp
  · simp only [List.length_take, List.length_drop]; omega

theorem VecThrows.inv {mn mx : Int} {b : Blob} {bs : Bytes} (hb : b.Valid) (hh : Holds b bs) {left : Bytes}
    (h : VecThrows mn mx b left) : ∃ n, vecSplit n mn mx (bs : ABlob) = (.outOfData, left) := by
  rw [holds_iff hb] at hh
  subst hh
  obtain ⟨b', ⟨n, h0⟩, h3⟩ := h
  refine ⟨n, ?_⟩
  have h1 := h0 n le_rfl
  obtain ⟨s1, s2⟩ := sim_vecSplit n mn mx b b.abs ⟨hb, rfl⟩
  rw [h1] at s1 s2
  rcases he : vecSplit n mn mx b.abs with ⟨o, a'⟩
  rw [he] at s1 s2
  cases s1
  have e1 : a' = left := by
    have := (holds_iff s2.1 _).1 h3
    rw [← this]; exact s2.2.symm
  rw [e1]

theorem SetThrows.inv {ss : List SizePair} {b : Blob} {bs : Bytes} (hb : b.Valid) (hh : Holds b bs) {left : Bytes}
    (h : SetThrows ss b left) : setSplit ss (bs : ABlob) = (.outOfData, left) := by
  rw [holds_iff hb] at hh
  subst hh
  obtain ⟨b', h1, h3⟩ := h
  obtain ⟨s1, s2⟩ := sim_setSplit ss b b.abs ⟨hb, rfl⟩
  rw [h1] at s1 s2
  rcases he : setSplit ss b.abs with ⟨o, a'⟩
  rw [he] at s1 s2
  cases s1
  have e1 : a' = left := by
    have := (holds_iff s2.1 _).1 h3
    rw [← this]; exact s2.2.symm
  rw [e1]

theorem forall₂_on {γ δ : Type} {R S : γ → δ → Prop} {l : List γ} {r : List δ} (h : List.Forall₂ R l r)
    (hi : ∀ x ∈ l, ∀ y, R x y → S x y) : List.Forall₂ S l r := by
  induction h with
  | nil => exact .nil
  | cons h _ ih => exact .cons (hi _ (by simp) _ h) (ih fun x hx => hi x (List.mem_cons_of_mem _ hx))

/-- **C67**, lists (`StampStrEnumerator`, `StampText`): a list stamp returns a text exactly when the blob splits
into pieces, the element stamp gives a text for each of them, and the pieces can be counted in an `int`. It throws
exactly when the split throws, or the element stamp throws on a piece after giving texts for the ones before. -/
theorem C67_list (hG : G i = some (.vec c join)) {b : Blob} (hr : Reachable b) :
    (∀ s left, Returns G fl i b s left ↔ ∃ mn mx parts xs, HasMin G fl c mn ∧ HasMax G fl c mx ∧
      VecReturns mn mx b parts left ∧ List.Forall₂ (Gives G fl c) parts xs ∧ parts.length ≤ INT_MAX ∧ s = join xs) ∧
    (∀ left, Throws G fl i b left ↔ ∃ mn mx, HasMin G fl c mn ∧ HasMax G fl c mx ∧
      (VecThrows mn mx b left ∨ ∃ pre p post xs, VecReturns mn mx b (pre ++ p :: post) left ∧
        pre.length ≤ INT_MAX ∧ List.Forall₂ (Gives G fl c) pre xs ∧ Refuses G fl c p)) := by
  have hh : Holds b b.abs := (holds_iff hr.valid _).2 rfl
  refine ⟨fun s left => ?_, fun left => ?_⟩
  · rw [returns_iff hr hh, list_ok_iff hG]
    refine exists_congr fun mn => exists_congr fun mx => exists_congr fun parts => exists_congr fun xs => ?_
    constructor
    · rintro ⟨h1, h2, ⟨n, h3⟩, h4, h5, h6⟩
      have hv : VecReturns mn mx b parts left := VecReturns.intro hr.valid hh h3
      exact ⟨h1, h2, hv, forall₂_on h4 fun p hp x hx => (gives_iff (hv.part_lt hr p hp)).2 hx, h5, h6⟩
    · rintro ⟨h1, h2, hv, h4, h5, h6⟩
      exact ⟨h1, h2, VecReturns.inv hr.valid hh hv,
        forall₂_on h4 fun p hp x hx => (gives_iff (hv.part_lt hr p hp)).1 hx, h5, h6⟩
  · rw [throws_iff hr hh, list_ood_iff hG]
    refine exists_congr fun mn => exists_congr fun mx => ?_
    constructor
    · rintro ⟨h1, h2, h⟩
      refine ⟨h1, h2, ?_⟩
      rcases h with ⟨n, h⟩ | ⟨pre, p, post, xs, ⟨n, h3⟩, h5, h4, hl⟩
      · exact .inl (VecThrows.intro hr.valid hh h)
      · have hv : VecReturns mn mx b (pre ++ p :: post) left := VecReturns.intro hr.valid hh h3
        exact .inr ⟨pre, p, post, xs, hv, h5,
          forall₂_on h4 fun p hp x hx => (gives_iff (hv.part_lt hr p (by simp [hp]))).2 hx,
          (refuses_iff (hv.part_lt hr p (by simp))).2 hl⟩
    · rintro ⟨h1, h2, h⟩
      refine ⟨h1, h2, ?_⟩
      rcases h with h | ⟨pre, p, post, xs, hv, h5, h4, hl⟩
      · exact .inl (VecThrows.inv hr.valid hh h)
      · exact .inr ⟨pre, p, post, xs, VecReturns.inv hr.valid hh hv, h5,
          forall₂_on h4 fun p hp x hx => (gives_iff (hv.part_lt hr p (by simp [hp]))).1 hx,
          (refuses_iff (hv.part_lt hr p (by simp))).1 hl⟩

/-- **C67**, sets (`StampMathBinaryOp` and set galleys): the same for one piece per stamp. -/
theorem C67_set (hG : G i = some (.set cs join unb)) {b : Blob} (hr : Reachable b) :
    (∀ s left, Returns G fl i b s left ↔ ∃ ss parts xs, HaveSizes G fl cs ss ∧ SetReturns ss b parts left ∧
      List.Forall₂ (fun q x => Gives G fl q.1 q.2 x) (cs.zip parts) xs ∧ cs.length ≤ INT_MAX ∧ s = join xs) ∧
    (∀ left, Throws G fl i b left ↔ ∃ ss, HaveSizes G fl cs ss ∧
      (SetThrows ss b left ∨ ∃ parts pre q post xs, SetReturns ss b parts left ∧ cs.zip parts = pre ++ q :: post ∧
        pre.length ≤ INT_MAX ∧ List.Forall₂ (fun q x => Gives G fl q.1 q.2 x) pre xs ∧ Refuses G fl q.1 q.2)) := by
  have hh : Holds b b.abs := (holds_iff hr.valid _).2 rfl
  have hlt : ∀ {ss parts left}, SetReturns ss b parts left → ∀ q ∈ cs.zip parts, q.2.length < 9223372036854775808 :=
    fun hv q hq => hv.part_lt hr q.2 (List.of_mem_zip (a := q.1) (b := q.2) hq).2
  refine ⟨fun s left => ?_, fun left => ?_⟩
  · rw [returns_iff hr hh, set_ok_iff hG]
    refine exists_congr fun ss => exists_congr fun parts => exists_congr fun xs => ?_
    constructor
    · rintro ⟨h1, h3, h4, h5, h6⟩
      have hv : SetReturns ss b parts left := SetReturns.intro hr.valid hh h3
      exact ⟨h1, hv, forall₂_on h4 fun q hq x hx => (gives_iff (hlt hv q hq)).2 hx, h5, h6⟩
    · rintro ⟨h1, hv, h4, h5, h6⟩
      exact ⟨h1, SetReturns.inv hr.valid hh hv, forall₂_on h4 fun q hq x hx => (gives_iff (hlt hv q hq)).1 hx, h5, h6⟩
  · rw [throws_iff hr hh, set_ood_iff hG]
    refine exists_congr fun ss => ?_
    constructor
    · rintro ⟨h1, h⟩
      refine ⟨h1, ?_⟩
      rcases h with h | ⟨parts, pre, q, post, xs, h3, h7, h5, h4, hl⟩
      · exact .inl (SetThrows.intro hr.valid hh h)
      · have hv : SetReturns ss b parts left := SetReturns.intro hr.valid hh h3
        exact .inr ⟨parts, pre, q, post, xs, hv, h7, h5,
          forall₂_on h4 fun p hp x hx => (gives_iff (hlt hv p (by rw [h7]; simp [hp]))).2 hx,
          (refuses_iff (hlt hv q (by rw [h7]; simp))).2 hl⟩
    · rintro ⟨h1, h⟩
      refine ⟨h1, ?_⟩
      rcases h with h | ⟨parts, pre, q, post, xs, hv, h7, h5, h4, hl⟩
      · exact .inl (SetThrows.inv hr.valid hh h)
      · exact .inr ⟨parts, pre, q, post, xs, SetReturns.inv hr.valid hh hv, h7, h5,
          forall₂_on h4 fun p hp x hx => (gives_iff (hlt hv p (by rw [h7]; simp [hp]))).1 hx,
          (refuses_iff (hlt hv q (by rw [h7]; simp))).1 hl⟩

theorem reachable_abs {b : Blob} {bs : Bytes} (hr : Reachable b) (hh : Holds b bs) : bs.length < 9223372036854775808 := by
  obtain ⟨_, h1⟩ := hr.valid
  rw [holds_iff hr.valid] at hh
  rw [← hh]
  unfold Blob.abs
  split at h1
  · simp
  · simp only [List.length_take, List.length_drop]; omega

theorem ARun.left_le {a a' : ABlob} {o : Out Bytes} {b : Blob} (hr : Reachable b) (hh : Holds b a)
    (h : ARun G fl c a o a') (ho : o ≠ .fuel) : a'.length < 9223372036854775808 := by
  obtain ⟨n, h⟩ := h
  rw [holds_iff hr.valid] at hh
  subst hh
  obtain ⟨b', -, hv, e⟩ := Extracts.conc hr.valid ho (Extracts.intro h ho)
  rw [← e]
  obtain ⟨_, h1⟩ := hv
  unfold Blob.abs
  split at h1
  · simp
  · simp only [List.length_take, List.length_drop]; omega

theorem inTurn_iff {bs left : Bytes} {xs : List Bytes} (hl : bs.length < 9223372036854775808) :
    InTurn G fl cs bs xs left ↔ ATurn G fl cs bs xs left := by
  constructor
  · intro h
    induction h with
    | nil => exact .nil _
    | cons h _ ih =>
      obtain ⟨b, hr, hh⟩ := exists_blob hl
      have h1 := (returns_iff hr hh).1 (h b hr hh)
      exact .cons h1 (ih (h1.left_le hr hh (by simp)))
  · intro h
    induction h with
    | nil => exact .nil _
    | cons h _ ih =>
      obtain ⟨b, hr, hh⟩ := exists_blob hl
      exact .cons (fun b hr hh => (returns_iff hr hh).2 h) (ih (h.left_le hr hh (by simp)))

theorem ATurn.left_lt {a a' : ABlob} {xs : List Bytes} (hl : a.length < 9223372036854775808) (h : ATurn G fl cs a xs a') :
    a'.length < 9223372036854775808 := by
  induction h with
  | nil => exact hl
  | cons h _ ih =>
    obtain ⟨b, hr, hh⟩ := exists_blob hl
    exact ih (h.left_le hr hh (by simp))

/-- **C67**, stamps that call others in turn (members of JSON objects, user-written stamps as in README.md): they
return a text exactly when each of the others does on what is left by the one before; they throw exactly when one
of them throws, leaving what that one leaves. -/
theorem C67_seq (hG : G i = some (.seq cs join unb)) {b : Blob} {bs : Bytes} (hr : Reachable b) (hh : Holds b bs) :
    (∀ s left, Returns G fl i b s left ↔ ∃ xs, InTurn G fl cs bs xs left ∧ s = join xs) ∧
    (∀ left, Throws G fl i b left ↔ ∃ pre q post xs mid, cs = pre ++ q :: post ∧ InTurn G fl pre bs xs mid ∧
      ∀ b', Reachable b' → Holds b' mid → Throws G fl q b' left) := by
  have hl := reachable_abs hr hh
  refine ⟨fun s left => ?_, fun left => ?_⟩
  · rw [returns_iff hr hh, seq_ok_iff hG]
    exact exists_congr fun xs => by rw [inTurn_iff hl]
  · rw [throws_iff hr hh, seq_ood_iff hG]
    refine exists_congr fun pre => exists_congr fun q => exists_congr fun post => exists_congr fun xs =>
      exists_congr fun mid => ?_
    rw [inTurn_iff hl]
    constructor
    · rintro ⟨h1, h2, h3⟩
      exact ⟨h1, h2, fun b' hr' hh' => (throws_iff hr' hh').2 h3⟩
    · rintro ⟨h1, h2, h3⟩
      obtain ⟨b', hr', hh'⟩ := exists_blob (h2.left_lt hl)
      exact ⟨h1, h2, (throws_iff hr' hh').1 (h3 b' hr' hh')⟩

/-- **C67**, unary operators: exactly when the operand does, on the same bytes. -/
theorem C67_unary {op : Bytes} (hG : G i = some (.unary op c)) {b : Blob} (hr : Reachable b) :
    (∀ s left, Returns G fl i b s left ↔ ∃ x, Returns G fl c b x left ∧ s = op ++ [40] ++ x ++ [41]) ∧
    (∀ left, Throws G fl i b left ↔ Throws G fl c b left) := by
  have hh : Holds b b.abs := (holds_iff hr.valid _).2 rfl
  refine ⟨fun s left => ?_, fun left => ?_⟩
  · rw [returns_iff hr hh]
    constructor
    · rintro ⟨n, h⟩
      cases n with
      | zero => cases h
      | succ n =>
        obtain ⟨x, -, h1, h2⟩ := extract_unary_ok hG h
        exact ⟨x, (returns_iff hr hh).2 ⟨n, h1⟩, h2⟩
    · rintro ⟨x, h, rfl⟩
      obtain ⟨n, h⟩ := (returns_iff hr hh).1 h
      refine ⟨n + 1, ?_⟩
      unfold extract
      rw [hG]
      dsimp only
      rw [M.bind_ok h]
      rfl
  · rw [throws_iff hr hh, throws_iff hr hh]
    constructor
    · rintro ⟨n, h⟩
      cases n with
      | zero => cases h
      | succ n =>
        unfold extract at h
        rw [hG] at h
        dsimp only at h
        rcases M.bind_eq_ood.1 h with h1 | ⟨_, _, _, h1⟩
        · exact ⟨n, h1⟩
        · cases h1
    · rintro ⟨n, h⟩
      refine ⟨n + 1, ?_⟩
      unfold extract
      rw [hG]
      dsimp only
      exact M.bind_ood h

end

/-- Two shorts in turn. -/
def turnGraph : Graph
  | 0 => some (.seq [1, 1] (fun xs => xs.flatten) false)
  | 1 => some (.arith .i16)
  | _ => none

/-- On five bytes they give `1` and `2`, and a byte is left; on three the second one throws. -/
example {b : Blob} (hr : Reachable b) (hh : Holds b [1, 0, 2, 0, 9]) : Returns turnGraph Flags.init 0 b [49, 50] [9] := by
  refine ((C67_seq rfl hr hh).1 _ _).2 ⟨[[49], [50]], .cons (mid := [2, 0, 9]) ?_ (.cons (mid := [9]) ?_ (.nil _)), rfl⟩
  all_goals
    intro b hr hh
    refine Returns.intro hr.valid hh (Extracts.intro (n := 1) (extract_eval ?_ ?_) (by simp)) <;> decide +kernel

example {b : Blob} (hr : Reachable b) (hh : Holds b [1, 0, 2]) : Throws turnGraph Flags.init 0 b [2] := by
  refine ((C67_seq rfl hr hh).2 _).2 ⟨[1], 1, [], [[49]], [2], rfl, .cons ?_ (.nil _), ?_⟩ <;> intro b hr hh
  · refine Returns.intro hr.valid hh (Extracts.intro (n := 1) (extract_eval ?_ ?_) (by simp)) <;> decide +kernel
  · exact Throws.intro hr.valid hh (Extracts.intro (n := 1) (by rfl) (by simp))

end BS
