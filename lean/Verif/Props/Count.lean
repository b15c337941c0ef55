import Verif.Spec.Count
import Verif.Props.Blind
import Verif.Props.Variated

/-!
# C96: there are no more texts than data
-/

namespace BS

/-- All byte strings of a length. -/
def stringsOf : Nat → List Bytes
  | 0 => [[]]
  | n + 1 => (List.range 256).flatMap fun x => (stringsOf n).map fun p => UInt8.ofNat x :: p

theorem stringsOf_length (n : Nat) : (stringsOf n).length = 256 ^ n := by
  induction n with
  | zero => rfl
  | succ n ih =>
    unfold stringsOf
    rw [List.length_flatMap]
    simp only [List.length_map, ih, List.map_const', List.length_range, List.sum_replicate, smul_eq_mul]
    rw [pow_succ, mul_comm]

theorem mem_stringsOf (p : Bytes) : p ∈ stringsOf p.length := by
  induction p with
  | nil => exact List.mem_singleton.2 rfl
  | cons x p ih =>
    show x :: p ∈ stringsOf (p.length + 1)
    unfold stringsOf
    refine List.mem_flatMap.2 ⟨x.toNat, List.mem_range.2 x.toNat_lt, List.mem_map.2 ⟨p, ih, ?_⟩⟩
    rw [UInt8.ofNat_toNat]

theorem returns_fun {G : Graph} {fl : Flags} {i : Id} {b : Blob} {s s' left left' : Bytes} (h : Returns G fl i b s left)
    (h' : Returns G fl i b s' left') : s = s' ∧ left = left' := by
  obtain ⟨b1, ⟨N, e⟩, h1⟩ := h
  obtain ⟨b2, ⟨N', e'⟩, h2⟩ := h'
  have := (e _ (Nat.le_max_left N N')).symm.trans (e' _ (Nat.le_max_right N N'))
  cases this
  unfold Holds at h1 h2
  rw [h1] at h2
  exact ⟨rfl, Out.ok.inj h2⟩

section
variable {G : Graph} {fl : Flags} {i : Id}

/-- Blobs of one size that begin with the same `k` bytes give the same text, if one extraction takes no more than these. -/
theorem same_text (hu : LocalUsers G) {b c : Blob} {bs cs s s' left left' : Bytes} (hb : Reachable b) (hc : Reachable c)
    (hhb : Holds b bs) (hhc : Holds c cs) (hn : bs.length = cs.length) {k : Nat} (hk : bs.take k = cs.take k)
    (h : Returns G fl i b s left) (h' : Returns G fl i c s' left') (ht : bs.length ≤ left.length + k) : s = s' := by
  obtain ⟨took, rfl, H⟩ := C95_returns hu hb hhb h
  rw [List.length_append] at ht hn
  have e : took = cs.take took.length := by
    have : (took ++ left).take took.length = cs.take took.length := by
      have := congrArg (List.take took.length) hk
      rwa [List.take_take, List.take_take, Nat.min_eq_left (by omega)] at this
    rwa [List.take_left] at this
  have e2 : cs = took ++ cs.drop took.length := by
    conv_lhs => rw [← List.take_append_drop took.length cs, ← e]
  rw [e2] at hhc
  exact (returns_fun (H c _ hc hhc (by rw [List.length_drop]; omega)) h').1

/-- **C96.** If a stamp takes at most `k` of `n` bytes, it makes at most 256 to the `k` texts of them. -/
theorem C96_count (hu : LocalUsers G) {n k : Nat} (hk : ∀ b bs s left, Reachable b → Holds b bs → bs.length = n →
    Returns G fl i b s left → n ≤ left.length + k) : AtMost (256 ^ k) fun s => ∃ left, Makes G fl i n s left := by
  classical
  let Q : Bytes → Bytes → Prop := fun p s => ∃ b bs left, Reachable b ∧ Holds b bs ∧ bs.length = n ∧ bs.take k = p ∧
    Returns G fl i b s left
  let f : Bytes → Option Bytes := fun p => if h : ∃ s, Q p s then some h.choose else none
  refine ⟨(stringsOf (min k n)).filterMap f, ?_, ?_⟩
  · refine (List.length_filterMap_le _ _).trans ?_
    rw [stringsOf_length]
    exact Nat.pow_le_pow_right (by norm_num) (Nat.min_le_left _ _)
  · rintro s ⟨left, b, bs, hr, hh, hn, h⟩
    have hQ : Q (bs.take k) s := ⟨b, bs, left, hr, hh, hn, rfl, h⟩
    refine List.mem_filterMap.2 ⟨bs.take k, ?_, ?_⟩
    · have := mem_stringsOf (bs.take k)
      rwa [List.length_take, hn] at this
    · have hex : ∃ s, Q (bs.take k) s := ⟨s, hQ⟩
      show (if h : ∃ s, Q (bs.take k) s then some h.choose else none) = some s
      rw [dif_pos hex]
      obtain ⟨c, cs, left', hr', hh', hn', e, h'⟩ := hex.choose_spec
      congr 1
      exact (same_text hu hr hr' hh hh' (by omega) e.symm h h' (by have := hk b bs s left hr hh hn h; omega)).symm

/-- **C96.** In particular, of `n` bytes at most 256 to the `n` texts can be made. -/
theorem C96_any (hu : LocalUsers G) (n : Nat) : AtMost (256 ^ n) fun s => ∃ left, Makes G fl i n s left :=
  C96_count hu fun _ _ _ _ _ _ _ _ => Nat.le_add_left _ _

/-- **C96.** Stamps of bounded size make at most 256 to the greatest size texts of data of any one size, however much that is. -/
theorem C96_bounded (hu : LocalUsers G) {N : Nat} (hN : N ≤ 2147483646) (hf : Unmarked G N fl) {lo hi : Nat}
    (h : VarStamp G N i lo hi) {n : Nat} (hn : n ≤ N) :
    HasMax G fl i hi ∧ AtMost (256 ^ hi) fun s => ∃ left, Makes G fl i n s left := by
  obtain ⟨-, h2, h3⟩ := C40_bounded_partial hN hf h
  refine ⟨h2, C96_count hu fun b bs s left hr hh e hret => ?_⟩
  have := h3 b bs s left hr hh (by omega) hret
  omega

end

/-! ## The bound is reached -/

theorem digit_head {l : Bytes} (h : IsNumeral l) (l' : Bytes) : l ≠ 45 :: l' := by
  rintro rfl
  have := h.2.1 45 (List.mem_cons_self ..)
  revert this
  unfold IsDigit
  decide

theorem DenotesInt.unique {l : Bytes} {i j : Int} (h : DenotesInt l i) (h' : DenotesInt l j) : i = j := by
  rcases h with ⟨_, h1, h2⟩ | ⟨_, l1, h1, h2, h3⟩ <;> rcases h' with ⟨_, h4, h5⟩ | ⟨_, l2, h4, h5, h6⟩
  · omega
  · exact (digit_head h1 _ h4).elim
  · exact (digit_head h4 _ h1).elim
  · obtain rfl : l1 = l2 := List.tail_eq_of_cons_eq (h1.symm.trans h4)
    omega

theorem stringsOf_nodup (n : Nat) : (stringsOf n).Nodup := by
  induction n with
  | zero => exact List.nodup_singleton _
  | succ n ih =>
    unfold stringsOf
    refine List.nodup_flatMap.2 ⟨fun x _ => ih.map fun p q e => (List.cons.inj e).2, ?_⟩
    refine List.Pairwise.imp_of_mem ?_ (List.nodup_range (n := 256))
    intro x y hx hy hne p h1 h2
    obtain ⟨p1, _, rfl⟩ := List.mem_map.1 h1
    obtain ⟨p2, _, e⟩ := List.mem_map.1 h2
    have e1 := congrArg UInt8.toNat (List.cons.inj e).1
    rw [UInt8.toNat_ofNat', UInt8.toNat_ofNat', Nat.mod_eq_of_lt (List.mem_range.1 hy), Nat.mod_eq_of_lt (List.mem_range.1 hx)] at e1
    exact hne e1.symm

theorem length_of_mem_stringsOf {n : Nat} {p : Bytes} (h : p ∈ stringsOf n) : p.length = n := by
  induction n generalizing p with
  | zero => rw [List.mem_singleton.1 h]; rfl
  | succ n ih =>
    unfold stringsOf at h
    obtain ⟨x, _, h⟩ := List.mem_flatMap.1 h
    obtain ⟨q, hq, rfl⟩ := List.mem_map.1 h
    rw [List.length_cons, ih hq]

/-- **C96.** The bound is reached by the stamps for integers of every type but `signed char`: of `n` bytes they make exactly as
many texts as there are values. -/
theorem C96_reached {G : Graph} {fl : Flags} {i : Id} {t : ArithTy} (hG : G i = some (.arith t)) (ht : t.isInt = true) (h8 : t ≠ .i8)
    {n : Nat} (hn : sizeofT t ≤ n) (hN : n < 9223372036854775808) : AtLeast (256 ^ sizeofT t) fun s => ∃ left, Makes G fl i n s left := by
  have hz := sizeofT_eq t
  rw [hz] at hn ⊢
  have hd : ∀ p : Bytes, ∃ v, decode t p = .int v := by
    intro p
    unfold decode
    dsimp only
    rw [if_pos ht]
    split <;> exact ⟨_, rfl⟩
  choose v hv using hd
  have run : ∀ p ∈ stringsOf t.size, ∃ left, Makes G fl i n (intDec (v p)) left := by
    intro p hp
    have hl := length_of_mem_stringsOf hp
    obtain ⟨b, hr, hh⟩ := exists_blob (bs := p ++ List.replicate (n - t.size) 0)
      (by rw [List.length_append, List.length_replicate]; omega)
    refine ⟨List.replicate (n - t.size) 0, b, _, hr, hh, by rw [List.length_append, List.length_replicate]; omega, ?_⟩
    refine (returns_iff hr hh).2 ⟨1, ?_⟩
    unfold extract
    rw [hG]
    have e := extractArithStr_abs t (p ++ List.replicate (n - t.size) 0)
    rw [if_neg (by rw [List.length_append]; omega), List.take_left' hl, List.drop_left' hl, hv] at e
    have e2 : toStringPrecise t (.int (v p)) = .ok (intDec (v p)) := by
      cases t <;> first | rfl | exact absurd rfl h8
    rw [e2] at e
    unfold liftB
    dsimp only
    rw [e]
  refine ⟨(stringsOf t.size).map fun p => intDec (v p), ?_, ?_, ?_⟩
  · rw [List.length_map, stringsOf_length]
  · refine List.Nodup.map_on ?_ (stringsOf_nodup _)
    intro p hp q hq e
    have e1 : v p = v q := by
      have h1 := intDec_spec (v p)
      rw [e] at h1
      exact h1.unique (intDec_spec (v q))
    have hp' := length_of_mem_stringsOf hp
    have hq' := length_of_mem_stringsOf hq
    have r1 := decode_hasRepr t hp'
    have r2 := decode_hasRepr t hq'
    rw [hv] at r1 r2
    rw [e1] at r1
    exact (C06_unique t (by rw [hz]; exact hp') (by rw [hz]; exact hq')).2 _ r1 r2
  · intro s hs
    obtain ⟨p, hp, rfl⟩ := List.mem_map.1 hs
    exact run p hp

/-- Of seven bytes a stamp for `unsigned short` makes exactly 65536 texts. -/
example : AtLeast 65536 (fun s => ∃ left, Makes (fun _ => some (.arith .u16)) Flags.init 0 7 s left) ∧
    AtMost 65536 (fun s => ∃ left, Makes (fun _ => some (.arith .u16)) Flags.init 0 7 s left) := by
  refine ⟨C96_reached (t := .u16) (n := 7) rfl rfl (by decide) (by decide) (by norm_num), ?_⟩
  refine C96_count (k := 2) (fun _ _ h => by cases h) fun b bs s left hr hh hn h => ?_
  obtain ⟨m, h⟩ := (returns_iff hr hh).1 h
  cases m with
  | zero => cases h
  | succ m =>
    have e := extractArithStr_abs .u16 bs
    rw [if_neg (by rw [hn]; decide)] at e
    unfold extract at h
    dsimp only at h
    unfold liftB at h
    dsimp only at h
    rw [e] at h
    have : List.drop (ArithTy.size .u16) bs = left := by injection h with _ h; injection h
    rw [← this, List.length_drop, hn]
    decide

/-- A choice between a byte and a 32-bit number takes at most 6 bytes: it makes at most 256 to the 6 texts of a thousand bytes. -/
example : AtMost (256 ^ 6) fun s => ∃ left, Makes variedGraph Flags.init 2 1000 s left := by
  refine (C96_bounded (fun i u h => ?_) (N := 1000) (by norm_num) (fun _ _ _ _ => rfl) variedGraph_choice le_rfl).2
  match i with
  | 0 | 1 | 2 | 3 | 4 | 5 => cases h

theorem AtLeast.le {m k : Nat} {P : Bytes → Prop} (h : AtLeast m P) (h' : AtMost k P) : m ≤ k := by
  obtain ⟨l, h1, h2, h3⟩ := h
  obtain ⟨l', h4, h5⟩ := h'
  exact (h1.trans (List.subperm_of_subset h2 fun s hs => h5 s (h3 s hs)).length_le).trans h4

/-- **C96** is false for a stamp of a client that looks at bytes it does not take: this one takes one byte of three, and makes
65536 texts. -/
theorem C96_violated_user : (∀ b bs s left, Reachable b → Holds b bs → bs.length = 3 → Returns peekGraph Flags.init 0 b s left →
      3 ≤ left.length + 1) ∧
    ¬ AtMost (256 ^ 1) fun s => ∃ left, Makes peekGraph Flags.init 0 3 s left := by
  have run : ∀ x y z n, extract peekGraph (n + 1) 0 (Flags.init, ([x, y, z] : ABlob)) = (.ok [y, z], (Flags.init, ([y, z] : ABlob))) :=
    fun _ _ _ _ => rfl
  constructor
  · intro b bs s left hr hh hl h
    match bs, hl with
    | [x, y, z], _ =>
      obtain ⟨n, h⟩ := (returns_iff hr hh).1 h
      cases n with
      | zero => cases h
      | succ n =>
        rw [run] at h
        cases h
        exact le_rfl
  · intro h
    have h2 : AtLeast (256 ^ 2) fun s => ∃ left, Makes peekGraph Flags.init 0 3 s left := by
      refine ⟨stringsOf 2, (stringsOf_length 2).ge, stringsOf_nodup 2, fun s hs => ?_⟩
      match s, length_of_mem_stringsOf hs with
      | [y, z], _ =>
        obtain ⟨b, hr, hh⟩ := exists_blob (bs := [1, y, z]) (by simp)
        exact ⟨[y, z], b, _, hr, hh, rfl, (returns_iff hr hh).2 ⟨1, run _ _ _ _⟩⟩
    have := h2.le h
    norm_num at this

end BS
