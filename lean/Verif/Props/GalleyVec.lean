import Verif.Lemmas.GalleyUnb

/-!
# C16-C20: the vector galley
-/

namespace BS
open BlobLike

/-! ## C16 -/

theorem vecSplit_small {n : Nat} {mn mx : Int} (h0 : 0 ≤ mn) (h1 : mn ≤ INT_MAX) {a : ABlob}
    (h : (a.length : Int) < mn) : vecSplit n mn mx a = (.outOfData, a) := by
  unfold vecSplit
  rw [M.bind_ok (M.get_apply a), if_pos]
  · rfl
  · rw [size_abs, toSz_of_nonneg h0 (by omega)]; omega

theorem vecSplit_enough {n : Nat} {mn mx : Int} (h0 : 0 ≤ mn) (h1 : mn ≤ INT_MAX) {a : ABlob}
    (h : mn ≤ (a.length : Int)) : vecSplit n mn mx a =
      (if mn = mx then fixedLoop n mn
        else if mx = -1 then vecUnbounded mn
        else do
          let _ ← M.lift (ckInt (mx - mn))
          variatedLoop n mn mx : M ABlob (List ABlob)) a := by
  unfold vecSplit
  rw [M.bind_ok (M.get_apply a), if_neg]
  rw [size_abs, toSz_of_nonneg h0 (by omega)]; omega

/-- **C16.** Over a stamp of fixed size `n ≥ 1`: fewer than `n` bytes throw `OutOfData` and the blob
keeps them; otherwise the blob is cut into `Size / n` consecutive pieces of exactly `n` bytes and
fewer than `n` bytes are left. -/
theorem C16_fixed_pieces {n : Nat} (h1 : 1 ≤ n) (h2 : n ≤ INT_MAX) {b : Blob} {bs : Bytes}
    (hr : Reachable b) (hh : Holds b bs) :
    (bs.length < n → VecThrows n n b bs) ∧
    (n ≤ bs.length → ∃ parts left, VecReturns n n b parts left ∧ parts.flatten ++ left = bs ∧
      parts.length = bs.length / n ∧ (∀ p ∈ parts, p.length = n) ∧ left.length < n) := by
  refine ⟨fun h => ?_, fun h => ?_⟩
  · exact VecThrows.intro hr.valid hh (n := 0) (vecSplit_small (by omega) (by omega) (by omega))
  · obtain ⟨parts, left, e, c1, c2, c3⟩ := fixedLoop_abs h1 (by omega) (bs.length / n + 1) bs (by omega)
    refine ⟨parts, left, VecReturns.intro hr.valid hh (n := bs.length / n + 1) ?_, c1, ?_, c2, c3⟩
    · rw [vecSplit_enough (by omega) (by omega) (by omega), if_pos rfl]; exact e
    · have h5 := flatten_length_const c2
      have h6 : bs.length = parts.length * n + left.length := by
        rw [← c1, List.length_append, h5]
      rw [h6, Nat.add_comm, Nat.add_mul_div_right _ _ (by omega), Nat.div_eq_of_lt c3, Nat.zero_add]

example : vecSplit 9 3 3 ([1, 2, 3, 4, 5, 6, 7] : ABlob) = (.ok [[1, 2, 3], [4, 5, 6]], [7]) := by
  decide +kernel

/-! ## C17 -/

/-- Never out of fuel. -/
def NoFuel {σ α : Type} (m : M σ α) : Prop := ∀ s, (m s).1 ≠ .fuel

theorem bind_noFuel {σ α γ : Type} {m : M σ α} {f : α → M σ γ} {s : σ} (h : (m s).1 ≠ .fuel)
    (hf : ∀ a s', m s = (.ok a, s') → (f a s').1 ≠ .fuel) : ((m >>= f) s).1 ≠ .fuel := by
  rw [M.bind_apply]
  rcases hm : m s with ⟨o, s'⟩
  rw [hm] at h
  cases o with
  | ok a => exact hf a s' hm
  | fuel => exact absurd rfl h
  | _ => simp

theorem lift_noFuel {σ α : Type} {o : Out α} (h : o ≠ .fuel) : NoFuel (M.lift o : M σ α) := fun _ => h

theorem get_noFuel {σ : Type} : NoFuel (M.get : M σ σ) := fun _ => by simp

theorem ckInt_noFuel (i : Int) : ckInt i ≠ .fuel := by
  rcases ckInt_cases i with h | h <;> rw [h] <;> simp

theorem toIntRange_noFuel (lo hi : Int) (x : FV) : FV.toIntRange lo hi x ≠ .fuel := by
  cases x with
  | fin q => show (if _ then _ else _ : Out Int) ≠ _; split <;> simp
  | _ => simp [FV.toIntRange]

theorem oracle_noFuel : NoFuel (oracle : M ABlob Nat) := by
  intro a; rw [oracle_abs]; split <;> simp

theorem chop_noFuel (n : Nat) : NoFuel (chop n : M ABlob ABlob) := by
  intro a; rw [chop_abs]; split <;> simp

theorem sizeOracles_noFuel (n : Nat) (t : Int) : NoFuel (sizeOracles n t : M ABlob _) := by
  induction n generalizing t with
  | zero => intro a; simp [sizeOracles]
  | succ n ih =>
    intro a
    unfold sizeOracles
    refine bind_noFuel (oracle_noFuel a) fun o s' _ => bind_noFuel (lift_noFuel (ckInt_noFuel _) _) fun t' s'' _ =>
      bind_noFuel (ih _ _) fun r s''' _ => by simp

theorem unbChopLoop_noFuel (mn T v : Int) (os : List Nat) (r : FV) :
    NoFuel (unbChopLoop mn T v os r : M ABlob _) := by
  induction os generalizing r with
  | nil => intro a; simp [unbChopLoop]
  | cons o os ih =>
    intro a
    unfold unbChopLoop
    exact bind_noFuel (lift_noFuel (toIntRange_noFuel _ _ _) _) fun _ _ _ => bind_noFuel (chop_noFuel _ _) fun _ _ _ =>
      bind_noFuel (ih _ _) fun _ _ _ => by simp

theorem NoFuel.bind {σ α γ : Type} {m : M σ α} {f : α → M σ γ} (h : NoFuel m) (hf : ∀ a, NoFuel (f a)) :
    NoFuel (m >>= f) := fun s => bind_noFuel (h s) fun a s' _ => hf a s'

theorem NoFuel.ite {σ α : Type} {p : Prop} [Decidable p] {m k : M σ α} (h : NoFuel m) (hk : NoFuel k) :
    NoFuel (if p then m else k) := by split <;> assumption

theorem vecUnbounded_noFuel (mn : Int) : NoFuel (vecUnbounded mn : M ABlob _) := by
  unfold vecUnbounded
  refine NoFuel.bind get_noFuel fun b => ?_
  dsimp only
  refine NoFuel.ite (fun _ => by simp) ?_
  refine NoFuel.bind oracle_noFuel fun co => ?_
  refine NoFuel.bind (sizeOracles_noFuel _ _) fun p => ?_
  obtain ⟨os, tot⟩ := p
  dsimp only
  refine NoFuel.bind get_noFuel fun b' => ?_
  refine NoFuel.bind (lift_noFuel (ckInt_noFuel _)) fun fs => ?_
  refine NoFuel.bind (lift_noFuel (ckInt_noFuel _)) fun v => ?_
  exact unbChopLoop_noFuel _ _ _ _ _

theorem oracle_ok_length {a s' : ABlob} {o : Nat} (h : (oracle : M ABlob Nat) a = (.ok o, s')) :
    s'.length + 2 = a.length := by
  rw [oracle_abs] at h
  split at h
  · cases h
  · next hc => cases h; rw [List.length_drop]; omega

theorem chop_ok_length {k : Nat} {a c s' : ABlob} (h : (chop k : M ABlob ABlob) a = (.ok c, s')) :
    k ≤ a.length ∧ s'.length = a.length - k := by
  rw [chop_abs] at h
  split at h
  · cases h
  · next hc => cases h; exact ⟨Nat.le_of_not_lt hc, List.length_drop⟩

theorem lift_ok_state {σ α : Type} {o : Out α} {s s' : σ} {x : α}
    (h : (M.lift o : M σ α) s = (.ok x, s')) : s' = s := (Prod.mk.inj h).2.symm

theorem fixedLoop_noFuel {mn : Int} (h : 1 ≤ toSz mn) (fuel : Nat) (a : ABlob) (hf : a.length < fuel) :
    (fixedLoop fuel mn a).1 ≠ .fuel := by
  induction fuel generalizing a with
  | zero => exact absurd hf (Nat.not_lt_zero _)
  | succ n ih =>
    unfold fixedLoop
    rw [M.bind_ok (M.get_apply a)]
    split
    · refine bind_noFuel (chop_noFuel _ _) fun c s' hs => bind_noFuel ?_ fun _ _ _ => by simp
      obtain ⟨l1, l2⟩ := chop_ok_length hs
      clear hs
      generalize toSz mn = k at *
      exact ih _ (by omega)
    · simp

theorem oracleProportion_noFuel (o mn mx : Nat) : oracleProportion o mn mx ≠ .fuel := by
  unfold oracleProportion
  simp only
  generalize FV.floor _ = x
  have := toIntRange_noFuel 0 (W64 - 1) x
  cases h : FV.toIntRange 0 (W64 - 1) x <;> simp_all [Out.bind]

/-- From any state of fewer than `n` bytes the program does not run out of fuel. -/
def NoFuelBelow {α : Type} (n : Nat) (m : M ABlob α) : Prop := ∀ a : ABlob, a.length < n → (m a).1 ≠ .fuel

theorem NoFuel.below {α : Type} {m : M ABlob α} (h : NoFuel m) (n : Nat) : NoFuelBelow n m := fun a _ => h a

theorem NoFuelBelow.ite {α : Type} {p : Prop} [Decidable p] {n : Nat} {m k : M ABlob α}
    (h : NoFuelBelow n m) (hk : NoFuelBelow n k) : NoFuelBelow n (if p then m else k) := by
  split <;> assumption

theorem NoFuelBelow.bind {α γ : Type} {n n' : Nat} {m : M ABlob α} {f : α → M ABlob γ} (h : NoFuelBelow n m)
    (hl : ∀ a x a', a.length < n → m a = (.ok x, a') → a'.length < n') (hf : ∀ x, NoFuelBelow n' (f x)) :
    NoFuelBelow n (m >>= f) := fun a ha =>
  bind_noFuel (h a ha) fun x a' e => hf x a' (hl a x a' ha e)

theorem variatedLoop_noFuel (mn mx : Int) (fuel : Nat) : NoFuelBelow fuel (variatedLoop fuel mn mx) := by
  induction fuel with
  | zero => exact fun a h => absurd h (Nat.not_lt_zero _)
  | succ n ih =>
    unfold variatedLoop
    refine .bind ((lift_noFuel (ckInt_noFuel _)).below _)
      (fun a x a' h e => by rw [lift_ok_state e]; exact h) fun need => ?_
    refine .bind (get_noFuel.below _) (fun a x a' h e => by cases e; exact h) fun b => ?_
    refine .ite (fun _ _ => by simp) ?_
    refine .bind (n' := n) (oracle_noFuel.below _)
      (fun a x a' h e => by have := oracle_ok_length e; omega) fun o => ?_
    refine .bind ((lift_noFuel (oracleProportion_noFuel _ _ _)).below _)
      (fun a x a' h e => by rw [lift_ok_state e]; exact h) fun t => ?_
    dsimp only
    refine .bind (get_noFuel.below _) (fun a x a' h e => by cases e; exact h) fun b' => ?_
    refine .bind ((chop_noFuel _).below _)
      (fun a x a' h e => ((chop_ok_length e).2.le.trans (Nat.sub_le _ _)).trans_lt h) fun c => ?_
    exact fun a h => bind_noFuel (ih a h) fun r s' _ => by simp

theorem vecSplit_noFuel {mn mx : Int} (hi : -W31 ≤ mn) (hi2 : mn < W31) (h : ¬ (mn = 0 ∧ mx = 0))
    (n : Nat) (a : ABlob) (hn : a.length < n) : (vecSplit n mn mx a).1 ≠ .fuel := by
  unfold vecSplit
  rw [M.bind_ok (M.get_apply a)]
  split
  · simp
  split
  · next h1 =>
    subst h1
    refine fixedLoop_noFuel ?_ n a hn
    unfold toSz
    omega
  split
  · exact vecUnbounded_noFuel _ _
  · refine bind_noFuel (lift_noFuel (ckInt_noFuel _) _) fun _ s1 h1 => ?_
    obtain ⟨_, rfl⟩ := Prod.mk.inj h1
    exact variatedLoop_noFuel _ _ _ _ hn

/-- **C17**, the part that holds: whatever the sizes the stamp reports, unless both are 0, and
whatever the blob, the vector galley comes to an end. -/
theorem C17_terminates_partial {mn mx : Int} (hi : -W31 ≤ mn) (hi2 : mn < W31)
    (h : ¬ (mn = 0 ∧ mx = 0)) {b : Blob} (hr : Reachable b) :
    ∃ o b', VecSplits mn mx b o b' ∧ o ≠ .fuel := by
  have hn := vecSplit_noFuel hi hi2 h (b.abs.length + 1) b.abs (by omega)
  obtain ⟨h1, _⟩ := sim_vecSplit (b.abs.length + 1) mn mx b b.abs ⟨hr.valid, rfl⟩
  rcases he : vecSplit (b.abs.length + 1) mn mx b with ⟨o, b'⟩
  rw [he] at h1
  have ho : o ≠ .fuel := by
    rintro rfl
    generalize (vecSplit (b.abs.length + 1) mn mx (b.abs : ABlob)).1 = x at *
    cases h1
    exact hn rfl
  refine ⟨o, b', ⟨b.abs.length + 1, fun m hm => ?_⟩, ho⟩
  rcases fle_vecSplit (β := Blob) hm mn mx b with e | e
  · rw [he] at e; exact absurd e ho
  · rw [← e, he]

/-- The three kinds of stamp end differently. -/
example : (vecSplit 9 0 3 ([0, 0, 0, 0, 5] : ABlob)).1 = .ok [[], []] ∧
    (vecSplit 9 0 (-1) ([0] : ABlob)).1 = .outOfData := by decide +kernel

/-- **C17 is violated** by a stamp of fixed size 0: the galley loops for ever on every blob. -/
theorem C17_violated {b : Blob} (hr : Reachable b) : VecDiverges 0 0 b := by
  have key : ∀ n (a : ABlob), (fixedLoop n 0 a).1 = .fuel := by
    intro n
    induction n with
    | zero => intro a; rfl
    | succ n ih =>
      intro a
      unfold fixedLoop
      rw [M.bind_ok (M.get_apply a), if_pos (by unfold toSz; simp)]
      have hc : (chop (toSz 0) : M ABlob ABlob) a = (.ok [], a) := by
        rw [chop_abs]; simp [toSz]
      rw [M.bind_ok hc, M.bind_fuel (s' := (fixedLoop n 0 a).2) (by rw [← ih a])]
  intro n
  obtain ⟨h1, _⟩ := sim_vecSplit n 0 0 b b.abs ⟨hr.valid, rfl⟩
  rw [vecSplit_enough (by omega) (by omega) (by omega), if_pos rfl] at h1
  have h2 := key n b.abs
  generalize (fixedLoop n 0 (b.abs : ABlob)).1 = x at *
  subst h2
  generalize (vecSplit n 0 0 b).1 = y at *
  cases h1
  rfl

theorem oracle_cons (x y : UInt8) (rest : Bytes) :
    (oracle : M ABlob Nat) (x :: y :: rest : Bytes) = (.ok (leNat [x, y]), rest) := by
  rw [oracle_abs, if_neg (by simp)]; rfl

theorem leNat_ff : leNat [255, 255] = 65535 := by decide +kernel

theorem VecSplits.ub_intro {mn mx : Int} {b : Blob} {bs : Bytes} (hb : b.Valid) (hh : Holds b bs)
    {n : Nat} {left : ABlob} {r : UB}
    (h : vecSplit n mn mx (bs : ABlob) = (.ub r, left)) : ∃ b', VecSplits mn mx b (.ub r) b' := by
  rw [holds_iff hb] at hh
  subst hh
  obtain ⟨h1, _⟩ := sim_vecSplit n mn mx b b.abs ⟨hb, rfl⟩
  rw [h] at h1
  rcases he : vecSplit n mn mx b with ⟨o, b'⟩
  rw [he] at h1
  cases h1
  refine ⟨b', n, fun m hm => ?_⟩
  rcases fle_vecSplit (β := Blob) hm mn mx b with e | e
  · rw [he] at e; cases e
  · rw [← e, he]

/-! ## C18 -/

/-- **C18.** Over a stamp with `0 ≤ mn < mx` (and `mn + 2` an `int`) and a blob of at least `mn` bytes, the
blob is a sequence of two-byte oracles each followed by a piece, and a rest of fewer than `mn + 2`
bytes. Every piece has between `mn` and `mx` bytes. Every piece has exactly the size its oracle asks
for, except that the last one takes what there is when that is less. -/
theorem C18_variated_pieces_partial {mn mx : Nat} (h0 : mn < mx) (h1 : mn + 2 ≤ INT_MAX) (h2 : mx ≤ INT_MAX)
    {b : Blob} {bs : Bytes} (hr : Reachable b) (hh : Holds b bs) :
    (bs.length < mn → VecThrows mn mx b bs) ∧
    (mn ≤ bs.length → ∃ (ops : List (Bytes × Bytes)) (left : Bytes),
      VecReturns mn mx b (ops.map Prod.snd) left ∧
      (ops.flatMap fun x => x.1 ++ x.2) ++ left = bs ∧ left.length < mn + 2 ∧
      (∀ x ∈ ops, x.1.length = 2 ∧ mn ≤ x.2.length ∧ x.2.length ≤ mx) ∧
      (∀ x ∈ ops.dropLast, oracleProportion (littleEndian x.1) mn mx = .ok x.2.length) ∧
      (∀ x ∈ ops.getLast?, ∃ t, oracleProportion (littleEndian x.1) mn mx = .ok t ∧
        (x.2.length = t ∨ (x.2.length < t ∧ left = [])))) := by
  refine ⟨fun h => ?_, fun h => ?_⟩
  · exact VecThrows.intro hr.valid hh (n := 0) (vecSplit_small (by omega) (by omega) (by omega))
  · obtain ⟨ops, left, e, c1, c2, c3, c4, c5⟩ := variatedLoop_abs h0.le h1 h2 (bs.length + 1) bs (by omega)
    simp only [leNat_eq] at c4 c5
    refine ⟨ops, left, VecReturns.intro hr.valid hh (n := bs.length + 1) ?_, c1, c2, c3, c4, c5⟩
    rw [vecSplit_enough (by omega) (by omega) (by omega), if_neg (by omega), if_neg (by omega)]
    have e1 : (M.lift (ckInt ((mx : Int) - mn)) : M ABlob Int) bs = (.ok ((mx : Int) - mn), bs) := by
      rw [ckInt_ok (by omega) (by omega)]; rfl
    rw [M.bind_ok e1]
    exact e

example : vecSplit 9 1 4 ([0, 0, 10, 255, 255, 20, 21, 22, 23, 0, 128, 30, 31, 1, 2] : ABlob)
    = (.ok [[10], [20, 21, 22, 23], [30, 31, 1]], [2]) := by decide +kernel

/-- **C18 is violated** by the one remaining pair of sizes: `minSize() + 2` overflows `int`. -/
theorem C18_violated {b : Blob} {bs : Bytes} (hr : Reachable b) (hh : Holds b bs)
    (hl : 2147483646 ≤ bs.length) :
    ∃ b', VecSplits 2147483646 2147483647 b (.ub .intOverflow) b' := by
  refine VecSplits.ub_intro hr.valid hh (n := 1) (left := bs) ?_
  rw [vecSplit_enough (by omega) (by omega) (by omega), if_neg (by omega), if_neg (by omega)]
  have e1 : (M.lift (ckInt ((2147483647 : Int) - 2147483646)) : M ABlob Int) bs = (.ok 1, bs) := rfl
  rw [M.bind_ok e1]
  unfold variatedLoop
  exact M.bind_ub (by rfl)

example (n : Nat) (h : n = 2147483646) : 2147483646 ≤ (List.replicate n 7 : Bytes).length := by
  rw [List.length_replicate, h]

/-! ## C19 -/

/-- **C19**, for blobs of up to 3 000 000 bytes that hold at most 32768 minimal parts: over an
unbounded stamp of minimal size `m`, a blob of at least the galley's `minSize()` gives at least one
piece, every piece has at least `m` bytes, the pieces are consecutive after the oracles, and at
most one byte is left. -/
theorem C19_unbounded_pieces_partial {m : Nat} {b : Blob} {bs : Bytes} (hr : Reachable b)
    (hh : Holds b bs) (hmin : vecNeeds m (-1) ≤ bs.length) (hm : m ≤ INT_MAX - 4)
    (hS : bs.length ≤ 3000000) (hc : (bs.length - 2) / (m + 2) ≤ 32768) :
    ∃ (oracles : Bytes) (parts : List Bytes) (left : Bytes), VecReturns m (-1) b parts left ∧
      1 ≤ parts.length ∧ oracles.length = 2 + 2 * parts.length ∧
      oracles ++ parts.flatten ++ left = bs ∧ (∀ p ∈ parts, m ≤ p.length) ∧ left.length ≤ 1 := by
  have hmin' : m + 4 ≤ bs.length := by
    unfold vecNeeds at hmin
    rw [if_neg (by omega), if_pos rfl] at hmin
    omega
  obtain ⟨parts, left, e, c1, _, c2, c3, c4, c5⟩ := vecUnbounded_abs bs hS hmin' hc
  refine ⟨bs.take (2 + 2 * parts.length), parts, left, VecReturns.intro hr.valid hh (n := 0) ?_, c1, ?_, ?_,
    c5, c3⟩
  · rw [vecSplit_enough (by omega) (by omega) (by omega), if_neg (by omega), if_pos rfl]; exact e
  · rw [List.length_take]; omega
  · rw [List.append_assoc, c2, List.take_append_drop]

example : vecSplit 0 2 (-1) ([128, 150, 3, 0, 1, 0, 10, 11, 12, 13, 14, 15, 16, 17] : ABlob)
    = (.ok [[10, 11, 12, 13, 14], [15, 16, 17]], []) := by decide +kernel

/-- **C19 is violated**, first way: the number of parts is stored in 16 bits. With 196607 bytes
and a count oracle of 65535 the galley returns no piece at all. -/
theorem C19_violated_count {b : Blob} {rest : Bytes} (hr : Reachable b)
    (hh : Holds b (255 :: 255 :: rest)) (hl : rest.length = 196605) :
    vecNeeds 1 (-1) = 5 ∧ VecReturns 1 (-1) b [] rest := by
  refine ⟨by decide, VecReturns.intro hr.valid hh (n := 0) ?_⟩
  have hlen : (255 :: 255 :: rest : Bytes).length = 196607 := by
    rw [List.length_cons, List.length_cons, hl]
  rw [vecSplit_enough (by decide) (by decide) (by rw [hlen]; norm_num), if_neg (by decide), if_pos rfl]
  unfold vecUnbounded
  rw [M.bind_ok (M.get_apply _)]
  dsimp only
  rw [size_abs, hlen, if_neg (by decide)]
  have ho : (oracle : M ABlob Nat) (255 :: 255 :: rest : Bytes) = (.ok 65535, rest) := by
    rw [oracle_cons, leNat_ff]
  rw [M.bind_ok ho, show countTarget (toSz (((196607 : Nat) : Int) - 2) / toSz (((toSz 1 : Nat) : Int) + 2))
    65535 = 0 by decide +kernel]
  have h0 : (sizeOracles 0 0 : M ABlob _) rest = (.ok ([], 0), rest) := rfl
  rw [M.bind_ok h0, M.bind_ok (M.get_apply _)]
  dsimp only
  have h1 : (M.lift (ckInt ((1 : Int) * ((0 : Nat) : Int))) : M ABlob Int) rest = (.ok 0, rest) := rfl
  rw [M.bind_ok h1]
  have h2 : (M.lift (ckInt (wrap32 ((size rest : Nat) : Int) - 0)) : M ABlob Int) rest = (.ok 196605, rest) := by
    rw [size_abs, hl, wrap32_of_fits (by norm_num) (by norm_num), ckInt_ok (by norm_num) (by norm_num)]; rfl
  rw [M.bind_ok h2]
  rfl

example : ∃ rest : Bytes, rest.length = 196605 := ⟨List.replicate 196605 7, List.length_replicate⟩

theorem sizeOracles_overflow (n t k : Nat) (h : 2 * n ≤ k) (h1 : t ≤ INT_MAX) (h2 : INT_MAX < t + 65535 * n) :
    ∃ left, (sizeOracles n (t : Int) : M ABlob _) (List.replicate k 255) = (.ub .intOverflow, left) := by
  induction n generalizing t k with
  | zero => omega
  | succ n ih =>
    obtain ⟨k, rfl⟩ : ∃ k', k = k' + 2 := ⟨k - 2, by omega⟩
    unfold sizeOracles
    have ho : (oracle : M ABlob Nat) (List.replicate (k + 2) 255) = (.ok 65535, List.replicate k 255) := by
      rw [List.replicate_succ, List.replicate_succ, oracle_cons, leNat_ff]
    rw [M.bind_ok ho]
    by_cases hc : t + 65535 ≤ INT_MAX
    · have e : (M.lift (ckInt ((t : Int) + ((65535 : Nat) : Int))) : M ABlob Int) (List.replicate k 255)
          = (.ok ((t + 65535 : Nat) : Int), List.replicate k 255) := by
        rw [ckInt_ok (by omega) (by omega)]; rfl
      rw [M.bind_ok e]
      obtain ⟨left, hl⟩ := ih (t + 65535) k (by omega) hc (by omega)
      exact ⟨left, M.bind_ub hl⟩
    · have e : (M.lift (ckInt ((t : Int) + ((65535 : Nat) : Int))) : M ABlob Int) (List.replicate k 255)
          = (.ub .intOverflow, List.replicate k 255) := by
        unfold ckInt; rw [if_neg (by rw [fitsInt_iff]; omega)]; rfl
      exact ⟨_, M.bind_ub e⟩

/-- **C19 is violated**, second way: the size oracles are added up in an `int`, which overflows. -/
theorem C19_violated_overflow {b : Blob} (hr : Reachable b) (hh : Holds b (List.replicate 98309 255)) :
    ∃ b', VecSplits 1 (-1) b (.ub .intOverflow) b' := by
  have key : ∃ left, vecSplit 0 1 (-1) (List.replicate 98309 255 : ABlob) = (.ub .intOverflow, left) := by
    rw [vecSplit_enough (by decide) (by decide) (by rw [List.length_replicate]; norm_num),
      if_neg (by decide), if_pos rfl]
    unfold vecUnbounded
    rw [M.bind_ok (M.get_apply _)]
    dsimp only
    rw [size_abs, List.length_replicate, if_neg (by decide)]
    have ho : (oracle : M ABlob Nat) (List.replicate 98309 255) = (.ok 65535, List.replicate 98307 255) := by
      have : (List.replicate 98309 255 : Bytes) = 255 :: 255 :: List.replicate 98307 255 := by
        rw [show 98309 = 98307 + 1 + 1 from rfl, List.replicate_succ, List.replicate_succ]
      rw [this, oracle_cons, leNat_ff]
    rw [M.bind_ok ho, show countTarget (toSz (((98309 : Nat) : Int) - 2) / toSz (((toSz 1 : Nat) : Int) + 2))
      65535 = 32769 by decide +kernel]
    obtain ⟨left, hl⟩ := sizeOracles_overflow 32769 0 98307 (by norm_num) (by norm_num) (by norm_num)
    exact ⟨left, M.bind_ub hl⟩
  obtain ⟨left, hl⟩ := key
  exact VecSplits.ub_intro hr.valid hh hl

/-- **C19 is violated**, third way: a `float` cannot hold the size, the piece computed is larger
than the data, and the galley throws `OutOfData` although there is one piece only. -/
theorem C19_violated_rounding {b : Blob} {rest : Bytes} (hr : Reachable b)
    (hh : Holds b (0 :: 0 :: 1 :: 0 :: rest)) (hl : rest.length = 16777219) :
    vecNeeds 0 (-1) = 4 ∧ VecThrows 0 (-1) b rest := by
  refine ⟨by decide, VecThrows.intro hr.valid hh (n := 0) ?_⟩
  have hlen : (0 :: 0 :: 1 :: 0 :: rest : Bytes).length = 16777223 := by
    rw [List.length_cons, List.length_cons, List.length_cons, List.length_cons, hl]
  rw [vecSplit_enough (by decide) (by decide) (by rw [hlen]; norm_num), if_neg (by decide), if_pos rfl]
  unfold vecUnbounded
  rw [M.bind_ok (M.get_apply _)]
  dsimp only
  rw [size_abs, hlen, if_neg (by decide)]
  have ho : (oracle : M ABlob Nat) (0 :: 0 :: 1 :: 0 :: rest : Bytes) = (.ok 0, 1 :: 0 :: rest) := by
    rw [oracle_abs, if_neg (by rw [hlen]; norm_num)]; rfl
  rw [M.bind_ok ho, show countTarget (toSz (((16777223 : Nat) : Int) - 2) / toSz (((toSz 0 : Nat) : Int) + 2))
    0 = 1 by decide +kernel]
  have h0 : (sizeOracles 1 0 : M ABlob _) (1 :: 0 :: rest : Bytes) = (.ok ([1], 1), rest) := by
    unfold sizeOracles
    have ho : (oracle : M ABlob Nat) (1 :: 0 :: rest : Bytes) = (.ok 1, rest) := by
      rw [oracle_abs, if_neg (by simp)]; rfl
    rw [M.bind_ok ho]; rfl
  rw [M.bind_ok h0, M.bind_ok (M.get_apply _)]
  dsimp only
  have h1 : (M.lift (ckInt ((0 : Int) * ((1 : Nat) : Int))) : M ABlob Int) rest = (.ok 0, rest) := rfl
  rw [M.bind_ok h1]
  have h2 : (M.lift (ckInt (wrap32 ((size rest : Nat) : Int) - 0)) : M ABlob Int) rest
      = (.ok 16777219, rest) := by
    rw [size_abs, hl, wrap32_of_fits (by norm_num) (by norm_num), ckInt_ok (by norm_num) (by norm_num)]; rfl
  rw [M.bind_ok h2, if_neg (by decide), if_neg (by decide)]
  unfold unbChopLoop
  dsimp only
  have h3 : (M.lift (FV.toCInt (FV.add f32 (FV.add f32 (FV.ofInt f32 0)
      (FV.mul f32 (FV.div f32 (FV.ofInt f32 ((1 : Nat) : Int)) (FV.ofInt f32 1)) (FV.ofInt f32 16777219)))
      (FV.fin 0))) : M ABlob Int) rest = (.ok 16777220, rest) := by
    have : FV.toCInt (FV.add f32 (FV.add f32 (FV.ofInt f32 0)
      (FV.mul f32 (FV.div f32 (FV.ofInt f32 ((1 : Nat) : Int)) (FV.ofInt f32 1)) (FV.ofInt f32 16777219)))
      (FV.fin 0)) = .ok 16777220 := by decide +kernel
    rw [this]; rfl
  rw [M.bind_ok h3]
  refine M.bind_ood ?_
  rw [chop_abs, if_pos (by rw [hl]; decide)]

example : ∃ rest : Bytes, rest.length = 16777219 := ⟨List.replicate 16777219 7, List.length_replicate⟩

/-! ## C20 -/

/-- **C20**, in the ranges of C16, C18 and C19: a blob that holds as many bytes as the galley's
`minSize()` asks for gives at least one piece, and every piece is large enough for the stamp. A blob
with fewer bytes than the stamp itself needs is refused untouched. -/
theorem C20_minSize_enough_partial {mn : Nat} {mx : Int} (hm : mn ≤ INT_MAX - 4)
    (hmx : (mx = mn ∧ 1 ≤ mn) ∨ (mx = -1) ∨ ((mn : Int) < mx ∧ mx ≤ INT_MAX))
    {b : Blob} {bs : Bytes} (hr : Reachable b) (hh : Holds b bs)
    (hunb : mx = -1 → bs.length ≤ 3000000 ∧ (bs.length - 2) / (mn + 2) ≤ 32768) :
    (bs.length < mn → VecThrows mn mx b bs) ∧
    (vecNeeds mn mx ≤ bs.length → ∃ parts left, VecReturns mn mx b parts left ∧ parts ≠ [] ∧
      ∀ p ∈ parts, mn ≤ p.length) := by
  refine ⟨fun h => VecThrows.intro hr.valid hh (n := 0)
    (vecSplit_small (by omega) (by omega) (by omega)), fun h => ?_⟩
  rcases hmx with ⟨rfl, h1⟩ | rfl | ⟨h1, h2⟩
  · unfold vecNeeds at h
    rw [if_pos rfl] at h
    obtain ⟨parts, left, e, _, c1, c2, _⟩ := (C16_fixed_pieces h1 (by omega) hr hh).2 (by omega)
    refine ⟨parts, left, e, ?_, fun p hp => (c2 p hp).ge⟩
    rintro rfl
    rw [List.length_nil] at c1
    have := Nat.div_pos (by omega : mn ≤ bs.length) (by omega)
    omega
  · obtain ⟨os, parts, left, e, c1, _, _, c2, _⟩ :=
      C19_unbounded_pieces_partial hr hh h hm (hunb rfl).1 (hunb rfl).2
    refine ⟨parts, left, e, ?_, c2⟩
    rintro rfl
    simp at c1
  · obtain ⟨k, rfl⟩ : ∃ k : Nat, mx = k := ⟨mx.toNat, by omega⟩
    unfold vecNeeds at h
    rw [if_neg (by omega), if_neg (by omega)] at h
    obtain ⟨ops, left, e, c1, c2, c3, _⟩ :=
      (C18_variated_pieces_partial (mn := mn) (mx := k) (by omega) (by omega) (by omega) hr hh).2 (by omega)
    refine ⟨_, left, e, ?_, ?_⟩
    · intro h0
      rw [List.map_eq_nil_iff] at h0
      subst h0
      rw [List.flatMap_nil, List.nil_append] at c1
      rw [c1] at c2
      omega
    · intro p hp
      rw [List.mem_map] at hp
      obtain ⟨x, hx, rfl⟩ := hp
      exact (c3 x hx).2.1

/-- The hypotheses of C20 hold of a 5-byte blob under a variated stamp. -/
example : vecNeeds 3 7 = 5 ∧ vecNeeds 3 3 = 3 ∧ vecNeeds 3 (-1) = 7 ∧
    vecSplit 9 3 7 ([0, 0, 1, 2, 3] : ABlob) = (.ok [[1, 2, 3]], []) := by decide +kernel

/-- **C20 is violated** between the stamp's minimum and the galley's: the galley does not refuse
the blob, and returns an empty vector. First for a stamp of 1 or 2 bytes: the galley's minimum is 3,
the blob has 2 bytes. Then for an unbounded stamp of 1 byte or more: the galley's minimum is 5, the
blob has 4 bytes, of which the first two are lost. -/
theorem C20_violated {x y z t : UInt8} {b : Blob} (hr : Reachable b) :
    (Holds b [x, y] → vecNeeds 1 2 = 3 ∧ VecReturns 1 2 b [] [x, y]) ∧
    (Holds b [x, y, z, t] → vecNeeds 1 (-1) = 5 ∧ VecReturns 1 (-1) b [] [z, t]) := by
  refine ⟨fun hh => ⟨by decide, VecReturns.intro hr.valid hh (n := 1) rfl⟩,
    fun hh => ⟨by decide, VecReturns.intro hr.valid hh (n := 0) ?_⟩⟩
  rw [vecSplit_enough (by decide) (by decide) (by simp), if_neg (by decide), if_pos rfl]
  unfold vecUnbounded
  rw [M.bind_ok (M.get_apply _)]
  dsimp only
  rw [size_abs, if_neg (by decide)]
  have ho : (oracle : M ABlob Nat) [x, y, z, t] = (.ok (leNat [x, y]), [z, t]) := by
    rw [oracle_abs, if_neg (by simp)]; rfl
  have hc : countTarget (toSz ((([x, y, z, t].length : Nat) : Int) - 2) / toSz (((toSz 1 : Nat) : Int) + 2))
      (leNat [x, y]) = 0 := by
    have : toSz (((4 : Nat) : Int) - 2) / toSz (((toSz 1 : Nat) : Int) + 2) = 0 := by decide +kernel
    rw [show [x, y, z, t].length = 4 from rfl, this]
    unfold countTarget
    rw [Nat.cast_zero, zero_mul]
    decide +kernel
  rw [M.bind_ok ho, hc]
  have h0 : (sizeOracles 0 0 : M ABlob _) [z, t] = (.ok ([], 0), [z, t]) := rfl
  rw [M.bind_ok h0, M.bind_ok (M.get_apply _)]
  dsimp only
  have h1 : (M.lift (ckInt ((1 : Int) * ((0 : Nat) : Int))) : M ABlob Int) [z, t] = (.ok 0, [z, t]) := rfl
  rw [M.bind_ok h1]
  have h2 : (M.lift (ckInt (wrap32 ((size [z, t] : Nat) : Int) - 0)) : M ABlob Int) [z, t] = (.ok 2, [z, t]) := by
    rw [size_abs, show [z, t].length = 2 from rfl, wrap32_of_fits (by norm_num) (by norm_num),
      ckInt_ok (by norm_num) (by norm_num)]; rfl
  rw [M.bind_ok h2]
  rfl

end BS
