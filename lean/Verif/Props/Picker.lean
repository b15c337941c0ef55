import Verif.Lemmas.SizeEqs
import Verif.Props.Lottery
import Verif.Props.Oracle

/-!
# Pool pickers (C31)
-/

namespace BS

/-- Sizes of the stamps of a pool, called with flags `fl`: plain `int`s. -/
structure PoolSizes (G : Graph) (fl : Flags) (pool : List Id) (m mx : Id → Int) : Prop where
  min : ∀ j ∈ pool, HasMin G fl j (m j) ∧ 0 ≤ m j ∧ m j ≤ INT_MAX
  max : ∀ j ∈ pool, HasMax G fl j (mx j) ∧ (mx j = -1 ∨ (0 ≤ mx j ∧ mx j ≤ INT_MAX))

/-- The stamps that may be picked with `L` bytes left: those whose minimum fits and that can take all
of it, or, if there are none, those whose minimum fits. -/
def pickCandidates (m mx : Id → Int) (L : Nat) (pool : List Id) : List Id :=
  let fit := pool.filter fun j => m j ≤ L
  let all := fit.filter fun j => mx j = -1 ∨ (L : Int) ≤ mx j
  if all ≠ [] then all else fit

theorem pickFilter_run {qmin qmax : Id → M Flags Int} {fl : Flags} {m mx : Id → Int}
    {l : List Id} (hmin : ∀ j ∈ l, qmin j fl = (.ok (m j), fl) ∧ 0 ≤ m j ∧ m j ≤ INT_MAX)
    (hmax : ∀ j ∈ l, qmax j fl = (.ok (mx j), fl) ∧ (mx j = -1 ∨ (0 ≤ mx j ∧ mx j ≤ INT_MAX)))
    {a : ABlob} :
    pickFilter qmin qmax l (fl, a) = (.ok (l.filter fun j => m j ≤ a.length,
      (l.filter fun j => m j ≤ a.length).filter fun j => mx j = -1 ∨ (a.length : Int) ≤ mx j),
      (fl, a)) := by
  induction l with
  | nil => rfl
  | cons i l ih =>
    have ih := ih (fun j hj => hmin j (List.mem_cons_of_mem _ hj))
      (fun j hj => hmax j (List.mem_cons_of_mem _ hj))
    obtain ⟨h1, h2, h3⟩ := hmin i (by simp)
    obtain ⟨h4, h5⟩ := hmax i (by simp)
    unfold pickFilter
    have e1 : (liftF (qmin i) : XM ABlob Int) (fl, a) = (.ok (m i), (fl, a)) := by
      unfold liftF; rw [h1]
    have e2 : (curSize : XM ABlob Nat) (fl, a) = (.ok a.length, (fl, a)) := rfl
    rw [M.bind_ok e1, M.bind_ok e2]
    rw [toSz_of_nonneg h2 (by omega)]
    by_cases hc : m i ≤ a.length
    · rw [if_pos (by omega), List.filter_cons_of_pos (by simpa using hc)]
      have e3 : (liftF (qmax i) : XM ABlob Int) (fl, a) = (.ok (mx i), (fl, a)) := by
        unfold liftF; rw [h4]
      rw [M.bind_ok e3, M.bind_ok ih]
      have hiff : (mx i = -1 ∨ a.length ≤ toSz (mx i)) ↔ (mx i = -1 ∨ (a.length : Int) ≤ mx i) := by
        rcases h5 with h | ⟨h, h'⟩
        · simp [h]
        · rw [toSz_of_nonneg h (by omega)]; omega
      by_cases hx : mx i = -1 ∨ (a.length : Int) ≤ mx i
      · rw [if_pos (hiff.2 hx), List.filter_cons_of_pos (by simpa using hx)]; rfl
      · rw [if_neg (fun h => hx (hiff.1 h)), List.filter_cons_of_neg (by simpa using hx)]; rfl
    · rw [if_neg (by omega), ih, List.filter_cons_of_neg (by simpa using hc)]

theorem pickCandidates_mem {m mx : Id → Int} {L : Nat} {pool : List Id} {j : Id}
    (h : j ∈ pickCandidates m mx L pool) : j ∈ pool ∧ m j ≤ L ∧
      ((∃ k ∈ pool, m k ≤ L ∧ (mx k = -1 ∨ (L : Int) ≤ mx k)) → mx j = -1 ∨ (L : Int) ≤ mx j) := by
  unfold pickCandidates at h
  dsimp only at h
  split at h
  · rw [List.mem_filter, List.mem_filter] at h
    obtain ⟨⟨h1, h2⟩, h3⟩ := h
    exact ⟨h1, by simpa using h2, fun _ => by simpa using h3⟩
  · next hn =>
    rw [List.mem_filter] at h
    refine ⟨h.1, by simpa using h.2, ?_⟩
    rintro ⟨k, hk, hm, hx⟩
    exfalso
    apply hn
    apply List.ne_nil_of_mem (a := k)
    rw [List.mem_filter, List.mem_filter]
    exact ⟨⟨hk, by simpa using hm⟩, by simpa using hx⟩

theorem pickCandidates_ne {m mx : Id → Int} {L : Nat} {pool : List Id} {j : Id}
    (hj : j ∈ pool) (h : m j ≤ L) : pickCandidates m mx L pool ≠ [] := by
  unfold pickCandidates
  dsimp only
  split
  · next h => exact h
  · apply List.ne_nil_of_mem (a := j)
    rw [List.mem_filter]; simpa using ⟨hj, h⟩

theorem pickCandidates_length (m mx : Id → Int) (L : Nat) (pool : List Id) :
    (pickCandidates m mx L pool).length ≤ pool.length := by
  unfold pickCandidates
  dsimp only
  split
  · exact le_trans (List.length_filter_le _ _) (List.length_filter_le _ _)
  · exact List.length_filter_le _ _

theorem pickCandidates_nil {m : Id → Int} {L : Nat} {pool : List Id}
    (h : ∀ j ∈ pool, (L : Int) < m j) : pool.filter (fun j => m j ≤ L) = [] := by
  rw [List.filter_eq_nil_iff]
  intro j hj
  have := h j hj
  simp; omega

/-- What a picker does after its oracle and the two pools. -/
theorem picker_head_at {G : Graph} {i : Id} {pool : List Id} (hG : G i = some (.picker pool))
    {fl : Flags} {m mx : Id → Int} {n : Nat}
    (hmin : ∀ j ∈ pool, sizeQ G n .min j fl = (.ok (m j), fl) ∧ 0 ≤ m j ∧ m j ≤ INT_MAX)
    (hmax : ∀ j ∈ pool, sizeQ G n .max j fl = (.ok (mx j), fl) ∧ (mx j = -1 ∨ (0 ≤ mx j ∧ mx j ≤ INT_MAX)))
    {bs : Bytes} (hl : 2 ≤ bs.length) :
    extract G (n + 1) i (fl, (bs : ABlob)) =
      (if (pickCandidates m mx (bs.length - 2) pool).isEmpty then (do
          let mn ← liftF (sizeQ G (n + 1) .min i)
          let sz ← curSize
          if sz < toSz mn then M.throwOOD else M.out .abort)
        else (do
          let k ← M.lift (oracleProportion (leNat (bs.take 2)) 0
            (toSz (((pickCandidates m mx (bs.length - 2) pool).length : Int) - 1)))
          let j ← M.lift (vecGet (pickCandidates m mx (bs.length - 2) pool) k)
          extract G n j) : XM ABlob Bytes) (fl, bs.drop 2) := by
  have hlr : (bs.drop 2).length = bs.length - 2 := List.length_drop
  conv_lhs => unfold extract
  rw [hG]
  dsimp only
  have e1 : liftB oracle (fl, (bs : ABlob)) = (.ok (leNat (bs.take 2)), (fl, bs.drop 2)) := by
    unfold liftB
    dsimp only
    rw [oracle_abs bs, if_neg (by omega)]
  rw [M.bind_ok e1]
  have e2 := pickFilter_run hmin hmax (a := bs.drop 2)
  rw [hlr] at e2
  rw [M.bind_ok e2]
  have e4 : (if ((pool.filter fun j => m j ≤ (bs.length - 2 : Nat)).filter fun j =>
      mx j = -1 ∨ ((bs.length - 2 : Nat) : Int) ≤ mx j).isEmpty = true
      then (pool.filter fun j => m j ≤ (bs.length - 2 : Nat))
      else (pool.filter fun j => m j ≤ (bs.length - 2 : Nat)).filter fun j =>
        mx j = -1 ∨ ((bs.length - 2 : Nat) : Int) ≤ mx j) = pickCandidates m mx (bs.length - 2) pool := by
    unfold pickCandidates
    dsimp only
    simp only [List.isEmpty_iff, ne_eq, ite_not]
  dsimp only
  rw [e4]

theorem picker_head {G : Graph} {i : Id} {pool : List Id} (hG : G i = some (.picker pool))
    {fl : Flags} {m mx : Id → Int} (hs : PoolSizes G fl pool m mx) {bs : Bytes} (hl : 2 ≤ bs.length) :
    ∃ N, ∀ n ≥ N, extract G (n + 1) i (fl, (bs : ABlob)) =
      (if (pickCandidates m mx (bs.length - 2) pool).isEmpty then (do
          let mn ← liftF (sizeQ G (n + 1) .min i)
          let sz ← curSize
          if sz < toSz mn then M.throwOOD else M.out .abort)
        else (do
          let k ← M.lift (oracleProportion (leNat (bs.take 2)) 0
            (toSz (((pickCandidates m mx (bs.length - 2) pool).length : Int) - 1)))
          let j ← M.lift (vecGet (pickCandidates m mx (bs.length - 2) pool) k)
          extract G n j) : XM ABlob Bytes) (fl, bs.drop 2) := by
  obtain ⟨N1, h1⟩ := exists_common pool fun j hj => (hs.min j hj).1
  obtain ⟨N2, h2⟩ := exists_common pool fun j hj => (hs.max j hj).1
  refine ⟨max N1 N2, fun n hn => ?_⟩
  have hmin : ∀ j ∈ pool, sizeQ G n .min j fl = (.ok (m j), fl) ∧ 0 ≤ m j ∧ m j ≤ INT_MAX :=
    fun j hj => ⟨h1 n (by omega) j hj, (hs.min j hj).2⟩
  have hmax : ∀ j ∈ pool, sizeQ G n .max j fl = (.ok (mx j), fl) ∧
      (mx j = -1 ∨ (0 ≤ mx j ∧ mx j ≤ INT_MAX)) :=
    fun j hj => ⟨h2 n (by omega) j hj, (hs.max j hj).2⟩
  exact picker_head_at hG hmin hmax hl

/-- The picker with enough data hands what follows its oracle to the candidate its index selects. -/
theorem picker_core {G : Graph} {i : Id} {pool : List Id} (hG : G i = some (.picker pool))
    {fl : Flags} {m mx : Id → Int} (hs : PoolSizes G fl pool m mx) {bs : Bytes} (hl : 2 ≤ bs.length)
    (hlen : pool.length ≤ 2 ^ 53) {k : Nat}
    (hk : k < (pickCandidates m mx (bs.length - 2) pool).length)
    (hidx : oracleProportion (leNat (bs.take 2)) 0
      ((pickCandidates m mx (bs.length - 2) pool).length - 1) = .ok k) :
    Delegates G fl i bs (pickCandidates m mx (bs.length - 2) pool)[k] (bs.drop 2) := by
  obtain ⟨N, h⟩ := picker_head hG hs hl
  refine Delegates.intro (N := N) fun n hn => ?_
  rw [h n hn]
  have hcl := pickCandidates_length m mx (bs.length - 2) pool
  have hne : ¬ (pickCandidates m mx (bs.length - 2) pool).isEmpty = true := by
    rw [List.isEmpty_iff]
    intro e
    rw [e] at hk
    exact absurd hk (by simp)
  have ht : toSz (((pickCandidates m mx (bs.length - 2) pool).length : Int) - 1) =
      (pickCandidates m mx (bs.length - 2) pool).length - 1 := by
    rw [toSz_of_nonneg (by omega) (by omega)]; omega
  rw [if_neg hne, ht, M.bind_ok (show (M.lift (oracleProportion _ _ _) : XM ABlob Nat) _ = (.ok k, _) from
    by show (oracleProportion _ _ _, _) = _; rw [hidx])]
  rw [M.bind_ok (show (M.lift (vecGet _ _) : XM ABlob Id) _ = (.ok _, _) from
    by show (vecGet _ _, _) = _; rw [vecGet_nat hk (by omega)])]

/-- **C31**, enough data: as soon as some pool stamp fits into what follows the oracle, the picker
hands that to a pool stamp that fits, whatever the oracle, and to one that can take all of it if there
is such a stamp. So it neither throws itself nor aborts. -/
theorem C31_picks_fitting {G : Graph} {i : Id} {pool : List Id} (hG : G i = some (.picker pool))
    {fl : Flags} {m mx : Id → Int} (hs : PoolSizes G fl pool m mx) (hlen : pool.length ≤ 2 ^ 53)
    {bs : Bytes} (hfit : ∃ j ∈ pool, m j + 2 ≤ bs.length) :
    ∃ j ∈ pool, m j + 2 ≤ bs.length ∧
      ((∃ k ∈ pool, m k + 2 ≤ bs.length ∧ (mx k = -1 ∨ (bs.length : Int) ≤ mx k + 2)) →
        mx j = -1 ∨ (bs.length : Int) ≤ mx j + 2) ∧
      Delegates G fl i bs j (bs.drop 2) := by
  obtain ⟨j0, hj0, hm0⟩ := hfit
  have h0 := (hs.min j0 hj0).2
  have hne : pickCandidates m mx (bs.length - 2) pool ≠ [] := pickCandidates_ne hj0 (by omega)
  have hpos := List.length_pos_iff.2 hne
  have hcl := pickCandidates_length m mx (bs.length - 2) pool
  have ho : leNat (bs.take 2) ≤ 65535 := by
    have := leNat_take_lt bs 2
    omega
  obtain ⟨k, e, _, hk⟩ := C09_proportion_in_range (o := leNat (bs.take 2)) (mn := 0)
    (mx := (pickCandidates m mx (bs.length - 2) pool).length - 1) ho (by omega) (by omega)
  have hk' : k < (pickCandidates m mx (bs.length - 2) pool).length := by omega
  obtain ⟨h1, h2, h3⟩ := pickCandidates_mem (List.getElem_mem hk')
  refine ⟨_, h1, by omega, ?_, picker_core hG hs (by omega) hlen hk' e⟩
  rintro ⟨q, hq, hq1, hq2⟩
  have := h3 ⟨q, hq, by omega, by omega⟩
  omega

theorem picker_short {G : Graph} {i : Id} {pool : List Id} (hG : G i = some (.picker pool))
    {fl : Flags} {m mx : Id → Int} (hs : PoolSizes G fl pool m mx) {mp : Int}
    (hmp : HasMin G fl i mp) (hmp' : mp ≤ INT_MAX) {bs : Bytes}
    (hno : ∀ j ∈ pool, (bs.length : Int) < m j + 2) (hshort : (bs.length : Int) < mp + 2) :
    Extracts G fl i (bs : ABlob) .outOfData fl (if bs.length < 2 then bs else bs.drop 2 : Bytes) := by
  by_cases hl : bs.length < 2
  · rw [if_pos hl]
    refine Extracts.intro (n := 1) ?_ (by simp)
    unfold extract
    rw [hG]
    dsimp only
    have e1 : liftB oracle (fl, (bs : ABlob)) = (.outOfData, (fl, bs)) := by
      unfold liftB
      dsimp only
      rw [oracle_abs bs, if_pos hl]
    rw [M.bind_ood e1]
  · rw [if_neg hl]
    obtain ⟨N, h⟩ := picker_head hG hs (bs := bs) (by omega)
    obtain ⟨N', h'⟩ := hmp
    refine Extracts.intro (n := max N N' + 1) ?_ (by simp)
    rw [h _ (by omega)]
    have hnil : pickCandidates m mx (bs.length - 2) pool = [] := by
      unfold pickCandidates
      dsimp only
      rw [pickCandidates_nil fun j hj => by have := hno j hj; omega]
      simp
    rw [hnil, if_pos (by simp)]
    have e1 : (liftF (sizeQ G (max N N' + 1) .min i) : XM ABlob Int) (fl, bs.drop 2) =
        (.ok mp, (fl, bs.drop 2)) := by
      unfold liftF; rw [h' _ (by omega)]
    have e2 : (curSize : XM ABlob Nat) (fl, bs.drop 2) = (.ok (bs.length - 2), (fl, bs.drop 2)) := by
      show (Out.ok (bs.drop 2).length, _) = _
      rw [List.length_drop]
    rw [M.bind_ok e1, M.bind_ok e2, if_pos]
    · rfl
    · have h3 : (0 : Int) < mp := by omega
      rw [toSz_of_nonneg (by omega) (by omega)]; omega

/-- **C31**, too little data: when no pool stamp fits and less than the picker's own `minSize()` is
left, it throws `OutOfData`, having used up its oracle if there was one. -/
theorem C31_short_throws {G : Graph} {i : Id} {pool : List Id} (hG : G i = some (.picker pool))
    {fl : Flags} {m mx : Id → Int} (hs : PoolSizes G fl pool m mx) {mp : Int}
    (hmp : HasMin G fl i mp) (hmp' : mp ≤ INT_MAX) {b : Blob} {bs : Bytes} (hr : Reachable b) (hh : Holds b bs)
    (hno : ∀ j ∈ pool, (bs.length : Int) < m j + 2) (hshort : (bs.length : Int) < mp + 2) :
    Throws G fl i b (if bs.length < 2 then bs else bs.drop 2) :=
  Throws.intro hr.valid hh (picker_short hG hs hmp hmp' hno hshort)

/-- C31 in the large: if no pool stamp fits in what follows the oracle but there are at least as many
bytes as the picker's own minimum, the picker aborts. -/
theorem picker_aborts {G : Graph} {i : Id} {pool : List Id} (hG : G i = some (.picker pool))
    {fl : Flags} {m mx : Id → Int} (hs : PoolSizes G fl pool m mx) {mp : Int}
    (hmp : HasMin G fl i mp) (hmp0 : 0 ≤ mp) (hmp' : mp ≤ INT_MAX) {b : Blob} {bs : Bytes}
    (hr : Reachable b) (hh : Holds b bs)
    (hno : ∀ j ∈ pool, (bs.length : Int) < m j + 2) (hlong : mp + 2 ≤ (bs.length : Int)) :
    ∃ fl' b', Extracts G fl i b .abort fl' b' := by
  obtain ⟨N, h⟩ := picker_head hG hs (bs := bs) (by omega)
  obtain ⟨N', h'⟩ := hmp
  have he : Extracts G fl i (bs : ABlob) .abort fl (bs.drop 2 : ABlob) := by
    refine Extracts.intro (n := max N N' + 1) ?_ (by simp)
    rw [h _ (by omega)]
    have hnil : pickCandidates m mx (bs.length - 2) pool = [] := by
      unfold pickCandidates
      dsimp only
      rw [pickCandidates_nil fun j hj => by have := hno j hj; omega]
      simp
    rw [hnil, if_pos (by simp)]
    have e1 : (liftF (sizeQ G (max N N' + 1) .min i) : XM ABlob Int) (fl, bs.drop 2) =
        (.ok mp, (fl, bs.drop 2)) := by
      unfold liftF; rw [h' _ (by omega)]
    have e2 : (curSize : XM ABlob Nat) (fl, bs.drop 2) = (.ok (bs.length - 2), (fl, bs.drop 2)) := by
      show (Out.ok (bs.drop 2).length, _) = _
      rw [List.length_drop]
    rw [M.bind_ok e1, M.bind_ok e2, if_neg]
    · rfl
    · rw [toSz_of_nonneg (by omega) (by omega)]; omega
  rw [holds_iff hr.valid] at hh
  subst hh
  obtain ⟨b', h1, _, _⟩ := Extracts.conc hr.valid (by simp) he
  exact ⟨fl, b', h1⟩

/-- **C31 is violated** by a picker that was given no stamps yet (or only itself), on a blob of a
gibibyte: it aborts, the stand-in `INT_MAX / 2` for the minimum it does not have being smaller than
the blob. -/
theorem C31_violated {G : Graph} {i : Id} (hG : G i = some (.picker [])) {fl : Flags}
    (hf : (fl i).inRec = false) {b : Blob} {bs : Bytes} (hr : Reachable b) (hh : Holds b bs)
    (hl : 1073741825 ≤ bs.length) :
    HasMin G fl i 1073741823 ∧ ∃ fl' b', Extracts G fl i b .abort fl' b' := by
  obtain ⟨r, h1, h2, h3, h4⟩ := min_picker hG hf (m := fun _ => 0) (by simp)
  have hr' : r = INT_MAX / 2 := by simpa using h3
  rw [if_pos hr'] at h4
  exact ⟨h4, picker_aborts hG (m := fun _ => 0) (mx := fun _ => 0) ⟨by simp, by simp⟩ h4 (by decide)
    (by decide) hr hh (by simp) (by have : (INT_MAX / 2 : Int) = 1073741823 := by decide
                                    omega)⟩

/-- A small pool: a byte, and an eight byte number. -/
def smallPool : Graph
  | 0 => some (.picker [1, 2])
  | 1 => some (.arith .u8)
  | 2 => some (.arith .u64)
  | _ => none

/-- With four bytes after the oracle only the byte fits; with eight both do and only the number can
take all; with none the picker throws. -/
example : (extract smallPool 9 0 (Flags.init, ([9, 9, 65, 66, 67, 68] : ABlob))).1 = .ok [54, 53] ∧
    (extract smallPool 9 0 (Flags.init, ([9, 9, 1, 1, 0, 0, 0, 0, 0, 0] : ABlob))).1 = .ok [50, 53, 55] ∧
    (extract smallPool 9 0 (Flags.init, ([9, 9] : ABlob))).1 = .outOfData := by decide +kernel

end BS
