import Verif.Props.Lottery
import Verif.Props.Copy

/-!
# C29: lotteries on blobs of any size, over stamps of any sizes that are `int`s
-/

namespace BS
open BlobLike

/-- Sizes of the stamps of a lottery, called with flags `fl`: each an `int`, the maximum -1 or not negative. -/
structure LotInts (G : Graph) (fl : Flags) (stamps : List Id) (m mx : Id → Int) : Prop where
  min : ∀ j ∈ stamps, HasMin G fl j (m j) ∧ 0 ≤ m j ∧ m j ≤ INT_MAX
  max : ∀ j ∈ stamps, HasMax G fl j (mx j) ∧ (mx j = -1 ∨ (0 ≤ mx j ∧ mx j ≤ INT_MAX))

/-- The recursive lottery adds minimum and maximum of a bounded stamp that fits `L` bytes, `d` as an `int`, and whose maximum is
not beyond `d`; and the sum is no `int`. -/
def SumOverflows (m mx : Id → Int) (L : Nat) (d : Int) (j : Id) : Prop :=
  m j ≤ L ∧ mx j ≠ -1 ∧ mx j ≤ d ∧ INT_MAX < m j + mx j

section
variable {rec4 : Bool} {qmin qmax : Id → M Flags Int} {fl : Flags} {m mx : Id → Int}

/-- The soft filter of stamp_lottery.h 60-71, with the size of the data as an `int`. -/
def lotSoft (rec4 : Bool) (m mx : Id → Int) (d : Int) (j : Id) : Bool :=
  decide (rec4 = false ∨ mx j = -1 ∨ d < mx j ∨ d < m j + mx j)

theorem softFilter_any {i : Id} {d : Int} (h1 : qmin i fl = (.ok (m i), fl)) (h2 : qmax i fl = (.ok (mx i), fl))
    (hd : -1 ≤ m i + mx i) (ho : rec4 = true → mx i ≠ -1 → mx i ≤ d → m i + mx i ≤ INT_MAX) :
    softFilter rec4 qmin qmax i d fl = (.ok (lotSoft rec4 m mx d i), fl) := by
  unfold softFilter lotSoft
  cases rec4 with
  | false => simp
  | true =>
    rw [if_neg (by simp), M.bind_ok h2]
    by_cases hx : mx i = -1 ∨ d < mx i
    · rw [if_pos hx]
      have : decide (true = false ∨ mx i = -1 ∨ d < mx i ∨ d < m i + mx i) = true := by
        rw [decide_eq_true_iff]; right; omega
      rw [this]; rfl
    · rw [if_neg hx, M.bind_ok h1]
      have e : (M.lift (ckInt (m i + mx i)) : M Flags Int) fl = (.ok (m i + mx i), fl) := by
        show (ckInt _, fl) = _
        rw [ckInt_ok (by omega) (by have := ho rfl (by omega) (by omega); omega)]
      rw [M.bind_ok e]
      have : decide (true = false ∨ mx i = -1 ∨ d < mx i ∨ d < m i + mx i) = decide (d < m i + mx i) := by
        rw [decide_eq_decide]; constructor
        · rintro (h | h | h | h)
          · cases h
          · exact absurd (Or.inl h) hx
          · exact absurd (Or.inr h) hx
          · exact h
        · intro h; exact Or.inr (Or.inr (Or.inr h))
      rw [this]; rfl

theorem softFilter_over {i : Id} {d : Int} (h1 : qmin i fl = (.ok (m i), fl)) (h2 : qmax i fl = (.ok (mx i), fl))
    (h3 : mx i ≠ -1) (h4 : mx i ≤ d) (h5 : INT_MAX < m i + mx i) :
    softFilter true qmin qmax i d fl = (.ub .intOverflow, fl) := by
  unfold softFilter
  rw [if_neg (by simp), M.bind_ok h2, if_neg (by omega), M.bind_ok h1]
  have e : (M.lift (ckInt (m i + mx i)) : M Flags Int) fl = (.ub .intOverflow, fl) := by
    show (ckInt _, fl) = _
    unfold ckInt
    rw [if_neg (by rw [fitsInt_iff]; omega)]
  rw [M.bind_ub e]

/-- What the first round of a lottery does. -/
theorem lotFilter_any {l : List Id} (hmin : ∀ j ∈ l, qmin j fl = (.ok (m j), fl) ∧ 0 ≤ m j ∧ m j ≤ INT_MAX)
    (hmax : ∀ j ∈ l, qmax j fl = (.ok (mx j), fl) ∧ (mx j = -1 ∨ (0 ≤ mx j ∧ mx j ≤ INT_MAX))) {a : ABlob} :
    ((∀ j ∈ l, ¬ (rec4 = true ∧ SumOverflows m mx a.length (wrap32 a.length) j)) →
      lotFilter rec4 qmin qmax l (fl, a) =
        (.ok ((l.filter fun j => m j ≤ a.length).filter (lotSoft rec4 m mx (wrap32 a.length))), (fl, a))) ∧
    ((∃ j ∈ l, rec4 = true ∧ SumOverflows m mx a.length (wrap32 a.length) j) →
      lotFilter rec4 qmin qmax l (fl, a) = (.ub .intOverflow, (fl, a))) := by
  induction l with
  | nil => exact ⟨fun _ => rfl, fun ⟨j, hj, _⟩ => absurd hj (by simp)⟩
  | cons i l ih =>
    obtain ⟨ih1, ih2⟩ := ih (fun j hj => hmin j (List.mem_cons_of_mem _ hj)) (fun j hj => hmax j (List.mem_cons_of_mem _ hj))
    obtain ⟨h1, h2, h3⟩ := hmin i (by simp)
    obtain ⟨h4, h5⟩ := hmax i (by simp)
    have e1 : (liftF (qmin i) : XM ABlob Int) (fl, a) = (.ok (m i), (fl, a)) := by
      unfold liftF; rw [h1]
    have e2 : (curSize : XM ABlob Nat) (fl, a) = (.ok a.length, (fl, a)) := rfl
    unfold lotFilter
    rw [M.bind_ok e1, M.bind_ok e2, toSz_of_nonneg h2 (by omega)]
    by_cases hc : m i ≤ a.length
    swap
    · rw [if_pos (by omega), List.filter_cons_of_neg (by simpa using hc)]
      refine ⟨fun h => ih1 fun j hj => h j (List.mem_cons_of_mem _ hj), fun ⟨j, hj, ho⟩ => ?_⟩
      rcases List.mem_cons.1 hj with rfl | hj
      · exact absurd ho.2.1 hc
      · exact ih2 ⟨j, hj, ho⟩
    rw [if_neg (by omega), List.filter_cons_of_pos (by simpa using hc)]
    by_cases hov : rec4 = true ∧ SumOverflows m mx a.length (wrap32 a.length) i
    · refine ⟨fun h => absurd hov (h i (by simp)), fun _ => ?_⟩
      obtain ⟨rfl, _, o2, o3, o4⟩ := hov
      have e3 : (liftF (softFilter true qmin qmax i (wrap32 a.length)) : XM ABlob Bool) (fl, a) =
          (.ub .intOverflow, (fl, a)) := by
        unfold liftF; rw [softFilter_over h1 h4 o2 o3 o4]
      rw [M.bind_ub e3]
    · have e3 : (liftF (softFilter rec4 qmin qmax i (wrap32 a.length)) : XM ABlob Bool) (fl, a) =
          (.ok (lotSoft rec4 m mx (wrap32 a.length) i), (fl, a)) := by
        unfold liftF
        rw [softFilter_any (rec4 := rec4) (d := wrap32 a.length) h1 h4 (by omega) (fun r1 r2 r3 => by
          by_contra hcon
          exact hov ⟨r1, hc, r2, r3, by omega⟩)]
      rw [M.bind_ok e3]
      refine ⟨fun h => ?_, fun ⟨j, hj, ho⟩ => ?_⟩
      · rw [M.bind_ok (ih1 fun j hj => h j (List.mem_cons_of_mem _ hj)), List.filter_cons]
        rfl
      · rcases List.mem_cons.1 hj with rfl | hj
        · exact absurd ho hov
        · rw [M.bind_ub (ih2 ⟨j, hj, ho⟩)]

end

/-- **C29**, exactly: a lottery whose blob holds at least `minSize()` bytes, however many, hands what follows its oracle to one of its
stamps whose own minimum fits, whatever the oracle. The only exception is the recursive lottery over stamps so large that minimum
and maximum of one that fits add up to more than an `int`: if its maximum is not beyond the size of the data (taken as an
`int`), it is undefined. -/
theorem C29_exact {G : Graph} {i : Id} {rec4 : Bool} {stamps : List Id} {w : Nat} {smin smax : Int}
    (hG : G i = some (.lottery rec4 stamps w smin smax)) (hw : w = 1 ∨ w = 2 ∨ w = 4 ∨ w = 8) {fl : Flags}
    {m mx : Id → Int} (hs : LotInts G fl stamps m mx) (hmin : ∃ j ∈ stamps, m j ≤ smin)
    (hlen : stamps.length ≤ 2 ^ 53) {bs : Bytes} (hl : smin + w ≤ bs.length) :
    ((∀ j ∈ stamps, ¬ (rec4 = true ∧ SumOverflows m mx (bs.length - w) (wrap32 (bs.length - w : Nat)) j)) →
      ∃ j ∈ stamps, m j ≤ (bs.length - w : Nat) ∧ Delegates G fl i bs j (bs.drop w)) ∧
    ((∃ j ∈ stamps, rec4 = true ∧ SumOverflows m mx (bs.length - w) (wrap32 (bs.length - w : Nat)) j) →
      ∀ b, Reachable b → Holds b bs → ∃ fl' b', Extracts G fl i b (.ub .intOverflow) fl' b') := by
  obtain ⟨j0, hj0, hm0⟩ := hmin
  have h0 := (hs.min j0 hj0).2
  obtain ⟨N1, h1⟩ := exists_common stamps fun j hj => (hs.min j hj).1
  obtain ⟨N2, h2⟩ := exists_common stamps fun j hj => (hs.max j hj).1
  have hmin : ∀ n ≥ max N1 N2, ∀ j ∈ stamps, sizeQ G n .min j fl = (.ok (m j), fl) ∧ 0 ≤ m j ∧ m j ≤ INT_MAX :=
    fun n hn j hj => ⟨h1 n (by omega) j hj, (hs.min j hj).2⟩
  have hmax : ∀ n ≥ max N1 N2, ∀ j ∈ stamps, sizeQ G n .max j fl = (.ok (mx j), fl) ∧
      (mx j = -1 ∨ (0 ≤ mx j ∧ mx j ≤ INT_MAX)) :=
    fun n hn j hj => ⟨h2 n (by omega) j hj, (hs.max j hj).2⟩
  obtain ⟨ty, hty⟩ := uOracleTy_width hw
  have hlr : (bs.drop w).length = bs.length - w := List.length_drop
  have e1 : liftB (uOracle w) (fl, (bs : ABlob)) = (.ok (leNat (bs.take w)), (fl, bs.drop w)) := by
    unfold liftB
    dsimp only
    rw [uOracle_abs hty bs, if_neg (by omega)]
  constructor
  · intro hno
    obtain ⟨u1, u2⟩ := uMax_bounds hw
    have ho : leNat (bs.take w) ≤ uMax w := by
      have := leNat_take_lt bs w
      unfold uMax; omega
    obtain ⟨c, hc, hcl, hsub, hrun⟩ : ∃ c : List Id, c ≠ [] ∧ c.length ≤ stamps.length ∧
        (∀ j ∈ c, j ∈ stamps ∧ m j ≤ (bs.length - w : Nat)) ∧ ∀ n ≥ max N1 N2,
        ((do
          let l1 ← lotFilter rec4 (sizeQ G n .min) (sizeQ G n .max) stamps
          if l1.isEmpty then lotFilter false (sizeQ G n .min) (sizeQ G n .max) stamps
          else pure l1) : XM ABlob (List Id)) (fl, bs.drop w) = (.ok c, (fl, bs.drop w)) := by
      have hfit : j0 ∈ stamps.filter fun j => m j ≤ (bs.length - w : Nat) := by
        rw [List.mem_filter]; exact ⟨hj0, by simpa using by omega⟩
      have f1 := fun n hn => (lotFilter_any (rec4 := rec4) (hmin n hn) (hmax n hn) (a := bs.drop w)).1
        (by rw [hlr]; exact hno)
      have f2 := fun n hn => (lotFilter_any (rec4 := false) (hmin n hn) (hmax n hn) (a := bs.drop w)).1
        (by simp)
      rw [hlr] at f1 f2
      have hall : (stamps.filter fun j => m j ≤ (bs.length - w : Nat)).filter
          (lotSoft false m mx (wrap32 (bs.length - w : Nat))) = stamps.filter fun j => m j ≤ (bs.length - w : Nat) := by
        rw [List.filter_eq_self]
        intro j _
        simp [lotSoft]
      rw [hall] at f2
      by_cases he : (stamps.filter fun j => m j ≤ (bs.length - w : Nat)).filter
          (lotSoft rec4 m mx (wrap32 (bs.length - w : Nat))) = []
      · refine ⟨_, List.ne_nil_of_mem hfit, List.length_filter_le _ _, fun j hj => ?_, fun n hn => ?_⟩
        · rw [List.mem_filter] at hj; simpa using hj
        · rw [M.bind_ok (f1 n hn), he, List.isEmpty_nil, if_pos rfl, f2 n hn]
      · refine ⟨_, he, le_trans (List.length_filter_le _ _) (List.length_filter_le _ _), fun j hj => ?_, fun n hn => ?_⟩
        · have := List.mem_of_mem_filter hj
          rw [List.mem_filter] at this; simpa using this
        · rw [M.bind_ok (f1 n hn), if_neg (by rw [List.isEmpty_iff]; exact he)]
          rfl
    have hpos := List.length_pos_iff.2 hc
    obtain ⟨k, e, hk⟩ := scaledIndex_lt u1 ho u2 hpos (by omega)
    refine ⟨c[k], (hsub _ (List.getElem_mem hk)).1, (hsub _ (List.getElem_mem hk)).2,
      Delegates.intro (N := max N1 N2) fun n hn => ?_⟩
    conv_lhs => unfold extract
    rw [hG]
    dsimp only
    rw [M.bind_ok e1]
    have := M.bind_ok (f := fun l : List Id => (if l.isEmpty = true then M.throwOOD else do
      let k ← M.lift (scaledIndex (leNat (bs.take w)) (uMax w) l.length)
      let j ← M.lift (vecGet l k)
      extract G n j : XM ABlob Bytes)) (hrun n hn)
    rw [M.bind_assoc] at this
    refine this.trans ?_
    rw [if_neg (by rw [List.isEmpty_iff]; exact hc)]
    rw [M.bind_ok (show (M.lift (scaledIndex _ _ _) : XM ABlob Int) _ = (.ok (k : Int), _) from
      by show (scaledIndex _ _ _, _) = _; rw [e])]
    rw [M.bind_ok (show (M.lift (vecGet _ _) : XM ABlob Id) _ = (.ok _, _) from
      by show (vecGet _ _, _) = _; rw [vecGet_nat hk (by omega)])]
  · rintro ⟨j, hj, ho⟩ b hr hh
    rw [holds_iff hr.valid] at hh
    have : Extracts G fl i (b.abs : ABlob) (.ub .intOverflow) fl (bs.drop w) := by
      refine Extracts.intro (n := max N1 N2 + 1) ?_ (by simp)
      rw [hh]
      unfold extract
      rw [hG]
      dsimp only
      rw [M.bind_ok e1]
      have := (lotFilter_any (rec4 := rec4) (hmin _ le_rfl) (hmax _ le_rfl) (a := bs.drop w)).2 ⟨j, hj, by rw [hlr]; exact ho⟩
      rw [M.bind_ub this]
    obtain ⟨b', hb', _⟩ := this.conc hr.valid (by simp)
    exact ⟨_, _, hb'⟩

/-- A recursive lottery to which a client's stamp of 2^30 bytes was appended. -/
def hugeLottery : Graph
  | 0 => some ((LotState.build none [(1, (1073741824, 1073741824))]).node true)
  | 1 => some (.user ⟨1073741824, 1073741824, false, fun _ => (.ok [], 1073741824)⟩)
  | _ => none

theorem hugeLottery_sizes (fl : Flags) : LotInts hugeLottery fl [1] (fun _ => 1073741824) (fun _ => 1073741824) := by
  refine ⟨fun j hj => ?_, fun j hj => ?_⟩ <;> rw [List.mem_singleton] at hj <;> subst hj
  · exact ⟨SizeRuns.intro (n := 1) rfl, by decide, by decide⟩
  · exact ⟨SizeRuns.intro (n := 1) rfl, .inr (by decide)⟩

/-- **C29 is violated** where sizes add up to more than an `int`: the lottery asks for 2^30+1 bytes, its stamp fits, and on every
blob of 2^30+1 to 2^31 bytes the recursive lottery overflows an `int` when it adds the sizes of the stamp. -/
theorem C29_violated {fl : Flags} {b : Blob} {bs : Bytes} (hr : Reachable b) (hh : Holds b bs)
    (h1 : 1073741825 ≤ bs.length) (h2 : bs.length ≤ 2147483648) :
    HasMin hugeLottery fl 0 1073741825 ∧ ∃ fl' b', Extracts hugeLottery fl 0 b (.ub .intOverflow) fl' b' := by
  have hG : hugeLottery 0 = some (.lottery true [1] 1 1073741824 1073741824) := rfl
  refine ⟨SizeRuns.intro (n := 1) rfl, ?_⟩
  refine (C29_exact hG (.inl rfl) (hugeLottery_sizes fl) ⟨1, by simp, le_rfl⟩ (by decide) (by push_cast; omega)).2 ?_ b hr hh
  refine ⟨1, by simp, rfl, by dsimp only; omega, by decide, ?_, by decide⟩
  rw [wrap32_of_fits (by omega) (by omega)]
  dsimp only
  omega

/-- Three gigabytes in a recursive lottery over a Latin-1 stamp: it is given them. -/
example (bs : Bytes) (hl : bs.length = 3000000000) :
    Delegates (fun | 0 => some (.lottery true [1] 1 1 (-1)) | 1 => some .latin1 | _ => none) Flags.init 0 bs 1 (bs.drop 1) := by
  have hs : LotInts (fun | 0 => some (.lottery true [1] 1 1 (-1)) | 1 => some .latin1 | _ => none) Flags.init [1]
      (fun _ => 1) (fun _ => -1) := by
    refine ⟨fun j hj => ?_, fun j hj => ?_⟩ <;> rw [List.mem_singleton] at hj <;> subst hj
    · exact ⟨SizeRuns.intro (n := 1) rfl, by decide, by decide⟩
    · exact ⟨SizeRuns.intro (n := 1) rfl, .inl rfl⟩
  obtain ⟨j, hj, _, hd⟩ := (C29_exact (i := 0) (bs := bs) rfl (.inl rfl) hs ⟨1, by simp, le_rfl⟩ (by decide) (by push_cast; omega)).1
    (fun j _ h => h.2.2.1 rfl)
  rw [List.mem_singleton] at hj
  subst hj
  exact hd

end BS
