import Verif.Spec.Grow
import Verif.Lemmas.SwapRun
import Verif.Lemmas.Least
import Verif.Props.Compose
import Verif.Props.Share
import Verif.Props.JsonOut

/-!
# Runs with the alternatives in another order
-/

namespace BS
open BlobLike

section
variable {G H : Graph} {fl fl' : Flags} {R : Id → Id → Prop}

/-- The same single stamp elsewhere. -/
theorem single_other {i j : Id} {nd : Node} (hG : G i = some nd) (hH : H j = some nd) (hs : nd.single = true) {n : Nat}
    {a a' : ABlob} {s : Bytes} {fl1 : Flags} (h : extract G (n + 1) i (fl, a) = (.ok s, (fl1, a'))) :
    extract H (n + 1) j (fl', a) = (.ok s, (fl', a')) := by
  have key : ∀ (k : M ABlob Bytes), extract G (n + 1) i = liftB k → extract H (n + 1) j = liftB k →
      extract H (n + 1) j (fl', a) = (.ok s, (fl', a')) := by
    intro k e1 e2
    rw [e1] at h
    rw [e2]
    have h1 : (k a).1 = .ok s := congrArg Prod.fst h
    have h2 : (k a).2 = a' := congrArg (fun p => p.2.2) h
    show ((k a).1, (fl', (k a).2)) = _
    rw [h1, h2]
  cases nd with
  | arith t => exact key _ (by unfold extract; rw [hG]) (by unfold extract; rw [hH])
  | dict ws => exact key _ (by unfold extract; rw [hG]) (by unfold extract; rw [hH])
  | jsonStr => exact key _ (by unfold extract; rw [hG]) (by unfold extract; rw [hH])
  | latin1 => exact key _ (by unfold extract; rw [hG]) (by unfold extract; rw [hH])
  | ascii => exact key _ (by unfold extract; rw [hG]) (by unfold extract; rw [hH])
  | user u =>
    unfold extract at h ⊢
    rw [hG] at h
    rw [hH]
    have e : ∀ fl, (liftB (BlobLike.chop (min (u.behave a).2 (List.length a))) : XM ABlob ABlob) (fl, a) =
        (.ok (List.take (min (u.behave a).2 (List.length a)) a), (fl, List.drop (min (u.behave a).2 (List.length a)) a)) := by
      intro fl
      unfold liftB
      dsimp only
      rw [chop_abs, if_neg (by omega)]
    change (liftB (BlobLike.chop (min (u.behave a).2 (List.length a))) >>= fun _ => M.lift (u.behave a).1) (fl, a) = _ at h
    show (liftB (BlobLike.chop (min (u.behave a).2 (List.length a))) >>= fun _ => M.lift (u.behave a).1) (fl', a) = _
    rw [M.bind_ok (e fl)] at h
    rw [M.bind_ok (e fl')]
    injection h with h1 h2
    injection h2 with _ h2
    show ((u.behave a).1, _) = _
    rw [h1, h2]
  | _ => cases hs

/-! ## Choices -/

theorem fle_pickChoice {n m : Nat} (h : n ≤ m) (i : Id) (pool : List Id) (o : Nat) :
    FLe (pickChoice G n i pool o) (pickChoice G m i pool o) := by
  have hq : ∀ sel i, FLe (sizeQ G n sel i) (sizeQ G m sel i) := fun sel i => fle_sizeQ G h sel i
  exact .bind (fle_pickFilter (hq _) (hq _) _) fun _ => .ite (.bind (fle_liftF (fle_sizeQ G (by omega) _ _)) fun _ => .refl _) (.refl _)

theorem fle_lotChoice {n m : Nat} (h : n ≤ m) (rec4 : Bool) (stamps : List Id) (w o : Nat) :
    FLe (lotChoice G n rec4 stamps w o) (lotChoice G m rec4 stamps w o) := by
  have hq : ∀ sel i, FLe (sizeQ G n sel i) (sizeQ G m sel i) := fun sel i => fle_sizeQ G h sel i
  exact .bind (fle_lotFilter _ (hq _) (hq _) _) fun _ => .bind (.ite (fle_lotFilter _ (hq _) (hq _) _) (.refl _)) fun _ => .refl _

theorem vecGet_ok_mem {l : List Id} {k : Int} {j : Id} (h : vecGet l k = .ok j) : j ∈ l := by
  unfold vecGet at h
  split at h
  · next e => cases h; exact List.mem_of_getElem? e
  · cases h

theorem pickChoice_mem {i : Id} {pool : List Id} {m mx : Id → Int} (hs : PoolSizes G fl pool m mx) {n o : Nat} {a : ABlob}
    {j : Id} {s' : Flags × ABlob} (h : pickChoice G n i pool o (fl, a) = (.ok j, s')) :
    s' = (fl, a) ∧ j ∈ pickCandidates m mx (List.length a) pool := by
  obtain ⟨N1, h1⟩ := exists_common pool fun j hj => (hs.min j hj).1
  obtain ⟨N2, h2⟩ := exists_common pool fun j hj => (hs.max j hj).1
  set N := max n (max N1 N2) with hN
  have h : pickChoice G N i pool o (fl, a) = (.ok j, s') := by
    rcases fle_pickChoice (G := G) (show n ≤ N by omega) i pool o (fl, a) with e | e
    · rw [h] at e; cases e
    · rw [← e, h]
  unfold pickChoice at h
  have hr := pickFilter_run (qmin := sizeQ G N .min) (qmax := sizeQ G N .max) (l := pool) (fl := fl) (m := m) (mx := mx)
    (fun j hj => ⟨h1 N (by omega) j hj, (hs.min j hj).2⟩) (fun j hj => ⟨h2 N (by omega) j hj, (hs.max j hj).2⟩) (a := a)
  rw [M.bind_ok hr] at h
  dsimp only at h
  have e : (if (((pool.filter fun j => m j ≤ a.length).filter fun j => mx j = -1 ∨ (a.length : Int) ≤ mx j).isEmpty) = true
      then pool.filter fun j => m j ≤ a.length
      else (pool.filter fun j => m j ≤ a.length).filter fun j => mx j = -1 ∨ (a.length : Int) ≤ mx j) =
      pickCandidates m mx (List.length a) pool := by
    unfold pickCandidates
    dsimp only
    by_cases hc : ((pool.filter fun j => m j ≤ a.length).filter fun j => mx j = -1 ∨ (a.length : Int) ≤ mx j) = []
    · rw [if_pos (by rw [List.isEmpty_iff]; exact hc), if_neg (fun h => h hc)]
    · rw [if_neg (by rw [List.isEmpty_iff]; exact hc), if_pos hc]
  rw [e] at h
  split at h
  · obtain ⟨mn, s1, k1, h⟩ := M.bind_eq_ok.1 h
    obtain ⟨sz, s2, k2, h⟩ := M.bind_eq_ok.1 h
    split at h <;> cases h
  · obtain ⟨k, s1, k1, h⟩ := M.bind_eq_ok.1 h
    injection k1 with k1 k1'
    subst k1'
    injection h with h3 h4
    exact ⟨h4.symm, vecGet_ok_mem h3⟩

theorem lotChoice_mem {rec4 : Bool} {stamps : List Id} {m mx : Id → Int} (hs : LotSizes G fl stamps m mx) {n w o : Nat}
    {a : ABlob} (ha : rec4 = true → List.length a < W31) {j : Id} {s' : Flags × ABlob}
    (h : lotChoice G n rec4 stamps w o (fl, a) = (.ok j, s')) :
    s' = (fl, a) ∧ j ∈ lotCandidates rec4 m mx (List.length a) stamps := by
  obtain ⟨N1, h1⟩ := exists_common stamps fun j hj => (hs.min j hj).1
  obtain ⟨N2, h2⟩ := exists_common stamps fun j hj => (hs.max j hj).1
  set N := max n (max N1 N2) with hN
  have h : lotChoice G N rec4 stamps w o (fl, a) = (.ok j, s') := by
    rcases fle_lotChoice (G := G) (show n ≤ N by omega) rec4 stamps w o (fl, a) with e | e
    · rw [h] at e; cases e
    · rw [← e, h]
  unfold lotChoice at h
  have hr := fun (r : Bool) (hr : r = true → a.length < W31) =>
    lotFilter_run (rec4 := r) (qmin := sizeQ G N .min) (qmax := sizeQ G N .max) (l := stamps) (fl := fl) (m := m) (mx := mx)
    (fun j hj => ⟨h1 N (by omega) j hj, (hs.min j hj).2⟩) (fun j hj => ⟨h2 N (by omega) j hj, (hs.max j hj).2⟩) (a := a) hr
  rw [M.bind_ok (hr rec4 ha)] at h
  have hfull : ((stamps.filter fun j => m j ≤ a.length).filter fun j => false = false ∨ mx j = -1 ∨ (a.length : Int) < m j + mx j) =
      stamps.filter fun j => m j ≤ a.length := by
    rw [List.filter_eq_self]; intro j _; simp
  obtain ⟨l, s1, k1, h⟩ := M.bind_eq_ok.1 h
  have e : s1 = (fl, a) ∧ l = lotCandidates rec4 m mx (List.length a) stamps := by
    have hz := hr false (fun h => by cases h)
    rw [hfull] at hz
    unfold lotCandidates
    dsimp only
    cases rec4 with
    | false =>
      rw [hfull] at k1
      rw [if_neg (by simp)]
      split at k1
      · rw [hz] at k1; cases k1; exact ⟨rfl, rfl⟩
      · cases k1; exact ⟨rfl, rfl⟩
    | true =>
      have e2 : ((stamps.filter fun j => m j ≤ a.length).filter fun j => true = false ∨ mx j = -1 ∨ (a.length : Int) < m j + mx j) =
          ((stamps.filter fun j => m j ≤ a.length).filter fun j => mx j = -1 ∨ (a.length : Int) < m j + mx j) := by
        congr 1; funext j; simp
      rw [e2] at k1
      split at k1
      · next hc =>
        rw [List.isEmpty_iff] at hc
        rw [hz] at k1; cases k1
        exact ⟨rfl, by rw [if_neg (fun h => h.2 hc)]⟩
      · next hc =>
        rw [List.isEmpty_iff] at hc
        cases k1; exact ⟨rfl, by rw [if_pos ⟨rfl, hc⟩]⟩
  obtain ⟨rfl, rfl⟩ := e
  split at h
  · cases h
  · obtain ⟨k, s1, k1, h⟩ := M.bind_eq_ok.1 h
    injection k1 with k1 k1'
    subst k1'
    injection h with h3 h4
    exact ⟨h4.symm, vecGet_ok_mem h3⟩

theorem uOracle_ok_form {w o : Nat} {a a1 : ABlob} (h : uOracle w a = (.ok o, a1)) (hw : w = 1 ∨ w = 2 ∨ w = 4 ∨ w = 8) :
    ∃ u : Bytes, a = u ++ a1 ∧ u.length = w := by
  obtain ⟨ty, hty⟩ := uOracleTy_width hw
  rw [uOracle_abs hty] at h
  split at h
  · cases h
  · next hl =>
    cases h
    exact ⟨a.take w, (List.take_append_drop _ _).symm, by rw [List.length_take]; omega⟩

theorem oracle_ok_form {o : Nat} {a a1 : ABlob} (h : oracle a = (.ok o, a1)) : ∃ u : Bytes, a = u ++ a1 ∧ u.length = 2 := by
  rw [oracle_abs] at h
  split at h
  · cases h
  · next hl =>
    cases h
    exact ⟨a.take 2, (List.take_append_drop _ _).symm, by rw [List.length_take]; omega⟩

/-- What a picker that returns does, with the budget of the call. -/
theorem pick_inv {i : Id} {pool : List Id} (hG : G i = some (.picker pool)) {m mx : Id → Int} (hs : PoolSizes G fl pool m mx)
    {n : Nat} {a a' : ABlob} {s : Bytes} {fl1 : Flags} (h : extract G (n + 1) i (fl, a) = (.ok s, (fl1, a'))) :
    ∃ (u : Bytes) (a1 : ABlob) (j : Id), a = u ++ a1 ∧ u.length = 2 ∧ j ∈ pickCandidates m mx (List.length a1) pool ∧
      extract G n j (fl, a1) = (.ok s, (fl1, a')) := by
  rw [extract_picker_eq hG] at h
  obtain ⟨o, ⟨f1, a1⟩, h1, h⟩ := M.bind_eq_ok.1 h
  obtain ⟨j, s2, h2, h⟩ := M.bind_eq_ok.1 h
  obtain ⟨e1, e2⟩ := liftB_ok h1
  dsimp only at e1 e2
  subst e2
  obtain ⟨rfl, hj⟩ := pickChoice_mem hs h2
  obtain ⟨u, e3, e4⟩ := oracle_ok_form e1
  exact ⟨u, a1, j, e3, e4, hj, h⟩

/-- What a lottery that returns does, with the budget of the call. -/
theorem lot_inv {i : Id} {rec4 : Bool} {stamps : List Id} {w : Nat} {smin smax : Int}
    (hG : G i = some (.lottery rec4 stamps w smin smax)) (hw : w = 1 ∨ w = 2 ∨ w = 4 ∨ w = 8) {m mx : Id → Int}
    (hs : LotSizes G fl stamps m mx) {n : Nat} {a a' : ABlob} (ha : List.length a < W31) {s : Bytes} {fl1 : Flags}
    (h : extract G (n + 1) i (fl, a) = (.ok s, (fl1, a'))) :
    ∃ (u : Bytes) (a1 : ABlob) (j : Id), a = u ++ a1 ∧ u.length = w ∧ j ∈ lotCandidates rec4 m mx (List.length a1) stamps ∧
      extract G n j (fl, a1) = (.ok s, (fl1, a')) := by
  rw [extract_lottery_eq hG] at h
  obtain ⟨o, ⟨f1, a1⟩, h1, h⟩ := M.bind_eq_ok.1 h
  obtain ⟨j, s2, h2, h⟩ := M.bind_eq_ok.1 h
  obtain ⟨e1, e2⟩ := liftB_ok h1
  dsimp only at e1 e2
  subst e2
  obtain ⟨u, e3, e4⟩ := uOracle_ok_form e1 hw
  obtain ⟨rfl, hj⟩ := lotChoice_mem hs (fun _ => by rw [e3, List.length_append] at ha; omega) h2
  exact ⟨u, a1, j, e3, e4, hj, h⟩

theorem Delegates.arun {i j : Id} {bs rest : Bytes} (h : Delegates G fl i bs j rest) (hb : bs.length < 9223372036854775808)
    (hr : rest.length < 9223372036854775808) {s : Bytes} {left : ABlob} (hj : ARun G fl j rest (.ok s) left) :
    ARun G fl i bs (.ok s) left := by
  obtain ⟨b, hb1, hb2⟩ := exists_blob hb
  obtain ⟨b1, hr1, hr2⟩ := exists_blob hr
  exact (returns_iff hb1 hb2).1 (((h b b1 hb1 hb2 hr1 hr2).1 s left).2 ((returns_iff hr1 hr2).2 hj))

/-- Every candidate of a picker is reached by two bytes that depend on the number of bytes only. -/
theorem pick_reach {i : Id} {pool : List Id} (hG : G i = some (.picker pool)) {m mx : Id → Int} (hs : PoolSizes G fl pool m mx)
    (hlen : pool.length ≤ 256) {L : Nat} (hL : L < W31) {j : Id} (hj : j ∈ pickCandidates m mx L pool) :
    ∃ p : Bytes, p.length = 2 ∧ ∀ (rest : ABlob) (s : Bytes) (left : ABlob), List.length rest = L → ARun G fl j rest (.ok s) left →
      ARun G fl i (p ++ rest) (.ok s) left := by
  obtain ⟨k, hk, hj'⟩ := List.mem_iff_getElem.1 hj
  have hcl := pickCandidates_length m mx L pool
  obtain ⟨hj1, hj2, -⟩ := pickCandidates_mem hj
  set c := (pickCandidates m mx L pool).length with hc
  obtain ⟨o, ho, ho2⟩ : ∃ o, o < 65536 ∧ o * c / 65536 = k := by
    refine ⟨(k * 65536 + c - 1) / c, ?_, ?_⟩
    · rw [Nat.div_lt_iff_lt_mul (by omega)]
      have : (k + 1) * 65536 ≤ c * 65536 := Nat.mul_le_mul_right _ hk
      omega
    · have h1 := Nat.div_add_mod (k * 65536 + c - 1) c
      have h2 := Nat.mod_lt (k * 65536 + c - 1) (show c > 0 by omega)
      rw [Nat.mul_comm c] at h1
      rw [Nat.div_eq_iff (by norm_num)]
      omega
  refine ⟨[UInt8.ofNat (o % 256), UInt8.ofNat (o / 256)], rfl, fun rest s left hr h => ?_⟩
  subst hr
  obtain ⟨j', e, hd⟩ := C53_picker_exact hG hs hlen (x := UInt8.ofNat (o % 256)) (y := UInt8.ofNat (o / 256)) (rest := rest)
    ⟨j, hj1, hj2⟩
  have ex : (UInt8.ofNat (o % 256)).toNat + 256 * (UInt8.ofNat (o / 256)).toNat = o := by
    rw [UInt8.toNat_ofNat', UInt8.toNat_ofNat']; omega
  rw [ex, ← hc, ho2, List.getElem?_eq_getElem hk, hj'] at e
  cases e
  exact hd.arun (by simp only [List.length_cons]; omega) (by omega) h

/-- Every candidate of a lottery is reached by bytes that depend on the number of bytes only. -/
theorem lot_reach {i : Id} {rec4 : Bool} {stamps : List Id} {w : Nat} {smin smax : Int}
    (hG : G i = some (.lottery rec4 stamps w smin smax)) (hw0 : w = lotWidth stamps.length) (hlen : stamps.length < 2 ^ 30)
    {m mx : Id → Int} (hs : LotSizes G fl stamps m mx) {L : Nat} (hL : L < W31 - 8) {j : Id}
    (hj : j ∈ lotCandidates rec4 m mx L stamps) :
    ∃ p : Bytes, p.length = w ∧ ∀ (rest : ABlob) (s : Bytes) (left : ABlob), List.length rest = L → ARun G fl j rest (.ok s) left →
      ARun G fl i (p ++ rest) (.ok s) left := by
  subst hw0
  set cs := lotCandidates rec4 m mx L stamps with hcs
  have hcl : cs.length ≤ stamps.length := lotCandidates_length rec4 m mx L stamps
  obtain ⟨k, hk, hj'⟩ := List.mem_iff_getElem.1 hj
  have hw : (lotWidth stamps.length = 1 ∧ stamps.length < 255) ∨ (lotWidth stamps.length = 2 ∧ stamps.length < 65535)
      ∨ lotWidth stamps.length = 4 := by
    rw [← initOracleSize_eq]
    unfold initOracleSize
    by_cases h1 : stamps.length < 255
    · left; rw [if_pos h1]; exact ⟨rfl, h1⟩
    by_cases h2 : stamps.length < 65535
    · right; left; rw [if_neg h1, if_pos h2]; exact ⟨rfl, h2⟩
    · right; right; rw [if_neg h1, if_neg h2, if_pos (by omega)]
  have hsurj : ∃ o, o ≤ uMax (lotWidth stamps.length) ∧
      scaledIndex o (uMax (lotWidth stamps.length)) cs.length = .ok (k : Int) := by
    rcases hw with ⟨h, h'⟩ | ⟨h, h'⟩ | h
    · rw [h]; exact scaledIndex_surj (by norm_num [uMax]) (by norm_num [uMax]; omega) hk
    · rw [h]; exact scaledIndex_surj (by norm_num [uMax]) (by norm_num [uMax]; omega) hk
    · rw [h]; exact scaledIndex_mid (by norm_num [uMax]) (by norm_num [uMax]; omega) (by omega) hk
  have hw' : lotWidth stamps.length = 1 ∨ lotWidth stamps.length = 2 ∨ lotWidth stamps.length = 4 ∨
      lotWidth stamps.length = 8 := by
    rcases hw with h | h | h
    · exact Or.inl h.1
    · exact Or.inr (Or.inl h.1)
    · exact Or.inr (Or.inr (Or.inl h))
  have hw8 := (lotWidth_le stamps.length).2
  generalize lotWidth stamps.length = w at *
  obtain ⟨o, ho, e⟩ := hsurj
  refine ⟨leBytes w o, leBytes_length w o, fun rest s left hr h => ?_⟩
  subst hr
  have ho' : o < 256 ^ w := by
    rw [pow256]
    have := Nat.pow_pos (n := 8 * w) (by norm_num : 0 < 2)
    unfold uMax at ho
    omega
  have hlr : (leBytes w o ++ rest).length - w = rest.length := by
    rw [List.length_append, leBytes_length]; omega
  have ht : (leBytes w o ++ rest).take w = leBytes w o := List.take_left' (leBytes_length w o)
  have hd : (leBytes w o ++ rest).drop w = rest := List.drop_left' (leBytes_length w o)
  have key := lottery_core hG hw' hs (bs := leBytes w o ++ rest)
    (by rw [List.length_append, leBytes_length]; omega)
    (fun h => by rw [List.length_append, leBytes_length]; omega) (k := k)
    (by rw [hlr]; exact hk)
    (by rw [hlr, ht, leNat_leBytes w o ho']; exact e) (by omega)
  have key' : Delegates G fl i (leBytes w o ++ rest) cs[k] rest := by simpa only [hlr, hd] using key
  rw [hj'] at key'
  exact key'.arun (by rw [List.length_append, leBytes_length]; omega) (by omega) h

/-! ## Candidates -/

theorem ne_nil_iff_mem {α : Type} {l : List α} : l ≠ [] ↔ ∃ x, x ∈ l :=
  ⟨List.exists_mem_of_ne_nil l, fun ⟨_, h⟩ => List.ne_nil_of_mem h⟩

theorem mem_pickCandidates {m mx : Id → Int} {L : Nat} {pool : List Id} {j : Id} :
    j ∈ pickCandidates m mx L pool ↔ j ∈ pool ∧ m j ≤ L ∧
      ((∃ k ∈ pool, m k ≤ L ∧ (mx k = -1 ∨ (L : Int) ≤ mx k)) → mx j = -1 ∨ (L : Int) ≤ mx j) := by
  unfold pickCandidates
  dsimp only
  have hne : ((pool.filter fun j => m j ≤ L).filter fun j => mx j = -1 ∨ (L : Int) ≤ mx j) ≠ [] ↔
      ∃ k ∈ pool, m k ≤ L ∧ (mx k = -1 ∨ (L : Int) ≤ mx k) := by
    rw [ne_nil_iff_mem]
    simp only [List.mem_filter, decide_eq_true_eq, and_assoc]
  by_cases h : ∃ k ∈ pool, m k ≤ L ∧ (mx k = -1 ∨ (L : Int) ≤ mx k)
  · rw [if_pos (hne.2 h)]
    simp only [List.mem_filter, decide_eq_true_eq, and_assoc]
    exact and_congr_right fun _ => and_congr_right fun _ => ⟨fun h _ => h, fun k => k h⟩
  · rw [if_neg (fun k => h (hne.1 k))]
    simp only [List.mem_filter, decide_eq_true_eq]
    exact and_congr_right fun _ => ⟨fun k => ⟨k, fun k => absurd k h⟩, fun k => k.1⟩

theorem mem_lotCandidates {rec4 : Bool} {m mx : Id → Int} {L : Nat} {stamps : List Id} {j : Id} :
    j ∈ lotCandidates rec4 m mx L stamps ↔ j ∈ stamps ∧ m j ≤ L ∧
      (rec4 = true → (∃ k ∈ stamps, m k ≤ L ∧ (mx k = -1 ∨ (L : Int) < m k + mx k)) → mx j = -1 ∨ (L : Int) < m j + mx j) := by
  unfold lotCandidates
  dsimp only
  have hne : ((stamps.filter fun j => m j ≤ L).filter fun j => mx j = -1 ∨ (L : Int) < m j + mx j) ≠ [] ↔
      ∃ k ∈ stamps, m k ≤ L ∧ (mx k = -1 ∨ (L : Int) < m k + mx k) := by
    rw [ne_nil_iff_mem]
    simp only [List.mem_filter, decide_eq_true_eq, and_assoc]
  by_cases h : rec4 = true ∧ ∃ k ∈ stamps, m k ≤ L ∧ (mx k = -1 ∨ (L : Int) < m k + mx k)
  · rw [if_pos ⟨h.1, hne.2 h.2⟩]
    simp only [List.mem_filter, decide_eq_true_eq, and_assoc]
    exact and_congr_right fun _ => and_congr_right fun _ => ⟨fun h _ _ => h, fun k => k h.1 h.2⟩
  · rw [if_neg (fun k => h ⟨k.1, hne.1 k.2⟩)]
    simp only [List.mem_filter, decide_eq_true_eq]
    exact and_congr_right fun _ => ⟨fun k => ⟨k, fun k1 k2 => absurd ⟨k1, k2⟩ h⟩, fun k => k.1⟩

theorem SizesAgree.eq (hz : SizesAgree G fl H fl' R) {i j : Id} (h : R i j) :
    mnv G fl i = mnv H fl' j ∧ mxv G fl i = mxv H fl' j := by
  obtain ⟨mn, mx, h1, h2, h3, h4, -⟩ := hz i j h
  rw [mnv_eq h1, mnv_eq h2, mxv_eq h3, mxv_eq h4]
  exact ⟨rfl, rfl⟩

/-- The relation between two lists of alternatives. -/
local notation "Grown" => GrownTo R (Covers G fl H fl')

theorem SizesAgree.lot (hz : SizesAgree G fl H fl' R) {cs ds : List Id} (h : Grown cs ds) :
    LotSizes G fl cs (mnv G fl) (mxv G fl) ∧ LotSizes H fl' ds (mnv H fl') (mxv H fl') := by
  refine ⟨⟨fun c hc => ?_, fun c hc => ?_⟩, ⟨fun d hd => ?_, fun d hd => ?_⟩⟩
  · obtain ⟨d, _, hr⟩ := h.1 c hc
    obtain ⟨mn, mx, h1, h2, h3, h4, h5, h6, h7⟩ := hz c d hr
    rw [mnv_eq h1]; exact ⟨h1, h5, h6⟩
  · obtain ⟨d, _, hr⟩ := h.1 c hc
    obtain ⟨mn, mx, h1, h2, h3, h4, h5, h6, h7⟩ := hz c d hr
    rw [mnv_eq h1, mxv_eq h3]; exact ⟨h3, h7⟩
  · obtain ⟨c, _, mn, mx, mn', mx', h1, h2, h3, h4, h5, h6, h7, -⟩ := h.2 d hd
    rw [mnv_eq h3]; exact ⟨h3, h5, h6⟩
  · obtain ⟨c, _, mn, mx, mn', mx', h1, h2, h3, h4, h5, h6, h7, -⟩ := h.2 d hd
    rw [mnv_eq h3, mxv_eq h4]; exact ⟨h4, h7⟩

theorem Covers.le {c d : Id} (h : Covers G fl H fl' c d) : mnv G fl c ≤ mnv H fl' d ∧
    (mxv G fl c = -1 ∨ mxv H fl' d ≠ -1 ∧ mxv H fl' d ≤ mxv G fl c ∧ mnv H fl' d + mxv H fl' d ≤ mnv G fl c + mxv G fl c) := by
  obtain ⟨mn, mx, mn', mx', h1, h2, h3, h4, -, -, -, h8, h9⟩ := h
  rw [mnv_eq h1, mxv_eq h2, mnv_eq h3, mxv_eq h4]
  exact ⟨h8, h9⟩

theorem LotSizes.pool {stamps : List Id} {m mx : Id → Int} (h : LotSizes G fl stamps m mx) : PoolSizes G fl stamps m mx where
  min := h.min
  max := fun j hj => ⟨(h.max j hj).1, (h.max j hj).2.imp_right fun k => ⟨k.1, by have := (h.min j hj).2; omega⟩⟩

theorem SizesAgree.pick (hz : SizesAgree G fl H fl' R) {cs ds : List Id} (h : Grown cs ds) {L : Nat} {c : Id}
    (hc : c ∈ pickCandidates (mnv G fl) (mxv G fl) L cs) :
    ∃ d ∈ pickCandidates (mnv H fl') (mxv H fl') L ds, R c d := by
  rw [mem_pickCandidates] at hc
  obtain ⟨d, hd, hr⟩ := h.1 c hc.1
  obtain ⟨e1, e2⟩ := hz.eq hr
  refine ⟨d, mem_pickCandidates.2 ⟨hd, by rw [← e1]; exact hc.2.1, ?_⟩, hr⟩
  rintro ⟨k, hk, hk1, hk2⟩
  obtain ⟨c', hc', hr'⟩ := h.2 k hk
  obtain ⟨f1, f2⟩ := hr'.le
  rw [← e2]
  exact hc.2.2 ⟨c', hc', by omega, by omega⟩

theorem SizesAgree.wins (hz : SizesAgree G fl H fl' R) {rec4 : Bool} {cs ds : List Id} (h : Grown cs ds) {L : Nat} {c : Id}
    (hc : c ∈ lotCandidates rec4 (mnv G fl) (mxv G fl) L cs) :
    ∃ d ∈ lotCandidates rec4 (mnv H fl') (mxv H fl') L ds, R c d := by
  rw [mem_lotCandidates] at hc
  obtain ⟨d, hd, hr⟩ := h.1 c hc.1
  obtain ⟨e1, e2⟩ := hz.eq hr
  refine ⟨d, mem_lotCandidates.2 ⟨hd, by rw [← e1]; exact hc.2.1, ?_⟩, hr⟩
  rintro hrec ⟨k, hk, hk1, hk2⟩
  obtain ⟨c', hc', hr'⟩ := h.2 k hk
  obtain ⟨f1, f2⟩ := hr'.le
  rw [← e1, ← e2]
  exact hc.2.2 hrec ⟨c', hc', by omega, by omega⟩

/-! ## Runs -/

/-- The second stamp makes the same of other bytes, as many. -/
def Mimics (H : Graph) (fl' : Flags) (j : Id) (a : ABlob) (s : Bytes) (a' : ABlob) : Prop :=
  ∃ u u' : Bytes, a = u ++ a' ∧ u'.length = u.length ∧ ∀ a'' : ABlob, List.length a'' = List.length a' →
    ARun H fl' j (u' ++ a'') (.ok s) a''

theorem vec_count {i c : Id} {join : List Bytes → Bytes} (hG : G i = some (.vec c join)) {n : Nat} {a a' : ABlob} {s : Bytes}
    {fl1 : Flags} {mn mx : Int} {parts : List ABlob} (h : extract G (n + 1) i (fl, a) = (.ok s, (fl1, a')))
    (h1 : sizeQ G n .min c fl = (.ok mn, fl)) (h2 : sizeQ G n .max c fl = (.ok mx, fl))
    (h3 : vecSplit n mn mx a = (.ok parts, a')) : parts.length ≤ INT_MAX := by
  unfold extract at h
  rw [hG] at h
  dsimp only at h
  have q1 : liftF (sizeQ G n .min c) (fl, a) = (.ok mn, (fl, a)) := by unfold liftF; dsimp only; rw [h1]
  have q2 : liftF (sizeQ G n .max c) (fl, a) = (.ok mx, (fl, a)) := by unfold liftF; dsimp only; rw [h2]
  have q3 : liftB (vecSplit n mn mx) (fl, a) = (.ok parts, (fl, a')) := by unfold liftB; dsimp only; rw [h3]
  rw [M.bind_ok q1, M.bind_ok q2, M.bind_ok q3] at h
  obtain ⟨ys, s4, h4, _⟩ := M.bind_eq_ok.1 h
  have := each_len (k := 0) (by omega) h4
  rw [List.length_map] at this
  omega

/-- The pieces of a list, one by one. -/
theorem mimic_parts {ps : List ABlob} {d : Id} {xs : List Bytes} (h : List.Forall₂ (fun p x => ∃ left, Mimics H fl' d p x left) ps xs) :
    ∃ ps', SameLen ps ps' ∧ List.Forall₂ (fun p x => PieceRun H fl' (d, p) x) ps' xs := by
  induction h with
  | nil => exact ⟨[], .nil, .nil⟩
  | cons h1 _ ih =>
    obtain ⟨left, u, u', e1, e2, e3⟩ := h1
    obtain ⟨ps', k1, k2⟩ := ih
    refine ⟨(u' ++ left) :: ps', .cons ?_ k1, .cons ⟨left, e3 left rfl⟩ k2⟩
    rw [e1, List.length_append, List.length_append, e2]

theorem haveSizes_other (hz : SizesAgree G fl H fl' R) {cs ds : List Id} (h : List.Forall₂ R cs ds) {ss : List SizePair}
    (hs : HaveSizes G fl cs ss) : HaveSizes H fl' ds ss := by
  unfold HaveSizes at hs ⊢
  induction h generalizing ss with
  | nil => cases hs; exact .nil
  | cons h _ ih =>
    cases hs with
    | cons k1 k2 =>
      obtain ⟨mn, mx, z1, z2, z3, z4, -⟩ := hz _ _ h
      obtain ⟨e1, -⟩ := z1.unique k1.1
      obtain ⟨e2, -⟩ := z3.unique k1.2
      exact .cons ⟨e1 ▸ z2, e2 ▸ z4⟩ (ih k2)

/-- The pieces, one by one. -/
theorem mimic_pieces {ps : List ABlob} {cs ds : List Id} {xs : List Bytes} (hr : List.Forall₂ R cs ds) (hl : ps.length = cs.length)
    (h : List.Forall₂ (fun (q : Id × ABlob) x => ∀ d, R q.1 d → ∃ left, Mimics H fl' d q.2 x left) (cs.zip ps) xs) :
    ∃ ps', SameLen ps ps' ∧ List.Forall₂ (PieceRun H fl') (ds.zip ps') xs := by
  induction hr generalizing ps xs with
  | nil =>
    cases h
    obtain rfl := List.length_eq_zero_iff.1 hl
    exact ⟨[], .nil, .nil⟩
  | cons hr _ ih =>
    cases ps with
    | nil => cases hl
    | cons p ps =>
      rw [List.zip_cons_cons] at h
      cases h with
      | cons h1 h2 =>
        obtain ⟨left, u, u', e1, e2, e3⟩ := h1 _ hr
        obtain ⟨ps', k1, k2⟩ := ih (by simpa using hl) h2
        refine ⟨(u' ++ left) :: ps', .cons ?_ k1, .cons ⟨left, e3 left rfl⟩ k2⟩
        dsimp only at e1
        rw [e1, List.length_append, List.length_append, e2]

theorem mimic_turn {n : Nat} {cs ds : List Id} (hr : List.Forall₂ R cs ds) {N : Nat}
    (ih : ∀ i j, R i j → ∀ (a : ABlob) s a', List.length a ≤ N → extract G n i (fl, a) = (.ok s, (fl, a')) → Mimics H fl' j a s a')
    {a a' : ABlob} (ha : List.length a ≤ N) {xs : List Bytes} (h : SeqRuns (extract G n) fl cs a xs a') :
    ∃ u u' : Bytes, a = u ++ a' ∧ u'.length = u.length ∧ ∀ a'' : ABlob, List.length a'' = List.length a' →
      ATurn H fl' ds (u' ++ a'') xs a'' := by
  induction h generalizing ds with
  | nil => cases hr; exact ⟨[], [], rfl, rfl, fun a'' _ => .nil _⟩
  | cons h1 _ ihs =>
    cases hr with
    | cons hr1 hr2 =>
      obtain ⟨u, u', e1, e2, e3⟩ := ih _ _ hr1 _ _ _ ha h1
      obtain ⟨v, v', f1, f2, f3⟩ := ihs hr2 (by rw [e1, List.length_append] at ha; omega)
      refine ⟨u ++ v, u' ++ v', by rw [e1, f1, List.append_assoc], by rw [List.length_append, List.length_append, e2, f2],
        fun a'' ha'' => ?_⟩
      rw [List.append_assoc]
      refine .cons (e3 (v' ++ a'') ?_) (f3 a'' ha'')
      rw [f1]
      show List.length (v' ++ a'') = List.length (v ++ _)
      rw [List.length_append, List.length_append, f2, ha'']

/-- **The run with other data.** -/
theorem mimic (hu : LocalUsers G) (hx : Grows G fl H fl' R) (hz : SizesAgree G fl H fl' R) (n : Nat) :
    ∀ i j, R i j → ∀ (a : ABlob) s a', List.length a < W31 - 8 → extract G n i (fl, a) = (.ok s, (fl, a')) →
      Mimics H fl' j a s a' := by
  induction n with
  | zero => intro i j _ a s a' _ h; cases h
  | succ n ih =>
    intro i j hr a s a' ha h
    obtain ⟨nd, nd', hG, hH, hn⟩ := hx i j hr
    cases hn with
    | single hs =>
      obtain ⟨u, e1, e2⟩ := single_steady hu hG hs h
      exact ⟨u, u, e1, rfl, fun a'' ha'' => ⟨n + 1, single_other hG hH hs (e2 a'' ha'' n)⟩⟩
    | vec join hc =>
      obtain ⟨mn, mx, parts, xs, -, h1, h2, h3, h4, h5⟩ := extract_vec_ok hG h
      have hcnt := vec_count hG h h1 h2 h3
      obtain ⟨mn', mx', z1, z2, z3, z4, -⟩ := hz _ _ hc
      obtain ⟨rfl, -⟩ := z1.unique (.intro h1)
      obtain ⟨rfl, -⟩ := z3.unique (.intro h2)
      obtain ⟨form, f1, f2, f3⟩ := form_vecSplit n mn' mx' a parts a' h3
      have hpl : ∀ p ∈ parts, List.length p < W31 - 8 := fun p hp => by
        have := fill_mem_le f1 p hp
        rw [f2, List.length_append] at ha
        exact lt_of_le_of_lt (le_trans this (Nat.le_add_right _ _)) ha
      obtain ⟨ps', k1, k2⟩ := mimic_parts (H := H) (fl' := fl') (forall₂_on h4 fun p hp x ⟨left, hx⟩ =>
        ⟨left, ih _ _ hc p x left (hpl p hp) hx⟩)
      refine ⟨fill form parts, fill form ps', f2, k1.fill form, fun a'' ha'' => ?_⟩
      exact (list_ok_iff hH).2 ⟨mn', mx', ps', xs, z2, z4, ⟨n, f3 ps' a'' k1 ha''⟩, k2, by rw [← k1.length_eq]; exact hcnt, h5⟩
    | @set cs ds join unb hcs =>
      obtain ⟨mns, mxs, parts, xs, -, h1, h2, h3, h4, h5⟩ := extract_set_ok hG h
      have hss := haveSizes_of h1 h2
      obtain ⟨_, _, _, _, _, _, hcnt, _⟩ := (set_ok_iff hG).1 ⟨n + 1, h⟩
      have hl : parts.length = cs.length := by rw [setSplit_length h3, hss.length_eq]
      obtain ⟨form, f1, f2, f3⟩ := form_setSplit (mns.zip mxs) a parts a' h3
      have hpl : ∀ p ∈ parts, List.length p < W31 - 8 := fun p hp => by
        have := fill_mem_le f1 p hp
        rw [f2, List.length_append] at ha
        exact lt_of_le_of_lt (le_trans this (Nat.le_add_right _ _)) ha
      obtain ⟨ps', k1, k2⟩ := mimic_pieces (H := H) (fl' := fl') hcs hl (forall₂_on h4 fun q hq x ⟨left, hx⟩ d hd =>
        ⟨left, ih _ _ hd q.2 x left (hpl q.2 (List.of_mem_zip (a := q.1) (b := q.2) hq).2) hx⟩)
      refine ⟨fill form parts, fill form ps', f2, k1.fill form, fun a'' ha'' => ?_⟩
      exact (set_ok_iff hH).2 ⟨mns.zip mxs, ps', xs, haveSizes_other hz hcs hss, f3 ps' a'' k1 ha'', k2, by
        rw [← hcs.length_eq]; exact hcnt, h5⟩
    | seq join unb hcs =>
      obtain ⟨xs, -, h1, h2⟩ := extract_seq_ok hG h
      obtain ⟨u, u', e1, e2, e3⟩ := mimic_turn (N := W31 - 9) hcs
        (fun i j hr a s a' ha h => ih i j hr a s a' (by omega) h) (by omega) h1
      exact ⟨u, u', e1, e2, fun a'' ha'' => (seq_ok_iff hH).2 ⟨xs, e3 a'' ha'', h2⟩⟩
    | unary op hc =>
      obtain ⟨x, -, h1, rfl⟩ := extract_unary_ok hG h
      obtain ⟨u, u', e1, e2, e3⟩ := ih _ _ hc a x a' ha h1
      refine ⟨u, u', e1, e2, fun a'' ha'' => ?_⟩
      obtain ⟨m, e⟩ := e3 a'' ha''
      refine ⟨m + 1, ?_⟩
      unfold extract
      rw [hH]
      dsimp only
      rw [M.bind_ok e]
      rfl
    | @lottery cs ds w rec4 smin smax hm hc hd hdl =>
      obtain ⟨l1, l2⟩ := hz.lot hm
      have hw : w = 1 ∨ w = 2 ∨ w = 4 ∨ w = 8 := by
        rw [hc]; unfold lotWidth
        split
        · omega
        · split
          · omega
          · split <;> omega
      obtain ⟨u, a1, c, e1, e2, e3, e4⟩ := lot_inv hG hw l1 (by omega) h
      obtain ⟨d, hd1, hr1⟩ := hz.wins hm e3
      have ha1 : List.length a1 < W31 - 8 := by rw [e1, List.length_append] at ha; omega
      obtain ⟨v, v', f1, f2, f3⟩ := ih c d hr1 a1 s a' ha1 e4
      obtain ⟨p, p1, p2⟩ := lot_reach hH hd hdl l2 ha1 hd1
      refine ⟨u ++ v, p ++ v', by rw [e1, f1, List.append_assoc], by rw [List.length_append, List.length_append, p1, e2, f2],
        fun a'' ha'' => ?_⟩
      rw [List.append_assoc]
      refine p2 _ _ _ ?_ (f3 a'' ha'')
      rw [f1]
      show List.length (v' ++ a'') = List.length (v ++ _)
      rw [List.length_append, List.length_append, f2, ha'']
    | @picker cs ds hm hdl =>
      obtain ⟨l1, l2⟩ := hz.lot hm
      obtain ⟨u, a1, c, e1, e2, e3, e4⟩ := pick_inv hG l1.pool h
      obtain ⟨d, hd1, hr1⟩ := hz.pick hm e3
      have ha1 : List.length a1 < W31 - 8 := by rw [e1, List.length_append] at ha; omega
      obtain ⟨v, v', f1, f2, f3⟩ := ih c d hr1 a1 s a' ha1 e4
      obtain ⟨p, p1, p2⟩ := pick_reach hH l2.pool hdl (by omega) hd1
      refine ⟨u ++ v, p ++ v', by rw [e1, f1, List.append_assoc], by rw [List.length_append, List.length_append, p1, e2, f2],
        fun a'' ha'' => ?_⟩
      rw [List.append_assoc]
      refine p2 _ _ _ ?_ (f3 a'' ha'')
      rw [f1]
      show List.length (v' ++ a'') = List.length (v ++ _)
      rw [List.length_append, List.length_append, f2, ha'']

theorem SizesAgree.covers (hz : SizesAgree G fl H fl' R) {i j : Id} (h : R i j) : Covers G fl H fl' i j := by
  obtain ⟨mn, mx, h1, h2, h3, h4, h5, h6, h7⟩ := hz i j h
  refine ⟨mn, mx, mn, mx, h1, h3, h2, h4, h5, h6, h7, le_rfl, ?_⟩
  rcases h7 with h7 | h7
  · exact .inl h7
  · exact .inr ⟨by omega, le_rfl, le_rfl⟩

theorem Shuffled.grows (hx : Shuffled G H R) (hz : SizesAgree G fl H fl' R) : Grows G fl H fl' R := by
  intro i j hij
  obtain ⟨nd, nd', h1, h2, h3⟩ := hx i j hij
  refine ⟨nd, nd', h1, h2, ?_⟩
  have key : ∀ {cs ds : List Id}, SameMembers R cs ds → Grown cs ds := fun h =>
    ⟨h.1, fun d hd => (h.2 d hd).imp fun c hc => ⟨hc.1, hz.covers hc.2⟩⟩
  cases h3 with
  | single h => exact .single h
  | vec join h => exact .vec join h
  | set join unb h => exact .set join unb h
  | seq join unb h => exact .seq join unb h
  | unary op h => exact .unary op h
  | lottery rec4 smin smax h hc hd _ hdl => exact .lottery rec4 smin smax (key h) hc hd hdl
  | picker h _ hdl => exact .picker (key h) hdl

end
end BS
