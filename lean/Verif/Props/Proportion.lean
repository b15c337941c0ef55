import Verif.Lemmas.Proportion
import Verif.Lemmas.UnbDivide
import Verif.Props.GalleyVec

/-!
# C82: data are shared out in proportion to the oracles
-/

namespace BS
open BlobLike

local notation "R" => rnd f64

/-- **C82, lists** (a weaker statement: for blobs of at most 3,000,000 bytes and stamps for which at most 32768
parts fit). What the pieces before the `k`-th make up is what their oracles ask for, less at most one byte. -/
theorem C82_list_partial {m : Nat} {b : Blob} {bs : Bytes} (hr : Reachable b) (hh : Holds b bs)
    (hmin : vecNeeds m (-1) ≤ bs.length) (hS : bs.length ≤ 3000000) (hc : (bs.length - 2) / (m + 2) ≤ 32768) :
    ∃ (parts : List Bytes) (left : Bytes) (ws : List Nat) (rest : Nat), VecReturns m (-1) b parts left ∧
      ws = weightsOf parts.length (bs.drop 2) ∧ bs.length = 2 + 2 * parts.length + m * parts.length + rest ∧
      ∀ k ≤ parts.length,
        (((parts.take k).flatten.length : ℚ) ≤ m * k + dueOf ws (ws.take k) rest + 6 * bs.length / 2 ^ 24) ∧
        m * k + dueOf ws (ws.take k) rest - 6 * bs.length / 2 ^ 24 - 1 < ((parts.take k).flatten.length : ℚ) := by
  have hmin' : m + 4 ≤ bs.length := by
    unfold vecNeeds at hmin
    rw [if_neg (by omega), if_pos rfl] at hmin
    omega
  obtain ⟨parts, left, e, c1, c6, c2, c3, c4, c5, os, o1, o2, o3, o4, o5⟩ := vecUnbounded_full bs hS hmin' hc
  have hmul : m * parts.length + (2 + 2 * parts.length) ≤ bs.length := by
    have h1 : parts.length * m ≤ parts.flatten.length := by
      rw [List.length_flatten]
      have := List.card_nsmul_le_sum (parts.map List.length) m (by simpa using c5)
      simpa using this
    have h2 := congrArg List.length c2
    rw [List.length_append, List.length_drop] at h2
    rw [Nat.mul_comm]; omega
  refine ⟨parts, left, os, bs.length - (2 + 2 * parts.length) - m * parts.length,
    VecReturns.intro hr.valid hh (n := 0) ?_, o4, by omega, fun k hk => ?_⟩
  · rw [vecSplit_enough (by omega) (by omega) (by omega), if_neg (by omega), if_pos rfl]; exact e
  have hos : ∀ o ∈ os, o ≤ os.sum := fun o h => List.le_sum_of_mem h
  have hsum : os.sum ≤ INT_MAX := by
    have h1 := List.sum_le_card_nsmul os 65535 o3
    have h2 : parts.length ≤ 32768 := by
      refine le_trans ?_ hc
      rw [Nat.le_div_iff_mul_le (by omega)]
      rw [Nat.mul_comm, Nat.add_mul]
      omega
    simp only [nsmul_eq_mul, Nat.cast_id] at h1
    omega
  obtain ⟨b1, b2⟩ := unbSizes_sum (m := m) (var := bs.length - (2 + 2 * parts.length) - m * parts.length)
    o2 hsum (by omega) (by omega) (os.take k) (fun o h => hos o (List.mem_of_mem_take h)) 0 (le_refl _) (by norm_num)
  rw [← unbSizes_take, ← o5] at b1 b2
  have hlen : (parts.take k).flatten.length = ((parts.map List.length).take k).sum := by
    rw [List.length_flatten, List.map_take]
  have hkl : (os.take k).length = k := by rw [List.length_take]; omega
  rw [hlen]
  rw [hkl] at b1 b2
  have hT0 : (0 : ℚ) < os.sum := by exact_mod_cast o2
  have htk : ((os.take k).sum : ℚ) / os.sum ≤ 1 := by
    rw [div_le_one hT0]
    exact_mod_cast (List.take_sublist k os).sum_le_sum (by simp)
  have htk0 : 0 ≤ ((os.take k).sum : ℚ) / os.sum := by positivity
  set V := bs.length - (2 + 2 * parts.length) - m * parts.length with hV
  have hVq : (m : ℚ) * parts.length + 2 * parts.length + V ≤ bs.length := by
    exact_mod_cast (by omega : m * parts.length + 2 * parts.length + V ≤ bs.length)
  have hkq : (k : ℚ) ≤ parts.length := by exact_mod_cast hk
  have hV0 : (0 : ℚ) ≤ V := by positivity
  have hm0 : (0 : ℚ) ≤ m := by positivity
  have hk0 : (0 : ℚ) ≤ k := by positivity
  have hmk : (m : ℚ) * k ≤ m * parts.length := by nlinarith
  have hd : dueOf os (os.take k) V = ((os.take k).sum : ℚ) / os.sum * V := by
    unfold dueOf; ring
  have hd1 : ((os.take k).sum : ℚ) / os.sum * V ≤ V := by nlinarith
  have hd0 : 0 ≤ ((os.take k).sum : ℚ) / os.sum * V := by positivity
  rw [hd]
  generalize ((os.take k).sum : ℚ) / os.sum * V = d at *
  have herr : (d * (52 / 10) + (k : ℚ) * (m * (21 / 10) + 12 / 10)) / 2 ^ 24 ≤ 6 * bs.length / 2 ^ 24 := by
    apply div_le_div_of_nonneg_right _ (by norm_num)
    nlinarith
  constructor <;> linarith

/-- **C82, lists**, piece by piece: a piece differs from what its oracle asks for by little more than one byte. -/
theorem C82_list_piece_partial {m : Nat} {b : Blob} {bs : Bytes} (hr : Reachable b) (hh : Holds b bs)
    (hmin : vecNeeds m (-1) ≤ bs.length) (hS : bs.length ≤ 3000000) (hc : (bs.length - 2) / (m + 2) ≤ 32768) :
    ∃ (parts : List Bytes) (left : Bytes) (ws : List Nat) (rest : Nat), VecReturns m (-1) b parts left ∧
      ws = weightsOf parts.length (bs.drop 2) ∧ bs.length = 2 + 2 * parts.length + m * parts.length + rest ∧
      ∀ (i : Nat) (p : Bytes) (w : Nat), parts[i]? = some p → ws[i]? = some w →
        |(p.length : ℚ) - (m + dueOf ws [w] rest)| < 1 + 12 * bs.length / 2 ^ 24 := by
  obtain ⟨parts, left, ws, rest, h1, h2, h3, h4⟩ := C82_list_partial hr hh hmin hS hc
  refine ⟨parts, left, ws, rest, h1, h2, h3, fun i p w hp hw => ?_⟩
  have hi : i < parts.length := (List.getElem?_eq_some_iff.1 hp).1
  obtain ⟨a1, a2⟩ := h4 i (by omega)
  obtain ⟨b1, b2⟩ := h4 (i + 1) (by omega)
  rw [show parts.take (i + 1) = parts.take i ++ [p] by rw [List.take_add_one, hp]; rfl] at b1 b2
  have ew : dueOf ws (ws.take (i + 1)) rest = dueOf ws (ws.take i) rest + dueOf ws [w] rest := by
    unfold dueOf
    rw [List.take_add_one, hw, List.sum_append, Nat.cast_add]
    simp only [Option.toList_some, List.sum_singleton]
    ring
  have el : (((parts.take i ++ [p]).flatten.length : Nat) : ℚ)
      = ((parts.take i).flatten.length : ℚ) + p.length := by
    simp
  rw [el, ew] at b1 b2
  push_cast at a1 a2 b1 b2
  rw [abs_lt]
  constructor <;> linarith

/-- Of fourteen bytes, six are oracles and the two pieces have two each; the other four are shared three to
one. -/
example : vecSplit 0 2 (-1) ([128, 150, 3, 0, 1, 0, 10, 11, 12, 13, 14, 15, 16, 17] : ABlob)
      = (.ok [[10, 11, 12, 13, 14], [15, 16, 17]], []) ∧
    weightsOf 2 [3, 0, 1, 0, 10, 11, 12, 13, 14, 15, 16, 17] = [3, 1] ∧
    14 = 2 + 2 * 2 + 2 * 2 + 4 ∧ dueOf [3, 1] [3] 4 = 3 := by
  refine ⟨by decide +kernel, by decide, by decide, ?_⟩
  norm_num [dueOf]

/-- **C82, sets** (a weaker statement: for sets of at most 2^20 stamps whose sizes add up to `int`s, and `stamps * (Size + 1) ≤ 2^49`).
Whenever the set galley returns, the bytes beyond what it needs are divided into `V` and `U`. The variated
stamps get `V`, which is what their oracles ask for, limited by the part that the first oracle
leaves them; the unbounded stamps get `U`, all the rest. Every beginning of the stamps of either kind
gets the part that its oracles ask for. All this up to less than a byte. -/
theorem C82_set_partial {ss : List SizePair} {b : Blob} {bs : Bytes} (hr : Reachable b) (hh : Holds b bs)
    (hz : SetSizes ss) (hS : bs.length ≤ 2147483646) (hn : ss.length * (bs.length + 1) ≤ 2 ^ 49)
    (hc : ss.length ≤ 2 ^ 20) {parts : List Bytes} {left : Bytes} (h : SetReturns ss b parts left) :
    ∃ V U : Nat, (V : Int) + U = bs.length - setNeeds ss ∧
      |(V : ℚ) - min (varAsk ss bs) (varLimit ss bs (V + U))| < 1 ∧
      ∀ k, |(extraOf IsVariated (ss.take k) (parts.take k) : ℚ) - dueOf (varWeights ss bs) ((varWeights ss bs).take k) V| < 1 ∧
        |(extraOf (fun s => s.2 = -1) (ss.take k) (parts.take k) : ℚ)
          - dueOf (unbWeights ss bs) ((unbWeights ss bs).take k) U| < 1 := by
  obtain ⟨hmin, hp, -⟩ := setReturns_facts hr hh hz hS hn h
  have h' := h.inv hr.valid hh
  have hok := hz.ok
  have hne := setNeed_eq hok
  have m0 := minSum_nonneg hok
  have hl : 2 * oracleCount ss ≤ bs.length := by omega
  have hd : dSum ss ≤ INT_MAX := by rw [← slack_sum hok]; exact hz.widths
  have d0 := dSum_nonneg hok
  have hfst : (finRows (setRows ss bs)).map Prod.fst = ss := by
    rw [finRows_fst]; exact rowsOf_fst _ _ _
  have hrl : ∀ x ∈ finRows (setRows ss bs), x.1.Ok ∧ x.2 ≤ 65535 := by
    intro x hx
    refine ⟨hok _ ?_, finRows_le (rowsOf_le _ _ _) x hx⟩
    have := List.mem_map_of_mem (f := Prod.fst) hx
    rwa [hfst] at this
  have hv := set_hv hz hp hl
  obtain ⟨els, fv, hrun, hthrow, hpo, hfd, hfn, hsum, lim, hlim, hfv, hels⟩ := setSplit_deep hok hd bs hmin hS hn hv
  have hnn : ∀ e ∈ els, 0 ≤ e := fun e he => by
    by_contra hc
    obtain ⟨l', hl'⟩ := hthrow ⟨e, he, by omega⟩
    rw [hl'] at h'; cases h'
  have hrun := hrun hnn
  rw [h'] at hrun
  have hparts : parts = cutSizes (els.map Int.toNat) (bs.drop (2 * oracleCount ss)) := by
    have := (Prod.mk.inj hrun).1
    injection this
  have hsn := toNat_sum hnn
  have hle : (els.map Int.toNat).sum ≤ (bs.drop (2 * oracleCount ss)).length := by
    rw [List.length_drop]
    have : els.sum ≤ (bs.length : Int) - 2 * oracleCount ss := by
      rw [hsum]; split <;> omega
    omega
  have hcl := cutSizes_length (els.map Int.toNat) (bs.drop (2 * oracleCount ss)) hle
  rw [← hparts] at hcl
  have hpe : List.Forall₂ (fun (p : Bytes) (e : Int) => (p.length : Int) = e) parts els := by
    rw [List.forall₂_iff_get]
    have hlen : parts.length = els.length := by
      have := congrArg List.length hcl
      simpa using this
    refine ⟨hlen, fun i h1 h2 => ?_⟩
    have h3 : (parts.map List.length)[i]? = (els.map Int.toNat)[i]? := by rw [hcl]
    rw [List.getElem?_map, List.getElem?_map, List.getElem?_eq_getElem h1, List.getElem?_eq_getElem h2] at h3
    simp only [Option.map_some, Option.some.injEq] at h3
    simp only [List.get_eq_getElem]
    have := hnn _ (List.getElem_mem h2)
    omega
  rw [setNeeds_eq]
  obtain ⟨U, hU⟩ : ∃ U : Nat, U = ((bs.length : Int) - setNeed ss - fv).toNat := ⟨_, rfl⟩
  rw [← hU] at hels
  have hvW := varO_close (fun x hx => (hrl x hx).1)
  have huW := unbO_close (finRows (setRows ss bs))
  have evw := varWeights_eq hok hl
  have euw := unbWeights_eq hok hl
  have hcv : ss.countP SizePair.var ≤ ss.length := List.countP_le_length
  have hcu : ss.countP SizePair.unb ≤ ss.length := List.countP_le_length
  have hlv := varW_length (finRows (setRows ss bs))
  have hlu := unbW_length (finRows (setRows ss bs))
  rw [hfst] at hlv hlu
  have hP : 0 < ss.countP SizePair.var → 1 / 2 ^ 16 ≤ sumW (varW (finRows (setRows ss bs))) 0 := by
    intro h
    obtain ⟨x, hx, hxv, h1⟩ := hv h
    exact ((varWeight_bounds (hrl x hx).1 hxv (hrl x hx).2).2.2.2.1 h1).trans
      (le_sumW _ (varW_ok hrl) 0 (le_refl _) _ (varWeight_mem hx hxv))
  have hU' : 0 < ss.countP SizePair.unb → 1 / 2 ^ 16 ≤ sumW (unbW (finRows (setRows ss bs))) 0 := by
    intro h
    obtain ⟨s, hs, hu⟩ := List.countP_pos_iff.1 h
    have hfst0 : (setRows ss bs).map Prod.fst = ss := rowsOf_fst _ _ _
    rw [← hfst0] at hs
    obtain ⟨x, hx, rfl⟩ := List.mem_map.1 hs
    exact finRows_unb hx hu
  have hP2 : sumW (varW (finRows (setRows ss bs))) 0 ≤ 2147483647 := by
    have h1 := sumW_varW_le hrl (p := 0) (A := 0) (le_refl _) (by norm_num) (by rw [hfst]; omega)
    rw [hfst, zero_add] at h1
    have h2 : ((dSum ss : Int) : ℚ) ≤ 2147483647 := by exact_mod_cast hd
    linarith
  have hU2 : sumW (unbW (finRows (setRows ss bs))) 0 ≤ 2147483647 := by
    have h1 := sumW_unbW_le (fun x hx => (hrl x hx).2) (p := 0) (A := 0) (by norm_num) (by rw [hfst]; omega)
    rw [hfst, zero_add] at h1
    have h2 : ((ss.countP SizePair.unb : Nat) : ℚ) ≤ 2147483647 := by exact_mod_cast (by omega : ss.countP SizePair.unb ≤ 2147483647)
    linarith
  have hbig : ∀ {n F : Nat}, n ≤ ss.length → F ≤ bs.length → n * (F + 1) ≤ 2 ^ 49 := fun h1 h2 =>
    le_trans (Nat.mul_le_mul h1 (Nat.succ_le_succ h2)) hn
  refine ⟨fv, U, by omega, ?_, fun k => ⟨?_, ?_⟩⟩
  · have hfl : (fv : Int) ≤ lim := by
      rw [hfv]
      split
      · next hlt =>
        have e := abs_le.1 (roundHA_err (sumW (varW (finRows (setRows ss bs))) 0))
        have h2 : (roundHA (sumW (varW (finRows (setRows ss bs))) 0) : ℚ) < ((lim + 1 : Int) : ℚ) := by
          push_cast; linarith
        have : roundHA (sumW (varW (finRows (setRows ss bs))) 0) < lim + 1 := by exact_mod_cast h2
        omega
      · exact le_refl _
    have := final_close (P := varAsk ss bs) (L := varLimit ss bs (fv + U)) (fv := (fv : Int)) rfl ?_ ?_ hfv hfl
    · exact_mod_cast this
    · -- the weights
      have e1 := sumW_err _ (fun w hw => (varW_ok hrl w hw).1) 0 (le_refl _)
      rw [zero_add] at e1
      have e2 := sum_close hvW
      rw [varO_sum, ← evw] at e2
      unfold varAsk
      have hq : ((varW (finRows (setRows ss bs))).length : ℚ) ≤ 2 ^ 20 := by
        rw [hlv]; exact_mod_cast hcv.trans hc
      have h0 : 0 ≤ sumW (varW (finRows (setRows ss bs))) 0 :=
        sumW_ge _ (fun w hw => (varW_ok hrl w hw).1) 0 (Rep.zero f64)
      generalize sumW (varW (finRows (setRows ss bs))) 0 = W at *
      have e3 : ((varW (finRows (setRows ss bs))).length : ℚ) * (W * (101 / 100) / 2 ^ 53 + 1 / 2 ^ 199)
          ≤ 2 ^ 20 * (W * (101 / 100) / 2 ^ 53 + 1 / 2 ^ 199) := by
        apply mul_le_mul_of_nonneg_right hq
        positivity
      generalize ((varW (finRows (setRows ss bs))).length : ℚ) * (W * (101 / 100) / 2 ^ 53 + 1 / 2 ^ 199) = E at *
      generalize (varW (finRows (setRows ss bs))).sum = S at *
      generalize ((varWeights ss bs).sum : ℚ) / 65535 = σ at *
      obtain ⟨a1, a2⟩ := abs_le.1 e1
      obtain ⟨b1, b2⟩ := abs_le.1 e2
      rw [abs_le]
      norm_num at a1 a2 b1 b2 e3 ⊢
      constructor <;> linarith
    · -- the limit
      have hav : ((fv + U : Nat) : Int) = bs.length - setNeed ss := by omega
      have hb : ((∃ s ∈ ss, IsVariated s) ∧ (∃ s ∈ ss, s.2 = -1)) ↔
          (0 < ss.countP SizePair.var ∧ 0 < ss.countP SizePair.unb) := by
        rw [List.countP_pos_iff, List.countP_pos_iff]
        simp only [isVariated_iff, SizePair.unb_iff]
      unfold varLimit
      rw [slack_sum hok]
      rw [← hav] at hlim
      by_cases hbb : 0 < ss.countP SizePair.var ∧ 0 < ss.countP SizePair.unb
      · rw [if_pos hbb] at hlim
        rw [if_pos (hb.2 hbb), lePairs_one (by
          have : divides ss = 1 := if_pos hbb
          have : oracleCount ss = divides ss + _ := rfl
          omega)]
        have hm := modQ_err (leNat (bs.take 2))
        have hle := leNat_two bs
        have hleq : ((leNat (bs.take 2) : Nat) : ℚ) ≤ 65535 := by exact_mod_cast hle
        have hA : ((fv + U : Nat) : ℚ) ≤ 2147483647 := by exact_mod_cast (by omega : fv + U ≤ 2147483647)
        have hA0 : (0 : ℚ) ≤ ((fv + U : Nat) : ℚ) := by positivity
        have m0 := modQ_nonneg (leNat (bs.take 2))
        have m1 := modQ_le hle
        have hcast : (((fv + U : Nat) : Int) : ℚ) = ((fv + U : Nat) : ℚ) := by push_cast; rfl
        rw [hcast] at hlim
        have e1 := rnd64_err (modQ (leNat (bs.take 2)) * ((fv + U : Nat) : ℚ))
        rw [abs_of_nonneg (mul_nonneg m0 hA0)] at e1
        have e2 := roundHA_err (R (modQ (leNat (bs.take 2)) * ((fv + U : Nat) : ℚ)))
        have e3 : |modQ (leNat (bs.take 2)) * ((fv + U : Nat) : ℚ) - ((fv + U : Nat) : ℚ) * leNat (bs.take 2) / 65535|
            ≤ 2147483647 / 2 ^ 52 := by
          have : modQ (leNat (bs.take 2)) * ((fv + U : Nat) : ℚ) - ((fv + U : Nat) : ℚ) * leNat (bs.take 2) / 65535
              = ((fv + U : Nat) : ℚ) * (modQ (leNat (bs.take 2)) - leNat (bs.take 2) / 65535) := by ring
          rw [this, abs_mul, abs_of_nonneg hA0]
          have h2 : |modQ (leNat (bs.take 2)) - leNat (bs.take 2) / 65535| ≤ 1 / 2 ^ 52 := by
            refine hm.trans ?_
            apply div_le_div_of_nonneg_right _ (by norm_num)
            rw [div_le_one (by norm_num)]; exact hleq
          calc ((fv + U : Nat) : ℚ) * |modQ (leNat (bs.take 2)) - leNat (bs.take 2) / 65535|
              ≤ 2147483647 * (1 / 2 ^ 52) := mul_le_mul hA h2 (abs_nonneg _) (by norm_num)
            _ = _ := by ring
        have e4 : modQ (leNat (bs.take 2)) * ((fv + U : Nat) : ℚ) ≤ 2147483647 := by nlinarith
        have hlq : (lim : ℚ) = min ((roundHA (R (modQ (leNat (bs.take 2)) * ((fv + U : Nat) : ℚ))) : Int) : ℚ)
            (min ((fv + U : Nat) : ℚ) ((dSum ss : Int) : ℚ)) := by
          rw [hlim]; push_cast; rfl
        rw [hlq]
        generalize modQ (leNat (bs.take 2)) * ((fv + U : Nat) : ℚ) = q at *
        generalize ((fv + U : Nat) : ℚ) * leNat (bs.take 2) / 65535 = p at *
        generalize ((roundHA (R q) : Int) : ℚ) = r at *
        rw [min_comm r]
        obtain ⟨a1, a2⟩ := abs_le.1 e1
        obtain ⟨b1, b2⟩ := abs_le.1 e2
        obtain ⟨c1, c2⟩ := abs_le.1 e3
        refine min_close (abs_le.2 ?_)
        norm_num at a1 a2 b1 b2 c1 c2 ⊢
        constructor <;> linarith
      · rw [if_neg hbb] at hlim
        rw [if_neg (fun h => hbb (hb.1 h))]
        have hlq : (lim : ℚ) = min ((fv + U : Nat) : ℚ) ((dSum ss : Int) : ℚ) := by
          rw [hlim]; push_cast; rfl
        rw [hlq, min_eq_left (min_le_left _ _), sub_self, abs_zero]
        norm_num
  · -- variated stamps
    have hx := extraOf_eq (kind := IsVariated) (l := (finRows (setRows ss bs)).take k) (List.forall₂_take k hpe)
    rw [List.map_take, hfst] at hx
    rw [hx, hels, setEls_take, setEls_var (fun x hx => (hrl x (List.mem_of_mem_take hx)).1)]
    have hdue : dueOf (varWeights ss bs) ((varWeights ss bs).take k) fv
        = dueOf (varO ((finRows (setRows ss bs)).take k) ++ varO ((finRows (setRows ss bs)).drop k))
          (varO ((finRows (setRows ss bs)).take k)) fv := by
      unfold dueOf
      rw [← varO_append, List.take_append_drop, varO_sum, varO_sum, evw, List.map_take]
    rw [hdue]
    have happ := varW_append ((finRows (setRows ss bs)).take k) ((finRows (setRows ss bs)).drop k)
    rw [List.take_append_drop] at happ
    have c1 := varO_close (l := (finRows (setRows ss bs)).take k) (fun x hx => (hrl x (List.mem_of_mem_take hx)).1)
    have c2 := varO_close (l := (finRows (setRows ss bs)).drop k) (fun x hx => (hrl x (List.mem_of_mem_drop hx)).1)
    have hwv := varW_ok hrl
    by_cases h0 : 0 < ss.countP SizePair.var
    · rw [if_pos h0]
      have := hP h0
      rw [happ] at this hP2 hlv hwv ⊢
      exact streamEls_due c1 c2 (by intro e; rw [e] at hlv; simp at hlv; omega) (fun w hw => (hwv w hw).1)
        (le_trans (by norm_num) this) (hP2.trans (by norm_num)) (by omega) (hbig (by omega) (by omega))
    · rw [happ] at hlv
      have hnil := List.length_eq_zero_iff.1 (hlv.trans (by omega : ss.countP SizePair.var = 0))
      rw [List.append_eq_nil_iff] at hnil
      rw [hnil.1] at c1 ⊢
      rw [List.forall₂_nil_left_iff.1 c1]
      simp [streamEls, dueOf]
  · -- unbounded stamps
    have hx := extraOf_eq (kind := fun s => s.2 = -1) (l := (finRows (setRows ss bs)).take k) (List.forall₂_take k hpe)
    rw [List.map_take, hfst] at hx
    rw [hx, hels, setEls_take, setEls_unb (fun x hx => (hrl x (List.mem_of_mem_take hx)).1)]
    have hdue : dueOf (unbWeights ss bs) ((unbWeights ss bs).take k) U
        = dueOf (unbO ((finRows (setRows ss bs)).take k) ++ unbO ((finRows (setRows ss bs)).drop k))
          (unbO ((finRows (setRows ss bs)).take k)) U := by
      unfold dueOf
      rw [← unbO_append, List.take_append_drop, unbO_sum, unbO_sum, euw, List.map_take]
    rw [hdue]
    have happ := unbW_append ((finRows (setRows ss bs)).take k) ((finRows (setRows ss bs)).drop k)
    rw [List.take_append_drop] at happ
    have c1 := unbO_close ((finRows (setRows ss bs)).take k)
    have c2 := unbO_close ((finRows (setRows ss bs)).drop k)
    have hwv := unbW_ok (finRows (setRows ss bs))
    by_cases h0 : 0 < ss.countP SizePair.unb
    · rw [if_pos h0]
      have := hU' h0
      rw [happ] at this hU2 hlu hwv ⊢
      exact streamEls_due c1 c2 (by intro e; rw [e] at hlu; simp at hlu; omega) (fun w hw => (hwv w hw).1)
        (le_trans (by norm_num) this) (hU2.trans (by norm_num)) (by omega) (hbig (by omega) (by omega))
    · rw [happ] at hlu
      have hnil := List.length_eq_zero_iff.1 (hlu.trans (by omega : ss.countP SizePair.unb = 0))
      rw [List.append_eq_nil_iff] at hnil
      rw [hnil.1] at c1 ⊢
      rw [List.forall₂_nil_left_iff.1 c1]
      simp [streamEls, dueOf]

/-- Of thirty bytes, eight are oracles and one is a minimum. Half of the other 21 is for the variated
stamp, which takes ten, and the eleven left are shared one to three. -/
example : (setSplit [(0, 10), (1, -1), (0, -1)] ([0, 128, 255, 255, 1, 0, 3, 0, 1, 2, 3, 4, 5, 6, 7, 8, 9, 10, 11, 12,
        13, 14, 15, 16, 17, 18, 19, 20, 21, 22] : ABlob)).1
      = .ok [[1, 2, 3, 4, 5, 6, 7, 8, 9, 10], [11, 12, 13, 14], [15, 16, 17, 18, 19, 20, 21, 22]] ∧
    varWeights [(0, 10), (1, -1), (0, -1)] [0, 128, 255, 255, 1, 0, 3, 0] = [655350, 0, 0] ∧
    unbWeights [(0, 10), (1, -1), (0, -1)] [0, 128, 255, 255, 1, 0, 3, 0] = [0, 1, 3] ∧
    setNeeds [(0, 10), (1, -1), (0, -1)] = 9 ∧ varAsk [(0, 10), (1, -1), (0, -1)] [0, 128, 255, 255, 1, 0, 3, 0] = 10 ∧
    dueOf [0, 1, 3] [0, 1] 11 = 11 / 4 := by
  have hw : varWeights [(0, 10), (1, -1), (0, -1)] [0, 128, 255, 255, 1, 0, 3, 0] = [655350, 0, 0] := by
    decide +kernel
  refine ⟨by decide +kernel, hw, by decide +kernel, by decide +kernel, ?_, ?_⟩
  · unfold varAsk; rw [hw]; norm_num
  · norm_num [dueOf]

/-- **C82 is violated** where nothing is asked for: when all variated stamps read the oracle 0 they could get their
minima, and the unbounded stamps the rest; but the galley divides zero by zero and returns nothing. -/
theorem C82_violated_zero {b : Blob} (hr : Reachable b) (hh : Holds b [0, 0, 1, 2]) :
    varAsk [(1, 4)] [0, 0, 1, 2] = 0 ∧ setNeeds [(1, 4)] = 3 ∧
      ∀ parts left, ¬ SetReturns [(1, 4)] b parts left := by
  have hw : varWeights [(1, 4)] [0, 0, 1, 2] = [0] := by decide +kernel
  refine ⟨by unfold varAsk; rw [hw]; norm_num, by decide +kernel, fun parts left => ?_⟩
  refine C21_violated_all_zero hr hh ⟨by decide, by decide, by decide⟩ (by decide) (by decide) ?_ parts left
  intro h
  obtain ⟨s, o, h1, h2, h3⟩ := h ⟨(1, 4), by decide, by decide⟩
  have e : [((1, 4) : SizePair)].zip (setOracles [(1, 4)] [0, 0, 1, 2]) = [((1, 4), some 0)] := by decide +kernel
  rw [e] at h1
  simp at h1
  exact h3 h1.2

/-- **C82 is violated** where the parts are counted in 16 bits (`C19_violated_count`): one piece would hold
everything, none is returned. -/
theorem C82_violated_count {b : Blob} {rest : Bytes} (hr : Reachable b)
    (hh : Holds b (255 :: 255 :: rest)) (hl : rest.length = 196605) : VecReturns 1 (-1) b [] rest :=
  (C19_violated_count hr hh hl).2

end BS
