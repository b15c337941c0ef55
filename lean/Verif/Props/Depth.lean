import Verif.Spec.Depth
import Verif.Lemmas.Depth
import Verif.Props.JsonLang
import Verif.Props.Safety

/-!
# C73: how deep the calls go
-/

namespace BS
open BlobLike

theorem within_of {G : Graph} {fl : Flags} {i : Id} {bs : Bytes} {n : Nat}
    (h : (extract G n i (fl, (bs : ABlob))).1 ≠ .fuel) : Within G fl i bs n := by
  intro b hr hh
  rw [holds_iff hr.valid] at hh
  subst hh
  rw [(extract_refines G n i fl hr.valid).1]
  exact h

theorem of_within {G : Graph} {fl : Flags} {i : Id} {bs : Bytes} {n : Nat} (hl : bs.length < 9223372036854775808)
    (h : Within G fl i bs n) : (extract G n i (fl, (bs : ABlob))).1 ≠ .fuel := by
  obtain ⟨b, hr, hh⟩ := exists_blob hl
  have := h b hr hh
  rw [(extract_refines G n i fl hr.valid).1] at this
  rw [holds_iff hr.valid] at hh
  rw [hh] at this
  exact this

/-- A rank that goes down from a stamp to those it is built on. -/
theorem Guarded.rank {G : Graph} (h : Guarded G) :
    ∃ (r : Id → Nat) (R : Nat), (∀ i j, PlainEdge G i j → r j < r i) ∧ ∀ i, r i ≤ R := by
  classical
  obtain ⟨B, hB⟩ := h.finite
  have hlt : ∀ i j, PlainEdge G i j → i < B := by
    rintro i j ⟨nd, hnd, _⟩
    by_contra hc
    rw [hB i (Nat.le_of_not_lt hc)] at hnd
    cases hnd
  let below : Id → Finset Nat := fun i => (Finset.range B).filter fun j => Relation.TransGen (PlainEdge G) i j
  have hcard : ∀ i, (below i).card ≤ B := fun i => by
    have := Finset.card_filter_le (Finset.range B) fun j => Relation.TransGen (PlainEdge G) i j
    rw [Finset.card_range] at this
    exact this
  refine ⟨fun i => if (i : Nat) < B then (below i).card + 1 else 0, B + 1, fun i j hij => ?_, fun i => ?_⟩
  · have hi := hlt i j hij
    dsimp only
    rw [if_pos hi]
    split
    · next hj =>
      have : below j ⊂ below i := by
        rw [Finset.ssubset_iff_of_subset]
        · exact ⟨j, Finset.mem_filter.2 ⟨Finset.mem_range.2 hj, .single hij⟩,
            fun hc => h.acyclic j (Finset.mem_filter.1 hc).2⟩
        · intro k hk
          obtain ⟨h1, h2⟩ := Finset.mem_filter.1 hk
          exact Finset.mem_filter.2 ⟨h1, .head hij h2⟩
      have := Finset.card_lt_card this
      omega
    · omega
  · dsimp only
    have := hcard i
    split <;> omega

/-- Some number of levels is enough for all size queries. -/
theorem Guarded.queries {G : Graph} (h : Guarded G) (fl : Flags) : ∃ Q, QueriesBy G fl Q := by
  obtain ⟨B, hB⟩ := h.finite
  have key : ∀ C : Nat, ∃ Q, 1 ≤ Q ∧ ∀ n ≥ Q, ∀ sel, ∀ i : Nat, i < C → (sizeQ G n sel i fl).1 ≠ .fuel := by
    intro C
    induction C with
    | zero => exact ⟨1, le_rfl, fun _ _ _ _ h => absurd h (by omega)⟩
    | succ C ih =>
      obtain ⟨Q, hQ1, hQ⟩ := ih
      obtain ⟨N1, h1⟩ := h.ends fl C .min
      obtain ⟨N2, h2⟩ := h.ends fl C .max
      refine ⟨max Q (max N1 N2), by omega, fun n hn sel i hi => ?_⟩
      rcases Nat.lt_succ_iff_lt_or_eq.1 hi with hi | rfl
      · exact hQ n (by omega) sel i hi
      · cases sel
        · exact h1 n (by omega)
        · exact h2 n (by omega)
  obtain ⟨Q, hQ1, hQ⟩ := key B
  refine ⟨Q, fun sel i => ?_⟩
  by_cases hi : (i : Nat) < B
  · exact hQ Q le_rfl sel i hi
  · obtain ⟨q, rfl⟩ : ∃ q, Q = q + 1 := ⟨Q - 1, by omega⟩
    unfold sizeQ
    rw [hB i (Nat.le_of_not_lt hi)]
    rintro ⟨⟩

/-- **C73.** For every grammar whose extractions end there is a constant such that the calls never go deeper than
that constant times the size of the blob. -/
theorem C73_linear {G : Graph} {fl : Flags} (h : Ending G fl) :
    ∃ K, ∀ i bs n, K * (bs.length + 1) ≤ n → Within G fl i bs n := by
  obtain ⟨Q, hQ⟩ := h.guarded.queries fl
  obtain ⟨r, R, hr, hR⟩ := h.guarded.rank
  refine ⟨Q + R + 2, fun i bs n hn => within_of ?_⟩
  obtain ⟨o, s', ho, hN, _⟩ := by_extract h hQ hr hR bs.length i (bs : ABlob) le_rfl
  have hRi := hR i
  have hN := hN n ?_
  · dsimp only at hN
    rw [hN]; exact ho
  · have e : (Q + R + 2) * (bs.length + 1) = Q * bs.length + (R + 2) * bs.length + (Q + R + 2) := by ring
    have := Nat.zero_le (Q * bs.length)
    show Q + (R + 2) * bs.length + r i + 2 ≤ n
    omega

/-- How many constructors lead from each object of a `StampJSON` down to the next leaf or picker. -/
def jsonRank : Id → Nat
  | 4 => 1
  | 5 => 2
  | 6 => 1
  | _ => 0

theorem json_queries : QueriesBy jsonGraph Flags.init 9 := by
  intro sel i
  rcases i with _ | _ | _ | _ | _ | _ | _ | _ | i
  all_goals try (cases sel <;> decide +kernel)
  unfold sizeQ
  rw [show jsonGraph (i + 1 + 1 + 1 + 1 + 1 + 1 + 1 + 1) = none from rfl]
  rintro ⟨⟩

/-- **C73**, `StampJSON`: at most four levels for each byte, and thirteen. -/
theorem C73_json (bs : Bytes) {n : Nat} (hn : 4 * bs.length + 13 ≤ n) : Within jsonGraph Flags.init 0 bs n := by
  refine within_of ?_
  have hr : ∀ i j, PlainEdge jsonGraph i j → jsonRank j < jsonRank i := by
    rintro i j ⟨nd, h, hj⟩
    rcases i with _ | _ | _ | _ | _ | _ | _ | _ | i <;> cases h <;>
      simp only [Node.plainKids, Node.enumerator, Node.hashEl, List.mem_cons, List.not_mem_nil, or_false] at hj
    · subst hj; decide
    · subst hj; decide
    · rcases hj with rfl | rfl <;> decide
  have hR : ∀ i, jsonRank i ≤ 2 := by
    intro i
    unfold jsonRank
    split <;> omega
  obtain ⟨o, s', ho, hN, _⟩ := by_extract jsonGraph_ending json_queries hr hR bs.length 0 (bs : ABlob) le_rfl
  have hN := hN n (by show 9 + (2 + 2) * bs.length + 0 + 2 ≤ n; omega)
  dsimp only at hN
  rw [hN]; exact ho

/-! ## The depth is reached -/

/-- A galley over unbounded stamps makes one piece of a blob that begins with zeros. -/
theorem vecUnbounded_one {m : Nat} {a : ABlob} (ha : a.length ≤ 16777216) (hmin : m + 4 ≤ a.length)
    (h0 : a.take 4 = [0, 0, 0, 0]) : vecUnbounded (m : Int) a = (.ok [a.drop 4], []) := by
  obtain ⟨rest, rfl⟩ : ∃ rest : Bytes, a = [0, 0, 0, 0] ++ rest := ⟨a.drop 4, by rw [← h0]; exact (List.take_append_drop 4 a).symm⟩
  have hrl : ([0, 0, 0, 0] ++ rest : ABlob).length = rest.length + 4 := by simp
  rw [hrl] at ha hmin
  unfold vecUnbounded
  rw [M.bind_ok (M.get_apply _)]
  have d1 : toSz ((toSz (m : Int) : Int) + 2) = m + 2 := by
    rw [toSz_natCast (by omega), toSz_of_nonneg (by omega) (by omega)]; omega
  have d2 : toSz ((BlobLike.size ([0, 0, 0, 0] ++ rest : ABlob) : Int) - 2) = rest.length + 2 := by
    rw [size_abs, hrl, toSz_of_nonneg (by omega) (by omega)]; omega
  simp only
  rw [d1, d2, if_neg (by omega)]
  have o1 : (oracle : M ABlob Nat) ([0, 0, 0, 0] ++ rest) = (.ok 0, [0, 0] ++ rest) := by
    rw [oracle_abs, if_neg (by rw [hrl]; omega)]; rfl
  rw [M.bind_ok o1]
  have hct : countTarget ((rest.length + 2) / (m + 2)) 0 = 1 := by
    have : 1 ≤ (rest.length + 2) / (m + 2) := by rw [Nat.le_div_iff_mul_le (by omega)]; omega
    unfold countTarget
    simp only [Nat.cast_zero, Int.mul_zero]
    rw [show toSz ((toSz 0 / 65535 : Nat) + 1) % 65536 = 1 by decide, if_neg (by omega)]
  rw [hct]
  have o2 : (oracle : M ABlob Nat) ([0, 0] ++ rest) = (.ok 0, rest) := by
    rw [oracle_abs, if_neg (by simp)]; rfl
  have s1 : (sizeOracles 1 0 : M ABlob _) ([0, 0] ++ rest) = (.ok ([0], 0), rest) := by
    unfold sizeOracles
    rw [M.bind_ok o2]
    rfl
  rw [M.bind_ok s1]
  dsimp only
  rw [M.bind_ok (M.get_apply _)]
  have f1 : wrap32 ((BlobLike.size (rest : ABlob) : Nat) : Int) = rest.length := by
    rw [size_abs, wrap32_of_fits (by omega) (by omega)]
  rw [f1]
  have f2 : (M.lift (ckInt ((m : Int) * (1 : Nat))) : M ABlob Int) rest = (.ok (m : Int), rest) := by
    rw [ckInt_ok (by push_cast; omega) (by push_cast; omega)]; push_cast; rw [Int.mul_one]; rfl
  rw [M.bind_ok f2]
  have f3 : (M.lift (ckInt ((rest.length : Int) - m)) : M ABlob Int) rest = (.ok ((rest.length - m : Nat) : Int), rest) := by
    rw [ckInt_ok (by omega) (by omega), Int.ofNat_sub (by omega)]; rfl
  rw [M.bind_ok f3]
  simp only [if_pos, List.replicate_one, Nat.cast_one]
  have hint : ∀ k : Nat, k ≤ 16777216 → FV.ofInt f32 (k : Int) = .fin (k : ℚ) := by
    intro k hk
    unfold FV.ofInt
    rw [Int.cast_natCast]
    refine ofQ32_rep ?_ (rep32_nat (le_trans hk (by norm_num)))
    rw [abs_of_nonneg (Nat.cast_nonneg k)]
    have : (k : ℚ) ≤ 16777216 := by exact_mod_cast hk
    exact le_trans this (by norm_num)
  have hq : ∀ k : Nat, k ≤ 16777216 → FV.ofQ f32 (k : ℚ) = .fin (k : ℚ) := by
    intro k hk
    have := hint k hk
    unfold FV.ofInt at this
    rwa [Int.cast_natCast] at this
  unfold unbChopLoop
  dsimp only
  have g1 : FV.div f32 (FV.ofInt f32 ((1 : Nat) : Int)) (FV.ofInt f32 (1 : Int)) = .fin 1 := by
    have h1 := hint 1 (by norm_num)
    have q1 := hq 1 (by norm_num)
    rw [Nat.cast_one, Nat.cast_one] at h1
    rw [Nat.cast_one] at q1
    rw [Nat.cast_one, h1, FV.div_fin _ _ (by norm_num), div_one, q1]
  rw [g1, hint (rest.length - m) (by omega), hint m (by omega), FV.mul_fin, one_mul, hq _ (by omega), FV.add_fin, ← Nat.cast_add,
    hq _ (by omega), FV.add_fin, add_zero, hq _ (by omega), show m + (rest.length - m) = rest.length by omega]
  have t6 : FV.toCInt (.fin (rest.length : ℚ)) = .ok (rest.length : Int) := by
    show (if (-W31 : Int) ≤ truncQ (rest.length : ℚ) ∧ truncQ (rest.length : ℚ) ≤ W31 - 1 then
      Out.ok (truncQ (rest.length : ℚ)) else .ub .floatToInt) = _
    have : truncQ (rest.length : ℚ) = rest.length := by
      unfold truncQ; rw [if_pos (Nat.cast_nonneg _)]; exact Int.floor_natCast _
    rw [this, if_pos ⟨by omega, by omega⟩]
  have g2 : (M.lift (FV.toCInt (.fin (rest.length : ℚ))) : M ABlob Int) rest = (.ok (rest.length : Int), rest) := by
    rw [t6]; rfl
  rw [M.bind_ok g2, toSz_natCast (by omega)]
  have g3 : (chop rest.length : M ABlob ABlob) rest = (.ok rest, []) := by
    rw [chop_abs, if_neg (by omega), List.take_length, List.drop_length]
  rw [M.bind_ok g3]
  rfl

theorem jsonPool_at {n : Nat} (hn : 9 ≤ n) :
    (∀ j ∈ [1, 2, 3, 4, 5], sizeQ jsonGraph n .min j Flags.init = (.ok (jsonKindMin j), Flags.init) ∧
      0 ≤ jsonKindMin j ∧ jsonKindMin j ≤ INT_MAX) ∧
    (∀ j ∈ [1, 2, 3, 4, 5], sizeQ jsonGraph n .max j Flags.init = (.ok (jsonKindMax j), Flags.init) ∧
      (jsonKindMax j = -1 ∨ (0 ≤ jsonKindMax j ∧ jsonKindMax j ≤ INT_MAX))) := by
  constructor
  · intro j hj
    simp only [List.mem_cons, List.not_mem_nil, or_false] at hj
    rcases hj with rfl | rfl | rfl | rfl | rfl <;>
      exact ⟨jsonSize_ok hn (by decide +kernel), by decide, by decide⟩
  · intro j hj
    simp only [List.mem_cons, List.not_mem_nil, or_false] at hj
    rcases hj with rfl | rfl | rfl | rfl | rfl <;>
      exact ⟨jsonSize_ok hn (by decide +kernel), by decide⟩

/-- Six zeros are one more array around the rest. -/
theorem json_zeros {n : Nat} (hn : 9 ≤ n) {rest : Bytes} (h1 : 10 ≤ rest.length) (h2 : rest.length + 4 ≤ 16777216) :
    extract jsonGraph (n + 2) 0 (Flags.init, ([0, 0, 0, 0, 0, 0] ++ rest : ABlob)) =
      (do
        let xs ← extractEach (extract jsonGraph n) 0 [((0 : Id), (rest : ABlob))]
        pure (enumJoin (str ", ") (str "[") (str "]") xs) : XM ABlob Bytes) (Flags.init, []) := by
  obtain ⟨m1, m2⟩ := jsonPool_at (n := n + 1) (by omega)
  rw [picker_head_at (i := 0) (pool := [1, 2, 3, 4, 5]) rfl m1 m2 (by simp)]
  have hlr : ([0, 0, 0, 0, 0, 0] ++ rest : Bytes).length - 2 = rest.length + 4 := by simp
  rw [hlr]
  obtain ⟨cs, hcs⟩ : ∃ cs, pickCandidates jsonKindMin jsonKindMax (rest.length + 4) [1, 2, 3, 4, 5] = 4 :: cs ∧
      cs.length ≤ 1 := by
    rw [jsonCandidates, if_neg (by omega), if_neg (by omega)]
    split
    · exact ⟨[], rfl, by simp⟩
    · exact ⟨[5], rfl, by simp⟩
  obtain ⟨hcs, hcl⟩ := hcs
  rw [hcs, if_neg (by simp)]
  have hp : ∀ s : Flags × ABlob, (M.lift (oracleProportion (leNat (([0, 0, 0, 0, 0, 0] ++ rest : Bytes).take 2)) 0
      (toSz (((4 :: cs : List Id).length : Int) - 1))) : XM ABlob Nat) s = (.ok 0, s) := by
    intro s
    have e0 : leNat (([0, 0, 0, 0, 0, 0] ++ rest : Bytes).take 2) = 0 := rfl
    rw [e0]
    rcases cs with _ | ⟨c, _ | ⟨d, cs⟩⟩
    · show (oracleProportion 0 0 (toSz 0), s) = _
      rw [show oracleProportion 0 0 (toSz 0) = .ok 0 by decide +kernel]
    · show (oracleProportion 0 0 (toSz 1), s) = _
      rw [show oracleProportion 0 0 (toSz 1) = .ok 0 by decide +kernel]
    · simp at hcl
  rw [M.bind_ok (hp _)]
  have hv : ∀ s : Flags × ABlob, (M.lift (vecGet (4 :: cs : List Id) ((0 : Nat) : Int)) : XM ABlob Id) s = (.ok 4, s) := by
    intro s; rfl
  rw [M.bind_ok (hv _)]
  have hd : ([0, 0, 0, 0, 0, 0] ++ rest : Bytes).drop 2 = [0, 0, 0, 0] ++ rest := rfl
  rw [hd]
  conv_lhs => unfold extract
  rw [show jsonGraph 4 = some (.vec 0 (enumJoin (str ", ") (str "[") (str "]"))) from rfl]
  dsimp only
  have q1 : liftF (sizeQ jsonGraph n .min 0) (Flags.init, ([0, 0, 0, 0] ++ rest : ABlob)) =
      (.ok ((10 : Nat) : Int), (Flags.init, ([0, 0, 0, 0] ++ rest : ABlob))) := by
    unfold liftF; dsimp only; rw [jsonSize_ok hn (v := 10) (by decide +kernel)]; rfl
  have q2 : liftF (sizeQ jsonGraph n .max 0) (Flags.init, ([0, 0, 0, 0] ++ rest : ABlob)) =
      (.ok (-1), (Flags.init, ([0, 0, 0, 0] ++ rest : ABlob))) := by
    unfold liftF; dsimp only; rw [jsonSize_ok hn (v := -1) (by decide +kernel)]
  have hl : ([0, 0, 0, 0] ++ rest : ABlob).length = rest.length + 4 := by simp
  have q3 : liftB (vecSplit n ((10 : Nat) : Int) (-1)) (Flags.init, ([0, 0, 0, 0] ++ rest : ABlob)) =
      (.ok [rest], (Flags.init, [])) := by
    unfold liftB; dsimp only
    rw [vecSplit_enough (by omega) (by omega) (by rw [hl]; push_cast; omega), if_neg (by omega), if_pos rfl,
      vecUnbounded_one (by rw [hl]; omega) (by rw [hl]; omega) rfl]
    rfl
  rw [M.bind_ok q1, M.bind_ok q2, M.bind_ok q3]
  rfl

theorem nested_succ (d : Nat) (s : Bytes) : nested (d + 1) s = 91 :: (nested d s ++ [93]) := by
  unfold nested
  rw [List.replicate_succ, List.replicate_succ']
  simp

theorem zeros_succ (d : Nat) : (List.replicate (6 * (d + 1) + 10) 0 : Bytes) =
    [0, 0, 0, 0, 0, 0] ++ List.replicate (6 * d + 10) 0 := by
  rw [show 6 * (d + 1) + 10 = 6 + (6 * d + 10) by omega, List.replicate_add]; rfl

theorem zeros_text (d : Nat) (hd : 6 * d + 10 ≤ 16777216) :
    ∃ left, extract jsonGraph (2 * d + 10) 0 (Flags.init, (List.replicate (6 * d + 10) 0 : ABlob)) =
      (.ok (nested d [48]), (Flags.init, left)) := by
  induction d with
  | zero =>
    have h1 : (extract jsonGraph (2 * 0 + 10) 0 (Flags.init, (List.replicate (6 * 0 + 10) 0 : ABlob))).1 =
        .ok (nested 0 [48]) := by decide +kernel
    exact ⟨(extract jsonGraph (2 * 0 + 10) 0 (Flags.init, (List.replicate (6 * 0 + 10) 0 : ABlob))).2.2,
      Prod.ext h1 (Prod.ext (keeps_extract jsonGraph _ 0 _ (.inl ⟨_, h1⟩)) rfl)⟩
  | succ d ih =>
    obtain ⟨left, e⟩ := ih (by omega)
    refine ⟨[], ?_⟩
    have z := zeros_succ d
    have hx := json_zeros (n := 2 * d + 10) (by omega) (rest := List.replicate (6 * d + 10) 0)
      (by rw [List.length_replicate]; omega) (by rw [List.length_replicate]; omega)
    rw [show 2 * (d + 1) + 10 = 2 * d + 10 + 2 by omega]
    have hx' : extract jsonGraph (2 * d + 10 + 2) 0 (Flags.init, (List.replicate (6 * (d + 1) + 10) 0 : ABlob)) = _ :=
      (congrArg (fun a : Bytes => extract jsonGraph (2 * d + 10 + 2) 0 (Flags.init, (a : ABlob))) z).trans hx
    rw [hx']
    have := extractEach_run (c := 0) (n := 2 * d + 10) (ps := [(List.replicate (6 * d + 10) 0 : ABlob)])
      (xs := [nested d [48]]) (.cons ⟨left, e⟩ .nil) 0 [] (by simp)
    rw [Nat.cast_zero, List.map_singleton] at this
    rw [M.bind_ok this, nested_succ]
    show (Out.ok (enumJoin (str ", ") (str "[") (str "]") [nested d [48]]), _) = _
    congr 2

theorem zeros_deep (d : Nat) (hd : 6 * d + 10 ≤ 16777216) : ∀ n : Nat, 9 ≤ n →
    (extract jsonGraph n 0 (Flags.init, (List.replicate (6 * d + 10) 0 : ABlob))).1 ≠ .fuel → 2 * d ≤ n := by
  induction d with
  | zero => intros; omega
  | succ d ih =>
    have main : ∀ n, 9 ≤ n →
        (extract jsonGraph (n + 2) 0 (Flags.init, (List.replicate (6 * (d + 1) + 10) 0 : ABlob))).1 ≠ .fuel → 2 * d ≤ n := by
      intro n hn h
      refine ih (by omega) n hn fun hf => h ?_
      have hx := json_zeros hn (rest := List.replicate (6 * d + 10) 0)
        (by rw [List.length_replicate]; omega) (by rw [List.length_replicate]; omega)
      have hx' : extract jsonGraph (n + 2) 0 (Flags.init, (List.replicate (6 * (d + 1) + 10) 0 : ABlob)) = _ :=
        (congrArg (fun a : Bytes => extract jsonGraph (n + 2) 0 (Flags.init, (a : ABlob))) (zeros_succ d)).trans hx
      rw [hx']
      rcases he : extract jsonGraph n 0 (Flags.init, (List.replicate (6 * d + 10) 0 : ABlob)) with ⟨o, fl', a'⟩
      rw [he] at hf
      dsimp only at hf
      subst hf
      have e1 : onBlob (List.replicate (6 * d + 10) 0 : ABlob) (extract jsonGraph n 0) (Flags.init, ([] : ABlob)) =
          (.fuel, (fl', [])) := by
        unfold onBlob; dsimp only; rw [he]
      unfold extractEach
      rw [M.bind_fuel (M.bind_fuel e1)]
    intro n hn h
    by_cases h11 : 11 ≤ n
    · obtain ⟨k, rfl⟩ : ∃ k, n = k + 2 := ⟨n - 2, by omega⟩
      have := main k (by omega) h
      omega
    · have h' : (extract jsonGraph (9 + 2) 0 (Flags.init, (List.replicate (6 * (d + 1) + 10) 0 : ABlob))).1 ≠ .fuel := by
        rcases fle_extract (β := ABlob) jsonGraph (show n ≤ 9 + 2 by omega) 0
          (Flags.init, (List.replicate (6 * (d + 1) + 10) 0 : ABlob)) with e | e
        · exact absurd e h
        · rw [← e]; exact h
      have := main 9 le_rfl h'
      by_contra hc
      have hd4 : d = 4 ∧ n = 9 := by omega
      obtain ⟨rfl, rfl⟩ := hd4
      exact h (by decide +kernel)

/-- **C73**, the depth is reached: a blob of `6 * d + 10` zeros makes `StampJSON` write `d` arrays inside one
another, for `d` up to 2796201, and its calls go at least `2 * d` deep. No stack of a fixed size is enough. -/
theorem C73_deep {d : Nat} (h5 : 5 ≤ d) (hd : 6 * d + 10 ≤ 16777216) :
    Gives jsonGraph Flags.init 0 (List.replicate (6 * d + 10) 0) (nested d (str "0")) ∧
    ∀ n < 2 * d, ¬ Within jsonGraph Flags.init 0 (List.replicate (6 * d + 10) 0) n := by
  constructor
  · obtain ⟨left, e⟩ := zeros_text d hd
    exact ⟨left, fun b hr hh => Returns.intro hr.valid hh (Extracts.intro e (by simp))⟩
  · intro n hn hw
    have h := of_within (by rw [List.length_replicate]; omega) hw
    by_cases h9 : 9 ≤ n
    · have := zeros_deep d hd n h9 h
      omega
    · have h' : (extract jsonGraph 9 0 (Flags.init, (List.replicate (6 * d + 10) 0 : ABlob))).1 ≠ .fuel := by
        rcases fle_extract (β := ABlob) jsonGraph (show n ≤ 9 by omega) 0
          (Flags.init, (List.replicate (6 * d + 10) 0 : ABlob)) with e | e
        · exact absurd e h
        · rw [← e]; exact h
      have := zeros_deep d hd 9 le_rfl h'
      omega

/-- Forty zeros: five arrays. -/
example : (extract jsonGraph 20 0 (Flags.init, (List.replicate 40 0 : ABlob))).1 = .ok (str "[[[[[0]]]]]") := by
  decide +kernel

/-- Ten kilobytes: the text `[[[[...` with 1665 brackets, from 3330 to 40013 levels of calls. -/
example : Gives jsonGraph Flags.init 0 (List.replicate 10000 0) (nested 1665 (str "0")) ∧
    ¬ Within jsonGraph Flags.init 0 (List.replicate 10000 0) 3329 ∧
    Within jsonGraph Flags.init 0 (List.replicate 10000 0) 40013 := by
  obtain ⟨h1, h2⟩ := C73_deep (d := 1665) (by norm_num) (by norm_num)
  exact ⟨h1, h2 _ (by norm_num), C73_json _ (by rw [List.length_replicate])⟩

end BS
