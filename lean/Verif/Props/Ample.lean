import Verif.Lemmas.Ample
import Verif.Props.Format

/-!
# C84: enough data for operators with two operands and for sets
-/

namespace BS
open BlobLike

/-- **C84**, for grammars as in `Ample` and blobs of up to `L` bytes: whatever the bytes, `ExtractStr` returns a string
as soon as there are `minSize()` of them. The grammars may be recursive; their operators with two operands and their
sets have stamps of fixed size and at most two unbounded ones. Missing: sets with variated stamps or three unbounded
ones (for which it is violated), the larger blobs of C39. -/
theorem C84_enough_partial {G : Graph} {fl : Flags} {L : Nat} {mn mx : Id → Int} (h : Ample G fl L mn mx) {i : Id}
    (hi : G i ≠ none) : Ready G fl L i (mn i) := by
  refine ⟨(h.sizes i hi).1, fun b bs hr hh hlo hhi => ?_⟩
  obtain ⟨s, left, hs, _⟩ := ample_supply h L le_rfl i hi bs hhi hlo
  exact ⟨s, left, (returns_iff hr hh).2 hs⟩

/-- Sums of lists and numbers: a lottery over a number, a sum of two such things, and a number beside a list of them. -/
def ampleGraph : Graph
  | 0 => some (.lottery true [1, 2, 3] 1 1 (-1))
  | 1 => some (.arith .u8)
  | 2 => some (.set [0, 0] (binaryText [43]) true)
  | 3 => some (.set [1, 4] (binaryText [58]) true)
  | 4 => some (.enumerator 0 [44] [40] [41])
  | _ => none

theorem ampleGraph_ample : Ample ampleGraph Flags.init 131077 (fun i => [2, 1, 8, 7, 6].getD i 0)
    (fun i => [-1, 1, -1, -1, -1].getD i 0) := by
  refine ⟨⟨⟨5, ?_⟩, acyclic_of_rank (fun i => [0, 0, 1, 2, 1].getD i 0) ?_⟩, ?_, by decide, ?_, ?_, ?_, ?_, ?_, ?_, ?_, ?_⟩
  · intro i hi
    obtain ⟨j, rfl⟩ : ∃ j, i = j + 5 := ⟨i - 5, (Nat.sub_add_cancel hi).symm⟩
    rfl
  · rintro i j ⟨nd, hG, hj⟩
    rcases i with _ | _ | _ | _ | _ | i <;> cases hG <;> simp [Node.plainKids, Node.enumerator] at hj
    · subst hj; decide
    · rcases hj with rfl | rfl <;> decide
    · subst hj; decide
  · intro i nd hG j hj
    have : j ∈ [0, 1, 2, 3, 4] := by
      rcases i with _ | _ | _ | _ | _ | i <;> cases hG <;>
        simp [Node.plainKids, Node.choices, Node.enumerator] at hj ⊢ <;> tauto
    simp only [List.mem_cons, List.not_mem_nil, or_false] at this
    rcases this with rfl | rfl | rfl | rfl | rfl <;> simp [ampleGraph]
  · intro i hi
    rcases i with _ | _ | _ | _ | _ | i
    · exact ⟨hasSize_eval 9 (by decide +kernel), hasSize_eval 9 (by decide +kernel), by decide⟩
    · exact ⟨hasSize_eval 9 (by decide +kernel), hasSize_eval 9 (by decide +kernel), by decide⟩
    · exact ⟨hasSize_eval 9 (by decide +kernel), hasSize_eval 9 (by decide +kernel), by decide⟩
    · exact ⟨hasSize_eval 9 (by decide +kernel), hasSize_eval 9 (by decide +kernel), by decide⟩
    · exact ⟨hasSize_eval 9 (by decide +kernel), hasSize_eval 9 (by decide +kernel), by decide⟩
    · exact absurd rfl hi
  · intro i ws hG
    rcases i with _ | _ | _ | _ | _ | i <;> cases hG
  · intro i u hG
    rcases i with _ | _ | _ | _ | _ | i <;> cases hG
  · intro i c join hG
    rcases i with _ | _ | _ | _ | _ | i <;> cases hG
    decide
  · intro i cs join unb hG
    rcases i with _ | _ | _ | _ | _ | i <;> cases hG <;> decide
  · intro i cs join unb hG
    rcases i with _ | _ | _ | _ | _ | i <;> cases hG
  · intro i r l w smin smax hG
    rcases i with _ | _ | _ | _ | _ | i <;> cases hG
    decide
  · intro i pool hG
    rcases i with _ | _ | _ | _ | _ | i <;> cases hG

/-- C84 applies: any two bytes will do. -/
example {b : Blob} {bs : Bytes} (hr : Reachable b) (hh : Holds b bs) (h2 : 2 ≤ bs.length) (hL : bs.length ≤ 131077) :
    ∃ s left, Returns ampleGraph Flags.init 0 b s left :=
  (C84_enough_partial ampleGraph_ample (i := 0) (by simp [ampleGraph])).2 b bs hr hh (by simpa using h2) hL

example : (extract ampleGraph 20 0 (Flags.init, ([200, 255, 255, 255, 255, 200, 7, 255, 7, 0, 0, 1, 0, 255, 55, 3, 0, 66] : ABlob))).1
    = .ok (str "(255 : (1,255,0))") := by decide +kernel

/-! ## Any set -/

/-- **C84**, any set of stamps that need no more than they ask for, whatever their kinds (a binary operator is a set of
two): it asks for `setNeeds`, and returns a string for every blob of so many bytes in which no stamp reads the
oracle 0. -/
theorem C84_oracles_partial {G : Graph} {fl : Flags} {L : Nat} {i : Id} {cs : List Id} {join : List Bytes → Bytes}
    {unb : Bool} (hG : G i = some (.set cs join unb)) {ss : List SizePair} (hs : HaveSizes G fl cs ss) (hz : SetSizes ss)
    (ht : (ss.map fun s => if s.2 = -1 then 0 else s.2).sum + 2 * ss.length ≤ INT_MAX)
    (hc : List.Forall₂ (fun c (s : SizePair) => Ready G fl L c s.1) cs ss) (hL : L ≤ 2147483646)
    (hn : ss.length * (L + 1) ≤ 2 ^ 49) :
    HasMin G fl i (setNeeds ss) ∧ ∀ b bs, Reachable b → Holds b bs → setNeeds ss ≤ (bs.length : Int) → bs.length ≤ L →
      (∀ o ∈ setOracles ss bs, o ≠ some 0) → ∃ s left, Returns G fl i b s left := by
  refine ⟨(C63_set hG hs hz ht).1, fun b bs hr hh hlo hhi ho => ?_⟩
  rw [setNeeds_eq] at hlo
  have hl : 2 * oracleCount ss ≤ bs.length := by
    have h4 := setNeed_eq hz.ok
    have h5 := minSum_nonneg hz.ok
    omega
  have hok : SetOraclesOk ss bs := by
    refine ⟨fun ⟨s, h1, h2⟩ => ?_, fun ⟨s, h1, _⟩ => ho _ (List.of_mem_zip h1).2 rfl⟩
    obtain ⟨k, hk, rfl⟩ := List.getElem_of_mem h1
    have hk' : k < (setOracles ss bs).length := by rw [setOracles_length]; exact hk
    have hz' : (ss[k], (setOracles ss bs)[k]) ∈ ss.zip (setOracles ss bs) := by
      rw [← List.getElem_zip (h := by rw [List.length_zip]; omega)]
      exact List.getElem_mem _
    rcases e : (setOracles ss bs)[k] with _ | o
    · exfalso
      have e' : (setOracles ss bs)[k]? = some none := by rw [List.getElem?_eq_getElem hk', e]
      unfold setOracles at e'
      rw [countP_unb, drop_divides] at e'
      have hu := stampOracles_none hz.ok _ (by
        unfold oracleCount at hl
        rw [List.length_drop]; omega) (List.getElem?_eq_getElem hk) e' (by
          rcases Bool.eq_false_or_eq_true ss[k].fixed with e | e
          · exact absurd (ss[k].fixed_iff.1 e) h2.1
          · exact e)
      exact h2.2 (ss[k].unb_iff.1 hu)
    · refine ⟨ss[k], o, by rw [← e]; exact hz', h2, fun h0 => ?_⟩
      rw [h0] at e
      exact ho _ (List.getElem_mem hk') e
  have hn' : ss.length * (bs.length + 1) ≤ 2 ^ 49 := le_trans (Nat.mul_le_mul_left _ (by omega)) hn
  obtain ⟨parts, left, h3, hf⟩ := set_core hz hok hlo (by omega) hn'
  have hcl := hc.length_eq
  have hpl := hf.length
  obtain ⟨xs, hx⟩ := pieces_supply (G := G) (fl := fl) (cs.zip parts) (by
    intro q hq
    obtain ⟨k, hk, rfl⟩ := List.getElem_of_mem hq
    rw [List.length_zip] at hk
    rw [List.getElem_zip]
    have hk1 : k < ss.length := by omega
    have hk2 : k < parts.length := by omega
    have hsz := (hf.sizes k _ _ (List.getElem?_eq_getElem hk1) (List.getElem?_eq_getElem hk2)).2.1 (.inl fun e =>
      ho _ (List.mem_of_getElem? e) rfl)
    have hR := (List.forall₂_iff_get.1 hc).2 k (by omega) hk1
    have hpk : parts[k].length ≤ bs.length := by
      have hlen := congrArg List.length hf.cat
      rw [List.length_append, List.length_append] at hlen
      have : parts[k].length ≤ parts.flatten.length := by
        rw [List.length_flatten]
        exact List.le_sum_of_mem (List.mem_map_of_mem (List.getElem_mem _))
      omega
    obtain ⟨b', hr', hh'⟩ := exists_blob (bs := parts[k]) (by omega)
    obtain ⟨s, l, h⟩ := hR.2 b' _ hr' hh' hsz (by omega)
    exact ⟨s, l, (returns_iff hr' hh').1 h⟩)
  refine ⟨_, left, (returns_iff hr hh).2 ((set_ok_iff hG).2 ⟨ss, parts, xs, hs, h3, hx, ?_, rfl⟩)⟩
  have := hz.total
  have := minSum_nonneg hz.ok
  unfold minSum at this
  omega

/-- A stamp of two to four bytes, a number and two texts. -/
def mixedGraph : Graph
  | 0 => some (.set [1, 2, 3, 3] (·.flatten) true)
  | 1 => some (.user ⟨2, 4, false, fun bs => (if bs.length < 2 then .outOfData else .ok bs, bs.length)⟩)
  | 2 => some (.arith .u8)
  | 3 => some .ascii
  | _ => none

/-- C84 applies to it: thirteen bytes or more of which the eight at the beginning are not zero. -/
example {b : Blob} {bs : Bytes} (hr : Reachable b) (hh : Holds b bs) (h1 : 13 ≤ bs.length) (h2 : bs.length ≤ 1000000000)
    (h0 : ∀ x ∈ bs.take 8, x ≠ 0) : ∃ s left, Returns mixedGraph Flags.init 0 b s left := by
  have hR : ∀ c (m : Int), (∀ b bs, Reachable b → Holds b bs → m ≤ (bs.length : Int) → bs.length ≤ 1000000000 →
    ∃ s left, ARun mixedGraph Flags.init c bs (.ok s) left) → HasMin mixedGraph Flags.init c m →
      Ready mixedGraph Flags.init 1000000000 c m := by
    intro c m h hm
    refine ⟨hm, fun b bs hr hh h1 h2 => ?_⟩
    obtain ⟨s, left, h⟩ := h b bs hr hh h1 h2
    exact ⟨s, left, (returns_iff hr hh).2 h⟩
  have r1 : Ready mixedGraph Flags.init 1000000000 1 2 := hR 1 2 (fun b bs _ _ h1 _ => ⟨bs, [], .mk (n := 1) (by
    rw [user_run (u := ⟨2, 4, false, fun bs => (if bs.length < 2 then .outOfData else .ok bs, bs.length)⟩) rfl]
    dsimp only
    rw [if_neg (by omega), Nat.min_self, List.drop_length])⟩) (hasSize_eval 1 rfl)
  have r2 : Ready mixedGraph Flags.init 1000000000 2 1 := hR 2 1 (fun b bs _ _ h1 _ => by
    obtain ⟨s, h⟩ := (arith_exact (G := mixedGraph) (fl := Flags.init) (i := 2) (t := .u8) rfl).1 (bs.take 1)
      (by rw [List.length_take]; show min 1 _ = 1; omega)
    exact ⟨s, bs.drop 1, by have := h (bs.drop 1); rwa [List.take_append_drop] at this⟩) (hasSize_eval 1 rfl)
  have r3 : Ready mixedGraph Flags.init 1000000000 3 1 := hR 3 1 (fun b bs _ _ h1 h2 => by
    have e := extractText_abs asciiChar bs (by omega)
    rw [if_neg (by omega)] at e
    refine ⟨_, [], .mk (n := 1) (by
      unfold extract
      show (((extractText asciiChar : M ABlob Bytes) bs).1, (_, ((extractText asciiChar : M ABlob Bytes) bs).2)) = _
      rw [e])⟩) (hasSize_eval 1 rfl)
  refine (C84_oracles_partial (G := mixedGraph) (i := 0) (ss := [(2, 4), (1, 1), (1, -1), (1, -1)]) rfl
    (.cons ⟨r1.1, hasSize_eval 1 rfl⟩ (.cons ⟨r2.1, hasSize_eval 1 rfl⟩ (.cons ⟨r3.1, hasSize_eval 1 rfl⟩
      (.cons ⟨r3.1, hasSize_eval 1 rfl⟩ .nil)))) ⟨by decide, by decide, by decide⟩ (by decide)
    (.cons r1 (.cons r2 (.cons r3 (.cons r3 .nil)))) (by decide) (by decide)).2 b bs hr hh
      (by rw [show setNeeds [(2, 4), (1, 1), (1, -1), (1, -1)] = 13 by decide]; omega) h2 ?_
  match bs, h1, h0 with
  | a :: b :: c :: d :: e :: f :: g :: h :: bs, _, h0 =>
    have eo : setOracles [(2, 4), (1, 1), (1, -1), (1, -1)] (a :: b :: c :: d :: e :: f :: g :: h :: bs) =
      [some (c.toNat + 256 * d.toNat), none, some (e.toNat + 256 * f.toNat), some (g.toNat + 256 * h.toNat)] := by
      simp [setOracles, stampOracles, IsVariated]
    rw [eo]
    have hp : ∀ x ∈ (a :: b :: c :: d :: e :: f :: g :: h :: bs).take 8, x.toNat ≠ 0 := fun x hx h' =>
      h0 x hx (UInt8.toNat_inj.1 h')
    simp at hp
    intro o ho
    simp only [List.mem_cons, List.not_mem_nil, or_false] at ho
    rcases ho with rfl | rfl | rfl | rfl <;> simp <;> omega

/-! ## Where it fails -/

/-- **C84 is violated** by every set with variated stamps, such as an operator over two of them: when they all read the
oracle 0 it returns nothing, however much data there is. -/
theorem C84_violated_zero {G : Graph} {fl : Flags} {i : Id} {cs : List Id} {join : List Bytes → Bytes} {unb : Bool}
    (hG : G i = some (.set cs join unb)) {ss : List SizePair} (hs : HaveSizes G fl cs ss) (hz : SetSizes ss)
    (hv : ∃ s ∈ ss, IsVariated s) {b : Blob} {bs : Bytes} (hr : Reachable b) (hh : Holds b bs)
    (hlo : setNeeds ss ≤ (bs.length : Int)) (hhi : bs.length ≤ 2147483646)
    (h0 : ∀ s o, (s, o) ∈ ss.zip (setOracles ss bs) → IsVariated s → o = some 0) :
    ¬ ∃ s left, Returns G fl i b s left := by
  rintro ⟨s, left, h⟩
  obtain ⟨ss', parts, xs, h1, h2, -⟩ := ((C67_set hG hr).1 s left).1 h
  have e : ss' = ss := haveSizes_unique h1 hs
  subst e
  refine C21_violated_all_zero hr hh hz hlo hhi (fun hp => ?_) parts left h2
  obtain ⟨s, o, h3, h4, h5⟩ := hp hv
  have := h0 s _ h3 h4
  cases this
  exact h5 rfl

/-- A sum of two stamps of two to four bytes. -/
def pairGraph : Graph
  | 0 => some (.set [1, 1] (binaryText [43]) true)
  | 1 => some (.user ⟨2, 4, false, fun bs => (if bs.length < 2 then .outOfData else .ok bs, bs.length)⟩)
  | _ => none

/-- It asks for eight bytes and returns nothing for any blob that begins with four zeros. -/
example {b : Blob} {bs : Bytes} (hr : Reachable b) (hh : Holds b (0 :: 0 :: 0 :: 0 :: bs)) (h : 4 ≤ bs.length)
    (h' : bs.length ≤ 1000000000) :
    HasMin pairGraph Flags.init 0 8 ∧ ¬ ∃ s left, Returns pairGraph Flags.init 0 b s left := by
  refine ⟨hasSize_eval 5 (by decide +kernel), C84_violated_zero (ss := [(2, 4), (2, 4)]) rfl
    (.cons ⟨hasSize_eval 1 rfl, hasSize_eval 1 rfl⟩ (.cons ⟨hasSize_eval 1 rfl, hasSize_eval 1 rfl⟩ .nil))
    ⟨by decide, by decide, by decide⟩ ⟨(2, 4), by simp, by decide⟩ hr hh ?_ ?_ ?_⟩
  · rw [show setNeeds [(2, 4), (2, 4)] = 8 by decide]
    simp only [List.length_cons]; omega
  · simp only [List.length_cons]; omega
  · have e : setOracles [(2, 4), (2, 4)] (0 :: 0 :: 0 :: 0 :: bs) = [some 0, some 0] := by
      simp [setOracles, stampOracles, IsVariated]
    rw [e]
    simp

/-- Three texts. -/
def threeGraph : Graph
  | 0 => some (.set [1, 1, 1] (·.flatten) true)
  | 1 => some .latin1
  | _ => none

/-- **C84 is violated** by three unbounded stamps: three Latin-1 strings ask for 9 bytes, and these 14 are not enough:
the second string gets none and throws. -/
theorem C84_violated_three {b : Blob} (hr : Reachable b)
    (hh : Holds b [255, 255, 0, 0, 255, 255, 1, 2, 3, 4, 5, 6, 7, 8]) :
    HasMin threeGraph Flags.init 0 9 ∧ Throws threeGraph Flags.init 0 b [] :=
  ⟨hasSize_eval 5 (by decide +kernel), Throws.intro hr.valid hh (Extracts.intro (n := 5)
    (Prod.ext (by decide +kernel) (Prod.ext (keeps_extract _ _ _ _ (Or.inr (by decide +kernel))) (by decide +kernel)))
    (by simp))⟩

end BS
