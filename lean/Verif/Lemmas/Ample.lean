import Verif.Spec.Ample
import Verif.Lemmas.Enough
import Verif.Lemmas.Fixed
import Verif.Props.SetAny
import Verif.Props.Sizes

/-!
# Enough data for operators with two operands
-/

namespace BS
open BlobLike

theorem stampOracles_all_none {several : Bool} {ss : List SizePair}
    (h : ∀ s ∈ ss, s.2 = s.1 ∨ (s.2 = -1 ∧ several = false)) (bs : Bytes) :
    ∀ o ∈ stampOracles several ss bs, o = none := by
  induction ss generalizing bs with
  | nil => intro o ho; cases ho
  | cons s ss ih =>
    intro o ho
    unfold stampOracles at ho
    have hs := h s (List.mem_cons_self ..)
    rw [if_pos (by rcases hs with e | e; exacts [.inl e.symm, .inr e])] at ho
    rcases List.mem_cons.1 ho with rfl | ho
    · rfl
    · exact ih (fun s hs => h s (List.mem_cons_of_mem _ hs)) bs o ho

/-- A set of stamps of fixed size and at most two unbounded ones always gets what it needs. -/
theorem set_supply {ss : List SizePair} (hs : ∀ s ∈ ss, 0 ≤ s.1 ∧ (s.2 = s.1 ∨ s.2 = -1))
    (ht : (ss.map Prod.fst).sum + 2 * (ss.length + 1) ≤ INT_MAX)
    (hu : (ss.filter fun s => decide (s.2 = -1)).length ≤ 2) (bs : Bytes) (hmin : setNeeds ss ≤ bs.length)
    (hS : bs.length ≤ 2147483646) (hn : ss.length * (bs.length + 1) ≤ 2 ^ 49) :
    ∃ (parts : List Bytes) (left : Bytes), setSplit ss (bs : ABlob) = (.ok parts, left) ∧
      List.Forall₂ (fun (s : SizePair) (p : Bytes) => s.1 ≤ p.length ∧ p.length ≤ bs.length) ss parts ∧
      parts.flatten.length + left.length ≤ bs.length := by
  have hnn : 0 ≤ (ss.map Prod.fst).sum := List.sum_nonneg fun x hx => by
    obtain ⟨s, h1, rfl⟩ := List.mem_map.1 hx
    exact (hs s h1).1
  have hle : ∀ s ∈ ss, s.1 ≤ INT_MAX := by
    intro s h1
    have := List.single_le_sum (l := ss.map Prod.fst) (fun x hx => by
      obtain ⟨s, h1, rfl⟩ := List.mem_map.1 hx
      exact (hs s h1).1) s.1 (List.mem_map_of_mem h1)
    omega
  have hz : SetSizes ss := by
    refine ⟨fun s h1 => ⟨(hs s h1).1, ?_⟩, ht, ?_⟩
    · have := hle s h1
      rcases (hs s h1).2 with e | e
      · exact .inr ⟨by omega, by omega⟩
      · exact .inl e
    · have : ∀ x ∈ ss.map slack, x = 0 := by
        intro x hx
        obtain ⟨s, h1, rfl⟩ := List.mem_map.1 hx
        unfold slack
        rcases (hs s h1).2 with e | e
        · rw [e]; split <;> omega
        · rw [if_pos e]
      rw [List.sum_eq_zero this]; decide
  have hnv : ∀ s ∈ ss, ¬ IsVariated s := by
    rintro s h1 ⟨a, b⟩
    rcases (hs s h1).2 with e | e
    · exact a e.symm
    · exact b e
  have hcnt : (ss.filter fun s => decide (s.2 = -1)).length = ss.countP SizePair.unb := by
    rw [← List.countP_eq_length_filter]
    exact List.countP_congr (fun s _ => by rw [s.unb_iff]; simp)
  rw [setNeeds_eq] at hmin
  by_cases h2 : (ss.filter fun s => decide (s.2 = -1)).length = 2
  · rw [hcnt] at h2
    obtain ⟨parts, h3, h4, h5⟩ := setSplit_two (fun s h1 => ⟨hz.ok s h1, by
      by_contra hc
      refine hnv s h1 ?_
      rcases (hz.ok s h1).cases with ⟨_, _, e, _⟩ | ⟨_, _, e, _⟩ | ⟨_, _, _, e4, e5⟩
      · rw [e] at hc; exact absurd rfl hc
      · rw [e] at hc; exact absurd rfl hc
      · have := (hs s h1).1
        rcases (hs s h1).2 with e | e <;> omega⟩) h2 bs hmin hS hn
    have hlen := congrArg List.length h5
    rw [List.length_append] at hlen
    refine ⟨parts, [], h3, ?_, by simp only [List.length_nil]; omega⟩
    rw [List.forall₂_iff_get] at h4 ⊢
    refine ⟨h4.1, fun i hi hi' => ⟨h4.2 i hi hi', ?_⟩⟩
    have : (parts.get ⟨i, hi'⟩).length ≤ parts.flatten.length := by
      rw [List.length_flatten]
      exact List.le_sum_of_mem (List.mem_map_of_mem (List.get_mem ..))
    omega
  · have hor : ∀ o ∈ setOracles ss bs, o = none := by
      refine stampOracles_all_none (fun s h1 => ?_) _
      rcases (hs s h1).2 with e | e
      · exact .inl e
      · refine .inr ⟨e, decide_eq_false ?_⟩
        rw [List.countP_eq_length_filter]
        omega
    obtain ⟨parts, left, h3, hf⟩ := set_core hz ⟨fun ⟨s, h1, h2⟩ => absurd h2 (hnv s h1), fun ⟨s, h1, _⟩ => by
      have := hor _ (List.of_mem_zip h1).2
      cases this⟩ hmin hS hn
    have hlen := congrArg List.length hf.cat
    rw [List.length_append, List.length_append] at hlen
    refine ⟨parts, left, h3, ?_, by omega⟩
    rw [List.forall₂_iff_get]
    refine ⟨hf.length.symm, fun i hi hi' => ⟨(hf.sizes i _ _ (List.getElem?_eq_getElem hi)
      (List.getElem?_eq_getElem hi')).2.1 (.inl fun e => ?_), ?_⟩⟩
    · cases hor _ (List.mem_of_getElem? e)
    · have : (parts.get ⟨i, hi'⟩).length ≤ parts.flatten.length := by
        rw [List.length_flatten]
        exact List.le_sum_of_mem (List.mem_map_of_mem (List.get_mem ..))
      omega

theorem hand_run {G : Graph} {fl : Flags} {i j : Id} {bs rest : Bytes} (hd : Delegates G fl i bs j rest)
    (h1 : bs.length < 9223372036854775808) (h2 : rest.length < 9223372036854775808) {s left : Bytes}
    (h : ARun G fl j rest (.ok s) left) : ARun G fl i bs (.ok s) left := by
  obtain ⟨n, h⟩ := h
  obtain ⟨N, v, s', e, rfl, rfl⟩ := runs_delegate (P := fun v s' => v = s ∧ s' = (fl, left)) hd h1 h2
    ⟨n, s, (fl, left), fun m hm => lift_run hm (by simp) h, rfl, rfl⟩ (fun _ _ h => by rw [h.2])
  exact ⟨N, e N le_rfl⟩

theorem pieces_supply {G : Graph} {fl : Flags} (l : List (Id × ABlob))
    (h : ∀ q ∈ l, ∃ s left, ARun G fl q.1 q.2 (.ok s) left) : ∃ xs, List.Forall₂ (PieceRun G fl) l xs := by
  induction l with
  | nil => exact ⟨[], .nil⟩
  | cons q l ih =>
    obtain ⟨xs, ih⟩ := ih fun q hq => h q (List.mem_cons_of_mem _ hq)
    obtain ⟨s, left, hs⟩ := h q (List.mem_cons_self ..)
    exact ⟨s :: xs, .cons ⟨left, hs⟩ ih⟩

/-- What a stamp that leaves the rest takes. -/
theorem leaves_rest {G : Graph} {fl : Flags} {L : Nat} {mn mx : Id → Int} (h : Ample G fl L mn mx) {i : Id}
    (hi : LeavesRest G fl i (mn i)) {a : ABlob} (hm : mn i ≤ List.length a) {s : Bytes} {left : ABlob}
    (hr : ARun G fl i a (.ok s) left) : (List.length a : Int) ≤ mn i + List.length left := by
  rcases hi with ⟨nd, hG, hf⟩ | ⟨hfr, n, he, hn⟩
  · have hn : G i ≠ none := by rw [hG]; simp
    have hmin := (h.sizes i hn).1
    cases nd with
    | arith t =>
      have e1 : mn i = t.size := (SizeRuns.unique hmin (leaf_min (by unfold sizeQ; rw [hG]; rfl))).1
      obtain ⟨s', e⟩ := (arith_exact (fl := fl) hG).1 (a.take t.size) (by rw [List.length_take]; omega)
      have := (ARun.once (o' := .ok _) (by simp) (by simp) hr (by
        have := e (a.drop t.size)
        rwa [List.take_append_drop] at this)).2
      rw [this, List.length_drop]; omega
    | dict ws =>
      have e1 : mn i = (chooseStampSize ws.length).1 := (SizeRuns.unique hmin (leaf_min (by unfold sizeQ; rw [hG]; rfl))).1
      obtain ⟨g1, g2⟩ := h.dict i ws hG
      obtain ⟨k, hk, -, e⟩ := (extractDict_abs ws (List.length_pos_iff.2 g1) g2 a).2 (by omega)
      have := (ARun.once (o' := .ok _) (by simp) (by simp) hr (.mk (n := 1) (by
        unfold extract
        rw [hG]
        show ((extractDict ws a).1, (fl, (extractDict ws a).2)) = _
        rw [e]))).2
      rw [this, List.length_drop]; omega
    | jsonStr =>
      have e1 : mn i = 8 := (SizeRuns.unique hmin (leaf_min (by unfold sizeQ; rw [hG]; rfl))).1
      have hw : (chooseStampSize lcAlphaSmall.length).1 = 1 := by decide +kernel
      obtain ⟨k, hk, -, e⟩ := (extractDict_abs lcAlphaSmall (by decide +kernel) (by decide +kernel) a).2
        (by rw [hw]; omega)
      rw [hw] at e
      have := (ARun.once (o' := .ok _) (by simp) (by simp) hr (.mk (n := 1) (by
        unfold extract
        rw [hG]
        have e' : (extractJsonStr : M ABlob Bytes) a = (.ok ([34] ++ lcAlphaSmall[k] ++ [34]), a.drop 1) :=
          M.bind_ok e
        show (((extractJsonStr : M ABlob Bytes) a).1, (fl, ((extractJsonStr : M ABlob Bytes) a).2)) = _
        rw [e']))).2
      rw [this, List.length_drop]; omega
    | user u =>
      have e1 : mn i = u.mn := (SizeRuns.unique hmin (leaf_min (by unfold sizeQ; rw [hG]; rfl))).1
      obtain ⟨s', e⟩ := h.user i u hG a (by omega)
      have := (ARun.once (o' := .ok _) (by simp) (by simp) hr (.mk (n := 1) (by rw [user_run hG, e]))).2
      have h1 : ((u.behave a).2 : Int) ≤ u.mn := hf a
      rw [this, List.length_drop]; omega
    | _ => exact hf.elim
  · obtain ⟨s', e⟩ := (he.exact hfr).1 (a.take n) (by rw [List.length_take]; omega)
    have := (ARun.once (o' := .ok _) (by simp) (by simp) hr (by
      have := e (a.drop n)
      rwa [List.take_append_drop] at this)).2
    rw [this, List.length_drop]; omega

theorem turn_run {G : Graph} {fl : Flags} {L : Nat} {mn mx : Id → Int} (hA : Ample G fl L mn mx) {K : Nat}
    (l : List Id) (hn : ∀ j ∈ l, 0 ≤ mn j)
    (h : ∀ j ∈ l, ∀ a : ABlob, List.length a ≤ K → mn j ≤ List.length a → ∃ s left, ARun G fl j a (.ok s) left ∧
      List.length left ≤ List.length a)
    (hf : ∀ j ∈ l.dropLast, LeavesRest G fl j (mn j)) (a : ABlob) (ha : List.length a ≤ K)
    (hm : (l.map mn).sum ≤ (List.length a : Int)) :
    ∃ xs left, ATurn G fl l a xs left ∧ List.length left ≤ List.length a := by
  induction l generalizing a with
  | nil => exact ⟨[], a, .nil a, le_rfl⟩
  | cons j l ih =>
    rw [List.map_cons, List.sum_cons] at hm
    have hnn : 0 ≤ (l.map mn).sum := List.sum_nonneg fun x hx => by
      obtain ⟨q, hq, rfl⟩ := List.mem_map.1 hx
      exact hn q (List.mem_cons_of_mem _ hq)
    obtain ⟨s, mid, h1, h2⟩ := h j (List.mem_cons_self ..) a ha (by omega)
    have hm' : (l.map mn).sum ≤ (List.length mid : Int) := by
      cases l with
      | nil => simp
      | cons k l =>
        have := leaves_rest hA (hf j (by simp)) (by omega) h1
        omega
    obtain ⟨xs, left, h3, h4⟩ := ih (fun q hq => hn q (List.mem_cons_of_mem _ hq))
      (fun q hq => h q (List.mem_cons_of_mem _ hq)) (by
        intro q hq
        refine hf q ?_
        cases l with
        | nil => simp at hq
        | cons k l => rw [List.dropLast_cons_of_ne_nil (by simp)]; exact List.mem_cons_of_mem _ hq) mid (by omega) hm'
    exact ⟨s :: xs, left, .cons h1 h3, by omega⟩

theorem leaf_supply {G : Graph} {fl : Flags} {L : Nat} {mn mx : Id → Int} (h : Ample G fl L mn mx) {i : Id} {nd : Node}
    (hG : G i = some nd) (hk : nd.plainKids = []) (hp : ∀ l, nd ≠ .picker l)
    (hl : ∀ r l w m x, nd ≠ .lottery r l w m x) (hv : ∀ cs j u, nd ≠ .seq cs j u) (hset : ∀ cs j u, nd ≠ .set cs j u)
    {a : ABlob} (hlen : List.length a ≤ L) (hm : mn i ≤ List.length a) :
    ∃ s left, ARun G fl i a (.ok s) left ∧ List.length left ≤ List.length a := by
  have hn : G i ≠ none := by rw [hG]; simp
  have hmin := (h.sizes i hn).1
  have hL : L < 1073741823 := h.small
  cases nd with
  | arith t =>
    have e1 : mn i = t.size := (SizeRuns.unique hmin (leaf_min (by unfold sizeQ; rw [hG]; rfl))).1
    obtain ⟨s', e⟩ := (arith_exact (fl := fl) hG).1 (a.take t.size) (by rw [List.length_take]; omega)
    have := e (a.drop t.size)
    rw [List.take_append_drop] at this
    exact ⟨_, _, this, by rw [List.length_drop]; omega⟩
  | dict ws =>
    have e1 : mn i = (chooseStampSize ws.length).1 := (SizeRuns.unique hmin (leaf_min (by unfold sizeQ; rw [hG]; rfl))).1
    obtain ⟨g1, g2⟩ := h.dict i ws hG
    obtain ⟨k, hk, -, e⟩ := (extractDict_abs ws (List.length_pos_iff.2 g1) g2 a).2 (by omega)
    refine ⟨_, _, .mk (n := 1) (by
      unfold extract
      rw [hG]
      show ((extractDict ws a).1, (fl, (extractDict ws a).2)) = _
      rw [e]), by rw [List.length_drop]; omega⟩
  | jsonStr =>
    have e1 : mn i = 8 := (SizeRuns.unique hmin (leaf_min (by unfold sizeQ; rw [hG]; rfl))).1
    have hw : (chooseStampSize lcAlphaSmall.length).1 = 1 := by decide +kernel
    obtain ⟨k, hk, -, e⟩ := (extractDict_abs lcAlphaSmall (by decide +kernel) (by decide +kernel) a).2
      (by rw [hw]; omega)
    rw [hw] at e
    refine ⟨_, _, .mk (n := 1) (by
      unfold extract
      rw [hG]
      have e' : (extractJsonStr : M ABlob Bytes) a = (.ok ([34] ++ lcAlphaSmall[k] ++ [34]), a.drop 1) :=
        M.bind_ok e
      show (((extractJsonStr : M ABlob Bytes) a).1, (fl, ((extractJsonStr : M ABlob Bytes) a).2)) = _
      rw [e']), by rw [List.length_drop]; omega⟩
  | latin1 =>
    have e1 : mn i = 1 := (SizeRuns.unique hmin (leaf_min (by unfold sizeQ; rw [hG]; rfl))).1
    have e := extractText_abs latin1Char a (by omega)
    rw [if_neg (by omega)] at e
    refine ⟨_, [], .mk (n := 1) (by
      unfold extract
      rw [hG]
      show (((extractText latin1Char : M ABlob Bytes) a).1, (fl, ((extractText latin1Char : M ABlob Bytes) a).2)) = _
      rw [e]), Nat.zero_le _⟩
  | ascii =>
    have e1 : mn i = 1 := (SizeRuns.unique hmin (leaf_min (by unfold sizeQ; rw [hG]; rfl))).1
    have e := extractText_abs asciiChar a (by omega)
    rw [if_neg (by omega)] at e
    refine ⟨_, [], .mk (n := 1) (by
      unfold extract
      rw [hG]
      show (((extractText asciiChar : M ABlob Bytes) a).1, (fl, ((extractText asciiChar : M ABlob Bytes) a).2)) = _
      rw [e]), Nat.zero_le _⟩
  | user u =>
    have e1 : mn i = u.mn := (SizeRuns.unique hmin (leaf_min (by unfold sizeQ; rw [hG]; rfl))).1
    obtain ⟨s', e⟩ := h.user i u hG a (by omega)
    exact ⟨s', _, .mk (n := 1) (by rw [user_run hG, e]), by rw [List.length_drop]; omega⟩
  | vec c j => cases hk
  | set cs j u => exact absurd rfl (hset _ _ _)
  | seq cs j u => exact absurd rfl (hv _ _ _)
  | unary op c => cases hk
  | lottery r l w m x => exact absurd rfl (hl _ _ _ _ _)
  | picker l => exact absurd rfl (hp _)

theorem ample_supply {G : Graph} {fl : Flags} {L : Nat} {mn mx : Id → Int} (h : Ample G fl L mn mx) :
    ∀ K ≤ L, ∀ i, G i ≠ none → ∀ a : ABlob, List.length a ≤ K → mn i ≤ List.length a →
      ∃ s left, ARun G fl i a (.ok s) left ∧ List.length left ≤ List.length a := by
  have hL : L < 1073741823 := h.small
  intro K
  induction K using Nat.strong_induction_on with
  | _ K ihK =>
  intro hK i
  induction i using h.guarded.wf.induction with
  | _ i ihI =>
  intro hn a ha hm
  obtain ⟨nd, hG⟩ := Option.ne_none_iff_exists'.1 hn
  have hb := h.sizes i hn
  cases nd with
  | vec c join =>
    have hc : G c ≠ none := h.closed i _ hG c (Or.inl (by simp [Node.plainKids]))
    obtain ⟨b1, b2, b3, b4, b5, b6⟩ := h.sizes c hc
    obtain ⟨v1, v2⟩ := h.vec i c join hG
    have e := (SizeRuns.unique hb.1 (C63_list hG b1 b2 (by omega) v1).1).1
    have e' : vecNeeds (mn c) (mx c) = mn c + enumOverhead (mn c) (mx c) := by
      unfold vecNeeds enumOverhead
      split_ifs <;> omega
    rw [e, e'] at hm
    obtain ⟨n0, parts, left, e, c1, c2, c3, c4⟩ := vec_enough (a := a) b3 (by omega) (by omega) b6 (by
      rcases v2 with ⟨q1, q2, q3⟩ | q
      · refine Or.inl ⟨q1, by omega, le_trans (Int.ediv_le_ediv (by omega) (by omega)) q3⟩
      · exact Or.inr q) hm
    have hov := enumOverhead_nonneg (mn c) (mx c)
    obtain ⟨xs, hx⟩ := pieces_supply (G := G) (fl := fl) (parts.map fun p => (c, p)) (by
      intro q hq
      obtain ⟨p, hp, rfl⟩ := List.mem_map.1 hq
      have := c2 p hp
      obtain ⟨s, l, r, _⟩ := ihI c ⟨_, hG, List.mem_singleton.2 rfl⟩ hc p (by omega) this.1
      exact ⟨s, l, r⟩)
    refine ⟨_, left, (list_ok_iff hG).2 ⟨_, _, parts, xs, b1, b2, ⟨n0, e⟩, ?_, by omega, rfl⟩, by omega⟩
    rw [List.forall₂_map_left_iff] at hx
    exact hx
  | set cs join unb =>
    obtain ⟨s1, s2, s3, s4⟩ := h.set i cs join unb hG
    have hc : ∀ c ∈ cs, G c ≠ none := fun c hc => h.closed i _ hG c (Or.inl hc)
    have hs : HaveSizes G fl cs (cs.map fun c => (mn c, mx c)) := by
      unfold HaveSizes
      rw [List.forall₂_map_right_iff]
      exact List.forall₂_same.2 fun c hcm => ⟨(h.sizes c (hc c hcm)).1, (h.sizes c (hc c hcm)).2.1⟩
    have hfst : (cs.map fun c => (mn c, mx c)).map Prod.fst = cs.map mn := by rw [List.map_map]; rfl
    have hsz : ∀ s ∈ (cs.map fun c => (mn c, mx c)), 0 ≤ s.1 ∧ (s.2 = s.1 ∨ s.2 = -1) := by
      intro s hsm
      obtain ⟨c, hcm, rfl⟩ := List.mem_map.1 hsm
      exact ⟨(h.sizes c (hc c hcm)).2.2.1, s1 c hcm⟩
    have hnn : ∀ x ∈ cs.map mn, 0 ≤ x := by
      intro x hx
      obtain ⟨c, hcm, rfl⟩ := List.mem_map.1 hx
      exact (h.sizes c (hc c hcm)).2.2.1
    have hz : SetSizes (cs.map fun c => (mn c, mx c)) := by
      refine ⟨fun s hsm => ⟨(hsz s hsm).1, ?_⟩, by rw [hfst, List.length_map]; exact s3, ?_⟩
      · obtain ⟨c, hcm, rfl⟩ := List.mem_map.1 hsm
        have := h.sizes c (hc c hcm)
        have := s1 c hcm
        dsimp only
        omega
      · have : ∀ x ∈ (cs.map fun c => (mn c, mx c)).map slack, x = 0 := by
          intro x hx
          obtain ⟨s, h1, rfl⟩ := List.mem_map.1 hx
          unfold slack
          rcases (hsz s h1).2 with e | e
          · rw [e]; split <;> omega
          · rw [if_pos e]
        rw [List.sum_eq_zero this]; decide
    have e := (SizeRuns.unique hb.1 (C63_set hG hs hz (by
      have : ((cs.map fun c => (mn c, mx c)).map fun s => if s.2 = -1 then 0 else s.2).sum ≤ (cs.map mn).sum := by
        rw [List.map_map]
        refine List.sum_le_sum fun c hcm => ?_
        have := h.sizes c (hc c hcm)
        have := s1 c hcm
        show (if mx c = -1 then 0 else mx c) ≤ mn c
        split <;> omega
      refine le_trans (Int.add_le_add_right this _) ?_
      rw [List.length_map]
      omega)).1).1
    have hs4 : (cs.map fun c => (mn c, mx c)).length * (List.length a + 1) ≤ 2 ^ 49 := by
      rw [List.length_map]
      exact le_trans (Nat.mul_le_mul_left _ (by omega)) s4
    obtain ⟨parts, left, h3, h4, h5⟩ := set_supply hsz (by rw [hfst, List.length_map]; exact s3) (by
      rw [List.filter_map, List.length_map]
      exact s2) a (by rw [← e]; exact hm) (by omega) hs4
    have h4l := h4.length_eq
    rw [List.length_map] at h4l
    obtain ⟨xs, hx⟩ := pieces_supply (G := G) (fl := fl) (cs.zip parts) (by
      intro q hq
      obtain ⟨k, hk, rfl⟩ := List.getElem_of_mem hq
      rw [List.length_zip] at hk
      have h6 := (List.forall₂_iff_get.1 h4).2 k (by rw [List.length_map]; omega) (by omega)
      simp only [List.get_eq_getElem, List.getElem_map] at h6
      rw [List.getElem_zip]
      have hcm : cs[k] ∈ cs := List.getElem_mem _
      obtain ⟨s, l, r, _⟩ := ihI cs[k] ⟨_, hG, hcm⟩ (hc _ hcm) parts[k] (le_trans h6.2 ha) h6.1
      exact ⟨s, l, r⟩)
    exact ⟨_, left, (set_ok_iff hG).2 ⟨_, parts, xs, hs, h3, hx, by
      have := List.sum_nonneg hnn
      omega, rfl⟩, by omega⟩
  | seq cs join unb =>
    obtain ⟨s1, s2⟩ := h.seq i cs join unb hG
    have hc : ∀ c ∈ cs, G c ≠ none := fun c hc => h.closed i _ hG c (Or.inl hc)
    have hs : HaveSizes G fl cs (cs.map fun c => (mn c, mx c)) := by
      unfold HaveSizes
      rw [List.forall₂_map_right_iff]
      exact List.forall₂_same.2 fun c hcm => ⟨(h.sizes c (hc c hcm)).1, (h.sizes c (hc c hcm)).2.1⟩
    have hfst : (cs.map fun c => (mn c, mx c)).map Prod.fst = cs.map mn := by rw [List.map_map]; rfl
    have e := (SizeRuns.unique hb.1 (C63_seq hG hs (fun s hsm => by
      obtain ⟨c, hcm, rfl⟩ := List.mem_map.1 hsm
      exact (h.sizes c (hc c hcm)).2.2.1) (by rw [hfst]; exact s2)).1).1
    rw [hfst] at e
    obtain ⟨xs, left, h1, h2⟩ := turn_run h cs (fun j hj => (h.sizes j (hc j hj)).2.2.1)
      (fun j hj a ha hm => ihI j ⟨_, hG, hj⟩ (hc j hj) a ha hm) s1 a ha (by rw [← e]; exact hm)
    exact ⟨_, left, (seq_ok_iff hG).2 ⟨xs, h1, rfl⟩, h2⟩
  | unary op c =>
    have hc : G c ≠ none := h.closed i _ hG c (Or.inl (by simp [Node.plainKids]))
    have e := (SizeRuns.unique hb.1 (C63_unary hG (h.sizes c hc).1).1).1
    obtain ⟨s, left, ⟨n, h1⟩, h2⟩ := ihI c ⟨_, hG, List.mem_singleton.2 rfl⟩ hc a ha (by rw [← e]; exact hm)
    refine ⟨_, left, .mk (n := n + 1) (by
      unfold extract; rw [hG]; dsimp only
      rw [M.bind_ok h1]; rfl), h2⟩
  | lottery r l w smin smax =>
    obtain ⟨hw, hlen, s1, ⟨j0, hj0, hle0⟩, hsum⟩ := h.lottery i r l w smin smax hG
    have hc : ∀ j ∈ l, G j ≠ none := fun j hj => h.closed i _ hG j (Or.inr hj)
    have hs : LotSizes G fl l mn mx := by
      refine ⟨fun j hj => ?_, fun j hj => ?_⟩
      · obtain ⟨b1, b2, b3, b4, b5, b6⟩ := h.sizes j (hc j hj)
        exact ⟨b1, b3, b4⟩
      · obtain ⟨b1, b2, b3, b4, b5, b6⟩ := h.sizes j (hc j hj)
        have := hsum j hj
        exact ⟨b2, by omega⟩
    rw [s1] at hm
    have h00 := (h.sizes j0 (hc j0 hj0)).2.2.1
    obtain ⟨j, hj, d1, d2⟩ := C29_lottery_picks_fitting hG hw hs ⟨j0, hj0, hle0⟩ hlen (bs := a) hm (fun _ => by omega)
    have hwl : w ≤ List.length a := by omega
    have hld : List.length (List.drop w a) = List.length a - w := List.length_drop
    obtain ⟨s, left, h1, h2⟩ := ihK (K - w) (by omega) (by omega) j (hc j hj) (List.drop w a) (by omega)
      (by rw [hld]; exact d1)
    exact ⟨s, left, hand_run d2 (by omega) (by omega) h1, by omega⟩
  | picker pool =>
    obtain ⟨hlen, j0, hj0, hle0⟩ := h.picker i pool hG
    have hc : ∀ j ∈ pool, G j ≠ none := fun j hj => h.closed i _ hG j (Or.inr hj)
    have hs : PoolSizes G fl pool mn mx := by
      refine ⟨fun j hj => ?_, fun j hj => ?_⟩
      · obtain ⟨b1, b2, b3, b4, b5, b6⟩ := h.sizes j (hc j hj)
        exact ⟨b1, b3, b4⟩
      · obtain ⟨b1, b2, b3, b4, b5, b6⟩ := h.sizes j (hc j hj)
        exact ⟨b2, by omega⟩
    have h00 := (h.sizes j0 (hc j0 hj0)).2.2.1
    obtain ⟨j, hj, d1, -, d2⟩ := C31_picks_fitting hG hs hlen (bs := a) ⟨j0, hj0, by omega⟩
    have hj00 := (h.sizes j (hc j hj)).2.2.1
    have hld : List.length (List.drop 2 a) = List.length a - 2 := List.length_drop
    obtain ⟨s, left, h1, h2⟩ := ihK (K - 2) (by omega) (by omega) j (hc j hj) (List.drop 2 a) (by omega)
      (by rw [hld]; omega)
    exact ⟨s, left, hand_run d2 (by omega) (by omega) h1, by omega⟩
  | _ => exact leaf_supply h hG rfl (by simp) (by simp) (by simp) (by simp) (by omega) hm

end BS
