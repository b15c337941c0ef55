import Verif.Spec.Short
import Verif.Lemmas.Enough
import Verif.Props.GalleySet
import Verif.Props.Load

/-!
# Short data is refused (C59)
-/

namespace BS
open BlobLike

/-- Leaves: what an exacting leaf does. -/
theorem exacting_runs {G : Graph} {fl : Flags} {i : Id} {nd : Node} (hG : G i = some nd) (he : nd.Exacting)
    {a : ABlob} (hl : List.length a < 2 ^ 63) {m : Int} (hm : HasMin G fl i m) :
    ((List.length a : Int) < m → ∃ a' : ABlob, ∀ n, extract G (n + 1) i (fl, a) = (.outOfData, (fl, a'))) ∧
    (m ≤ (List.length a : Int) → ∃ s, ∃ a' : ABlob, (∀ n, extract G (n + 1) i (fl, a) = (.ok s, (fl, a'))) ∧
      m + List.length a' ≤ List.length a) := by
  have hm' : ∀ {v : Int}, sizeQ G 1 .min i fl = (.ok v, fl) → m = v := fun h =>
    (SizeRuns.unique hm (leaf_min h)).1
  cases nd with
  | arith t =>
    obtain rfl := hm' (v := t.size) (by unfold sizeQ; rw [hG]; rfl)
    have hx : ∀ n, extract G (n + 1) i (fl, a) = liftB (extractArithStr t) (fl, a) := by
      intro n; unfold extract; rw [hG]
    have e := extractArithStr_abs t a
    refine ⟨fun h => ⟨a, fun n => ?_⟩, fun h => ?_⟩
    · rw [if_pos (by omega)] at e
      rw [hx]; unfold liftB; rw [e]
    · obtain ⟨s, hs⟩ := toString_ok t (bs := List.take t.size a) (by rw [List.length_take]; omega)
      rw [if_neg (by omega), hs] at e
      refine ⟨s, List.drop t.size a, fun n => ?_, by rw [List.length_drop]; omega⟩
      rw [hx]; unfold liftB; rw [e]
  | dict ws =>
    obtain rfl := hm' (v := (chooseStampSize ws.length).1) (by unfold sizeQ; rw [hG]; rfl)
    have hx : ∀ n, extract G (n + 1) i (fl, a) = liftB (extractDict ws) (fl, a) := by
      intro n; unfold extract; rw [hG]
    obtain ⟨e1, e2⟩ := extractDict_abs ws (List.length_pos_iff.2 he.1) he.2 a
    refine ⟨fun h => ⟨a, fun n => ?_⟩, fun h => ?_⟩
    · rw [hx]; unfold liftB; rw [e1 (by omega)]
    · obtain ⟨k, hk, -, e⟩ := e2 (by omega)
      refine ⟨ws[k], List.drop (chooseStampSize ws.length).1 a, fun n => ?_, by rw [List.length_drop]; omega⟩
      rw [hx]; unfold liftB; rw [e]
  | latin1 =>
    obtain rfl := hm' (v := 1) (by unfold sizeQ; rw [hG]; rfl)
    have hx : ∀ n, extract G (n + 1) i (fl, a) = liftB (extractText latin1Char) (fl, a) := by
      intro n; unfold extract; rw [hG]
    have e := extractText_abs latin1Char a (by omega)
    refine ⟨fun h => ⟨a, fun n => ?_⟩, fun h => ⟨List.map latin1Char a, [], fun n => ?_, by show (1 : Int) + (0 : Nat) ≤ _; omega⟩⟩
    · rw [hx]; unfold liftB; rw [e, if_pos (by omega)]
    · rw [hx]; unfold liftB; rw [e, if_neg (by omega)]
  | ascii =>
    obtain rfl := hm' (v := 1) (by unfold sizeQ; rw [hG]; rfl)
    have hx : ∀ n, extract G (n + 1) i (fl, a) = liftB (extractText asciiChar) (fl, a) := by
      intro n; unfold extract; rw [hG]
    have e := extractText_abs asciiChar a (by omega)
    refine ⟨fun h => ⟨a, fun n => ?_⟩, fun h => ⟨List.map asciiChar a, [], fun n => ?_, by show (1 : Int) + (0 : Nat) ≤ _; omega⟩⟩
    · rw [hx]; unfold liftB; rw [e, if_pos (by omega)]
    · rw [hx]; unfold liftB; rw [e, if_neg (by omega)]
  | user u =>
    obtain rfl := hm' (v := u.mn) (by unfold sizeQ; rw [hG]; rfl)
    have hx : ∀ n, extract G (n + 1) i (fl, a) =
        ((u.behave a).1, (fl, List.drop (min (u.behave a).2 (List.length a)) a)) := by
      intro n; unfold extract; rw [hG]
      dsimp only
      have e1 : (liftB (fun b => (view b, b)) : XM ABlob Bytes) (fl, a) = (.ok a, (fl, a)) := rfl
      have e2 : (curSize : XM ABlob Nat) (fl, a) = (.ok (List.length a), (fl, a)) := rfl
      have e3 : (liftB (chop (min (u.behave a).2 (List.length a))) : XM ABlob ABlob) (fl, a) =
          (.ok (List.take (min (u.behave a).2 (List.length a)) a),
            (fl, List.drop (min (u.behave a).2 (List.length a)) a)) := by
        unfold liftB
        dsimp only
        rw [chop_abs, if_neg (by omega)]
      rw [M.bind_ok e1, M.bind_ok e2, M.bind_ok e3]
      rfl
    obtain ⟨h0, h1, h2⟩ := he
    refine ⟨fun h => ⟨_, fun n => by rw [hx, h1 _ h]⟩, fun h => ?_⟩
    obtain ⟨⟨s, hs⟩, h3⟩ := h2 _ h
    exact ⟨s, _, fun n => by rw [hx, hs], by rw [List.length_drop]; omega⟩
  | _ => exact he.elim

theorem strict_short {G : Graph} {fl : Flags} (hi : Idle fl) {i : Id} (h : Strict G fl i) :
    ∀ {bs : Bytes}, bs.length < 2 ^ 63 → ∀ {m : Int}, HasMin G fl i m → (bs.length : Int) < m →
      ∃ left : ABlob, Extracts G fl i (bs : ABlob) .outOfData fl left := by
  induction h with
  | leaf hG he =>
    intro bs hl m hm hlt
    obtain ⟨a', e⟩ := (exacting_runs hG he (a := bs) hl hm).1 hlt
    exact ⟨a', Extracts.intro (e 0) (by simp)⟩
  | @fixedVec i c join k hG h1 h2 h0 h3 =>
    intro bs hl m hm hlt
    have := (SizeRuns.unique hm (min_vec hG h1 h2)).1
    unfold vecMinSize at this
    rw [if_pos rfl] at this
    subst this
    obtain ⟨N1, h1⟩ := h1
    obtain ⟨N2, h2⟩ := h2
    refine ⟨bs, Extracts.intro (n := max N1 N2 + 1) ?_ (by simp)⟩
    unfold extract
    rw [hG]
    dsimp only
    have e1 : (liftF (sizeQ G (max N1 N2) .min c) : XM ABlob Int) (fl, bs) = (.ok m, (fl, bs)) := by
      unfold liftF; rw [h1 _ (by omega)]
    have e2 : (liftF (sizeQ G (max N1 N2) .max c) : XM ABlob Int) (fl, bs) = (.ok m, (fl, bs)) := by
      unfold liftF; rw [h2 _ (by omega)]
    have e3 : (liftB (vecSplit (max N1 N2) m m) : XM ABlob _) (fl, bs) = (.outOfData, (fl, bs)) := by
      unfold liftB
      dsimp only
      rw [vecSplit_small h0 h3 hlt]
    rw [M.bind_ok e1, M.bind_ok e2, M.bind_ood e3]
  | @unary i op c hG _ ih =>
    intro bs hl m hm hlt
    have hn : ∃ v, HasMin G fl c v := by
      obtain ⟨N, hN⟩ := hm
      refine ⟨m, N, fun n hn => ?_⟩
      have := hN (n + 1) (by omega)
      unfold sizeQ at this
      rw [hG] at this
      exact this
    obtain ⟨v, hv⟩ := hn
    have := (SizeRuns.unique hm (min_unary hG hv)).1
    subst this
    obtain ⟨left, N, hN⟩ := ih hl hv hlt
    refine ⟨left, Extracts.intro (n := N + 1) ?_ (by simp)⟩
    unfold extract
    rw [hG]
    dsimp only
    rw [M.bind_ood (hN N (le_refl _))]
  | @seq i cs c join unb hG hcs _ ih =>
    intro bs hl m hm hlt
    obtain ⟨vs, hvs, rfl⟩ := min_seq_inv hG hm
    have key : ∀ (cs : List Id), (∀ j ∈ cs, ∃ nd, G j = some nd ∧ nd.Exacting) → ∀ {vs : List Int},
        List.Forall₂ (fun c x => HasMin G fl c x) (cs ++ [c]) vs → ∀ {bs : Bytes}, bs.length < 2 ^ 63 →
        (bs.length : Int) < vs.sum → ∃ (n : Nat) (left : ABlob),
          extractSeq (extract G n) (cs ++ [c]) (fl, (bs : ABlob)) = (.outOfData, (fl, left)) := by
      intro cs
      induction cs with
      | nil =>
        intro _ vs hvs bs hl hlt
        cases hvs with
        | cons h1 h2 =>
          cases h2
          obtain ⟨left, N, hN⟩ := ih hl h1 (by simpa using hlt)
          refine ⟨N, left, ?_⟩
          show extractSeq _ [c] _ = _
          unfold extractSeq
          rw [M.bind_ood (hN N (le_refl _))]
      | cons j js ihj =>
        intro hcs vs hvs bs hl hlt
        cases hvs with
        | @cons _ v _ vs h1 h2 =>
          obtain ⟨nd, hj, hE⟩ := hcs j (by simp)
          obtain ⟨r1, r2⟩ := exacting_runs hj hE (a := bs) hl h1
          rcases lt_or_ge (bs.length : Int) v with hv | hv
          · obtain ⟨a', e⟩ := r1 hv
            refine ⟨1, a', ?_⟩
            show extractSeq _ (j :: (js ++ [c])) _ = _
            unfold extractSeq
            rw [M.bind_ood (e 0)]
          · obtain ⟨s, a', e, hle⟩ := r2 hv
            have hv0 : 0 ≤ v := by
              obtain ⟨N, hN⟩ := h1
              have := hN (N + 1) (by omega)
              unfold sizeQ at this
              rw [hj] at this
              cases nd with
              | arith t =>
                have := (Prod.mk.inj this).1
                injection this with this
                omega
              | dict ws =>
                have := (Prod.mk.inj this).1
                injection this with this
                omega
              | latin1 =>
                have := (Prod.mk.inj this).1
                injection this with this
                dsimp only at this
                omega
              | ascii =>
                have := (Prod.mk.inj this).1
                injection this with this
                dsimp only at this
                omega
              | user u =>
                have := (Prod.mk.inj this).1
                injection this with this
                have := hE.1
                dsimp only at *
                omega
              | _ => exact hE.elim
            rw [List.sum_cons] at hlt
            obtain ⟨n, left, e2⟩ := ihj (fun k hk => hcs k (List.mem_cons_of_mem _ hk)) h2
              (bs := a') (by omega) (by omega)
            have e2' : extractSeq (extract G (n + 1)) (js ++ [c]) (fl, (a' : ABlob)) = (.outOfData, (fl, left)) := by
              rcases fle_extractSeq (fun j => fle_extract (β := ABlob) G (Nat.le_succ n) j) (js ++ [c]) (fl, a') with e | e
              · rw [e2] at e; cases e
              · rw [← e, e2]
            refine ⟨n + 1, left, ?_⟩
            show extractSeq _ (j :: (js ++ [c])) _ = _
            unfold extractSeq
            rw [M.bind_ok (e n), M.bind_ood e2']
    obtain ⟨n, left, e⟩ := key cs hcs hvs hl hlt
    refine ⟨left, Extracts.intro (n := n + 1) ?_ (by simp)⟩
    unfold extract
    rw [hG]
    dsimp only
    rw [M.bind_ood e]
  | @set i cs join unb ss hG hss hz =>
    intro bs hl m hm hlt
    obtain ⟨N, hN⟩ := queryAll_sizes hss
    obtain ⟨N', hm⟩ := hm
    have hm' : setMinSize ss = .ok m := by
      have := hm (max N N' + 1) (by omega)
      unfold sizeQ at this
      rw [hG] at this
      dsimp only at this
      rw [M.bind_ok (hN _ (by omega)).1, M.bind_ok (hN _ (by omega)).2, zip_fst_snd] at this
      exact (Prod.mk.inj this).1
    refine ⟨bs, Extracts.intro (n := N + 1) ?_ (by simp)⟩
    unfold extract
    rw [hG]
    dsimp only
    have e1 : (liftF (queryAll (sizeQ G N .min) cs) : XM ABlob _) (fl, bs) = (.ok (ss.map Prod.fst), (fl, bs)) := by
      unfold liftF; rw [(hN _ (le_refl _)).1]
    have e2 : (liftF (queryAll (sizeQ G N .max) cs) : XM ABlob _) (fl, bs) = (.ok (ss.map Prod.snd), (fl, bs)) := by
      unfold liftF; rw [(hN _ (le_refl _)).2]
    have e3 : (liftB (setSplit ss) : XM ABlob _) (fl, bs) = (.outOfData, (fl, bs)) := by
      unfold liftB
      dsimp only
      rw [setSplit_short hz hm' hlt]
    rw [M.bind_ok e1, M.bind_ok e2, zip_fst_snd, M.bind_ood e3]
  | @lottery i r l w smin smax hG hw hj =>
    intro bs hl m hm hlt
    have hmv : m = smin + w := by
      obtain ⟨N, hm⟩ := hm
      have := hm (N + 1) (by omega)
      unfold sizeQ at this
      rw [hG] at this
      have := (Prod.mk.inj this).1
      rcases ckInt_cases (smin + w) with e | e
      · rw [e] at this; injection this with this; exact this.symm
      · rw [e] at this; cases this
    subst hmv
    obtain ⟨ty, hty⟩ := uOracleTy_width hw
    have eo := uOracle_abs hty bs
    by_cases hlw : bs.length < w
    · rw [if_pos hlw] at eo
      refine ⟨bs, Extracts.intro (n := 1) ?_ (by simp)⟩
      unfold extract
      rw [hG]
      dsimp only
      have e1 : (liftB (uOracle w) : XM ABlob _) (fl, bs) = (.outOfData, (fl, bs)) := by
        unfold liftB
        dsimp only
        rw [eo]
      rw [M.bind_ood e1]
    · rw [if_neg hlw] at eo
      have hf : ∃ N, ∀ r, lotFilter r (sizeQ G N .min) (sizeQ G N .max) l (fl, (bs.drop w : ABlob)) =
          (.ok [], (fl, bs.drop w)) := by
        have hN : ∃ N, ∀ j ∈ l, ∃ m, sizeQ G N .min j fl = (.ok m, fl) ∧ smin ≤ m ∧ m ≤ INT_MAX := by
          choose! mm h1 h2 h3 using hj
          obtain ⟨N, hN⟩ := exists_common l h1
          exact ⟨N, fun j hj => ⟨mm j, hN N (le_refl _) j hj, h2 j hj, h3 j hj⟩⟩
        obtain ⟨N, hN⟩ := hN
        refine ⟨N, fun r => ?_⟩
        clear hG hj
        induction l with
        | nil => rfl
        | cons j js ih =>
          obtain ⟨mj, q1, q2, q3⟩ := hN j (by simp)
          unfold lotFilter
          have e1 : (liftF (sizeQ G N .min j) : XM ABlob Int) (fl, bs.drop w) = (.ok mj, (fl, bs.drop w)) := by
            unfold liftF; rw [q1]
          have e2 : (curSize : XM ABlob Nat) (fl, bs.drop w) = (.ok (bs.length - w), (fl, bs.drop w)) := by
            show (Out.ok (bs.drop w).length, _) = _
            rw [List.length_drop]
          rw [M.bind_ok e1, M.bind_ok e2, if_pos]
          · exact ih fun k hk => hN k (List.mem_cons_of_mem _ hk)
          · rw [toSz_of_nonneg (by omega) (by omega)]; omega
      obtain ⟨N, hf⟩ := hf
      refine ⟨bs.drop w, Extracts.intro (n := N + 1) ?_ (by simp)⟩
      unfold extract
      rw [hG]
      dsimp only
      have e1 : (liftB (uOracle w) : XM ABlob _) (fl, bs) = (.ok (leNat (bs.take w)), (fl, bs.drop w)) := by
        unfold liftB
        dsimp only
        rw [eo]
      rw [M.bind_ok e1, M.bind_ok (hf r), if_pos (by rfl), M.bind_ok (hf false), if_pos (by rfl)]
      rfl
  | @picker i pool k hg hG hk hk2 =>
    intro bs hl m hm hlt
    have hn : G i ≠ none := by rw [hG]; simp
    have hs := pool_sizes hg hG fl
    have hmb := hg.mn_bounds hn fl
    rw [mnv_eq hm] at hmb
    have hle : ∀ j ∈ pool, m ≤ mnv G fl j + 2 := by
      intro j hj
      have hc : G j ≠ none := hg.closed i _ hG j (Or.inr hj)
      have hkm := (SizeRuns.unique hm hk).1
      by_cases hlt : mnv G fl j + 2 < INT_MAX / 2
      · have hd : Derives G fl i (mnv G fl j + 2) :=
          .pick hG hj (C34_converse hg (hg.hasMin hc fl) (by omega))
        obtain ⟨v, hv, hv'⟩ := C34_least_derivation hg hi ⟨_, hd, hlt⟩
        rw [(SizeRuns.unique hm hv).1]
        exact hv'.2 hd
      · omega
    exact ⟨_, picker_short hG hs hm hmb.2 (fun j hj => by have := hle j hj; omega) (by omega)⟩

/-- **C59.** A strict stamp applied to fewer bytes than its `minSize()` throws `OutOfData`. -/
theorem C59_short_refused_partial {G : Graph} {fl : Flags} (hi : Idle fl) {i : Id} (h : Strict G fl i) {m : Int}
    (hm : HasMin G fl i m) {b : Blob} {bs : Bytes} (hr : Reachable b) (hh : Holds b bs)
    (hlt : (bs.length : Int) < m) : ∃ left, Throws G fl i b left := by
  obtain ⟨left, he⟩ := strict_short hi h (holds_length_lt hr.valid hh) hm hlt
  exact ⟨left, Throws.intro hr.valid hh he⟩

/-- C59 for JSON: fewer than ten bytes are refused. -/
theorem C59_json {b : Blob} {bs : Bytes} (hr : Reachable b) (hh : Holds b bs) (hlt : bs.length < 10) :
    ∃ left, Throws jsonGraph Flags.init 0 b left := by
  have hm : HasMin jsonGraph Flags.init 0 10 := hasSize_eval 9 (by decide +kernel)
  exact C59_short_refused_partial (fun _ => rfl) (.picker jsonGraph_grammar rfl hm (by norm_num)) hm hr hh (by omega)

/-- Grammar for examples: a point "X, Y" of two stamps applied in turn, a lottery over it and a word. -/
def shortG : Graph
  | 0 => some (.unary [45] 1)
  | 1 => some (.seq [2, 3] (fun xs => xs.flatten) false)
  | 2 => some (.arith .i16)
  | 3 => some (.lottery false [2, 4] 1 2 4)
  | 4 => some (.arith .i32)
  | 5 => some (.enumerator 6 [44] [] [])
  | 6 => some .latin1
  | _ => none

example {b : Blob} {bs : Bytes} (hr : Reachable b) (hh : Holds b bs) (hlt : bs.length < 5) :
    ∃ left, Throws shortG Flags.init 0 b left := by
  refine C59_short_refused_partial (fun _ => rfl) ?_ (m := 5) (hasSize_eval 4 (by decide +kernel)) hr hh (by omega)
  refine .unary (op := [45]) (c := 1) rfl (.seq (cs := [2]) (c := 3) rfl ?_ (.lottery rfl (.inl rfl) ?_))
  · intro j hj
    rw [List.mem_singleton.1 hj]
    exact ⟨_, rfl, trivial⟩
  · intro j hj
    rcases List.mem_cons.1 hj with rfl | hj
    · exact ⟨2, hasSize_eval 1 (by decide +kernel), by norm_num, by norm_num⟩
    · rw [List.mem_singleton.1 hj]
      exact ⟨4, hasSize_eval 1 (by decide +kernel), by norm_num, by norm_num⟩

/-- **C59 is violated** by enumerators over stamps of varying size: one over `StampStringLatin1` asks for 5
bytes, and given 4 it returns the text of an empty list. It is violated by `StampJSONHashEl` as well: an element
asks for 18 bytes and does with 11, since its name takes 1 byte instead of 8. -/
theorem C59_violated {b b' : Blob} (hr : Reachable b) (hh : Holds b [7, 9, 65, 66]) (hr' : Reachable b')
    (hh' : Holds b' [0, 0, 0, 1, 0, 0, 0, 0, 0, 0, 0]) :
    (HasMin shortG Flags.init 5 5 ∧ Returns shortG Flags.init 5 b [] [65, 66]) ∧
    (HasMin jsonGraph Flags.init 6 18 ∧ ∃ s left, Returns jsonGraph Flags.init 6 b' s left) := by
  refine ⟨⟨hasSize_eval 3 (by decide +kernel), Returns.intro hr.valid hh (Extracts.intro (n := 3)
    (extract_eval (by decide +kernel) (by decide +kernel)) (by simp))⟩, hasSize_eval 9 (by decide +kernel),
    "\"a\": 1".toUTF8.toList, [], ?_⟩
  exact Returns.intro hr'.valid hh' (Extracts.intro (n := 9)
    (extract_eval (by decide +kernel) (by decide +kernel)) (by simp))

/-! ## C60: a refused extraction gives its bytes back -/

theorem uOracle_intact {w : Nat} {a a' : ABlob} (h : (uOracle w : M ABlob Nat) a = (.outOfData, a')) : a' = a := by
  cases ht : uOracleTy w with
  | none => unfold uOracle at h; rw [ht] at h; cases h
  | some ty =>
    rw [uOracle_abs ht] at h
    split at h
    · exact (Prod.mk.inj h).2.symm
    · cases h

theorem scaledIndex_noThrow (o m n : Nat) : scaledIndex o m n ≠ .outOfData := by
  unfold scaledIndex
  dsimp only
  generalize FV.mul f64 _ _ = v
  cases v with
  | fin q =>
    show (if _ then _ else _ : Out Int).bind _ ≠ _
    split <;> simp [Out.bind]
  | _ => simp [FV.toIntRange, Out.bind]

theorem extractDict_intact {ws : List Bytes} {a a' : ABlob}
    (h : (extractDict ws : M ABlob Bytes) a = (.outOfData, a')) : a' = a := by
  unfold extractDict at h
  rcases M.bind_eq_ood.1 h with h | ⟨o, a1, -, h⟩
  · exact uOracle_intact h
  rcases M.bind_eq_ood.1 h with h | ⟨k, a2, -, h⟩
  · exact absurd (Prod.mk.inj h).1 (scaledIndex_noThrow _ _ _)
  · have := (Prod.mk.inj h).1
    unfold vecGet at this
    split at this <;> cases this

theorem liftB_ood {β α : Type} {m : M β α} {s s' : Flags × β} (h : liftB m s = (.outOfData, s')) :
    m s.2 = (.outOfData, s'.2) := by
  unfold liftB at h
  obtain ⟨h1, h2⟩ := Prod.mk.inj h
  subst h2
  exact Prod.ext h1 rfl

theorem liftF_noThrow {β : Type} {α : Type} {m : M Flags α} (hk : KeepsF m) {s s' : Flags × β} :
    liftF m s ≠ (.outOfData, s') := by
  intro h
  unfold liftF at h
  exact (hk s.1).1 (Prod.mk.inj h).1

theorem extractEach_noThrow {ex : Id → XM ABlob Bytes} (hk : ∀ i, KeepsX (ex i)) {fl : Flags} :
    ∀ (l : List (Id × ABlob)), (∀ q ∈ l, (ex q.1 (fl, q.2)).1 ≠ .outOfData) → ∀ (k : Int) (a : ABlob),
      (extractEach ex k l (fl, a)).1 ≠ .outOfData := by
  intro l
  induction l with
  | nil => intro _ k a h; cases h
  | cons q l ih =>
    intro hl k a h
    obtain ⟨i, c⟩ := q
    have h' : extractEach ex k ((i, c) :: l) (fl, a) = (.outOfData, (extractEach ex k ((i, c) :: l) (fl, a)).2) :=
      Prod.ext h rfl
    unfold extractEach at h'
    rcases M.bind_eq_ood.1 h' with h1 | ⟨x, s1, h1, h'⟩
    · exact hl (i, c) (by simp) (Prod.mk.inj h1).1
    obtain ⟨left, e1, e2⟩ := onBlob_ok h1
    have e3 : s1.1 = fl := keeps_ok (s := (fl, c)) (s' := (s1.1, left)) (hk i) e1
    obtain ⟨fl1, a1⟩ := s1
    dsimp only at e3 e2
    subst e3 e2
    rcases M.bind_eq_ood.1 h' with h2 | ⟨k', s2, h2, h'⟩
    · have h2 := (Prod.mk.inj h2).1
      rcases ckInt_cases (k + 1) with e | e <;> rw [e] at h2 <;> cases h2
    cases congrArg Prod.snd h2
    rcases M.bind_eq_ood.1 h' with h3 | ⟨ys, s3, h3, h'⟩
    · exact ih (fun q hq => hl q (List.mem_cons_of_mem _ hq)) k' a1 (Prod.mk.inj h3).1
    · cases h'

theorem intact_throw {G : Graph} {fl : Flags} {i : Id} (h : Intact G fl i) :
    ∀ {bs : Bytes} {fl' : Flags} {left : ABlob}, bs.length < 2 ^ 63 →
      Extracts G fl i (bs : ABlob) .outOfData fl' left → left = bs := by
  induction h with
  | @leaf i nd hG hn =>
    intro bs fl' left hl ⟨n, h⟩
    replace h := h (n + 1) (by omega)
    unfold extract at h
    rw [hG] at h
    cases nd with
    | arith t =>
      have := liftB_ood h
      rw [extractArithStr_abs] at this
      dsimp only at this
      split at this
      · exact (Prod.mk.inj this).2.symm
      · obtain ⟨s, hs⟩ := toString_ok t (bs := bs.take t.size) (by rw [List.length_take]; omega)
        have := (Prod.mk.inj this).1
        rw [hs] at this; cases this
    | dict ws => exact extractDict_intact (liftB_ood h)
    | jsonStr =>
      have := liftB_ood h
      unfold extractJsonStr at this
      rcases M.bind_eq_ood.1 this with h | ⟨o, a1, -, h⟩
      · exact extractDict_intact h
      · cases h
    | latin1 =>
      have := liftB_ood h
      rw [extractText_abs latin1Char bs (by omega)] at this
      split at this
      · exact (Prod.mk.inj this).2.symm
      · cases this
    | ascii =>
      have := liftB_ood h
      rw [extractText_abs asciiChar bs (by omega)] at this
      split at this
      · exact (Prod.mk.inj this).2.symm
      · cases this
    | user u =>
      have e1 : (liftB (fun b => (view b, b)) : XM ABlob Bytes) (fl, bs) = (.ok bs, (fl, bs)) := rfl
      have e2 : (curSize : XM ABlob Nat) (fl, bs) = (.ok bs.length, (fl, bs)) := rfl
      have e3 : (liftB (chop (min (u.behave bs).2 bs.length)) : XM ABlob ABlob) (fl, bs) =
          (.ok (bs.take (min (u.behave bs).2 bs.length)), (fl, bs.drop (min (u.behave bs).2 bs.length))) := by
        unfold liftB
        dsimp only
        rw [chop_abs, if_neg (by omega)]
      dsimp only at h
      rw [M.bind_ok e1, M.bind_ok e2, M.bind_ok e3] at h
      obtain ⟨h1, h2⟩ := Prod.mk.inj h
      have h3 := hn bs h1
      rw [h3, Nat.zero_min, List.drop_zero] at h2
      exact (Prod.mk.inj h2).2.symm
    | _ => exact hn.elim
  | @unary i op c hG _ ih =>
    intro bs fl' left hl ⟨n, h⟩
    replace h := h (n + 1) (by omega)
    unfold extract at h
    rw [hG] at h
    dsimp only at h
    rcases M.bind_eq_ood.1 h with h | ⟨x, s1, -, h⟩
    · exact ih hl (Extracts.intro h (by simp))
    · cases h
  | @fixedVec i c join nd m hG hc hE h1 h2 h0 h3 =>
    intro bs fl' left hl ⟨N, h⟩
    obtain ⟨n, hn⟩ : ∃ n, n = N + bs.length + 1 := ⟨_, rfl⟩
    replace h := h (n + 1) (by omega)
    unfold extract at h
    rw [hG] at h
    dsimp only at h
    rcases M.bind_eq_ood.1 h with h | ⟨mn, s1, e1, h⟩
    · exact absurd h (liftF_noThrow (keeps_sizeQ _ _ _ _))
    obtain ⟨q1, rfl⟩ := liftF_ok (keeps_sizeQ _ _ _ _) e1
    rcases M.bind_eq_ood.1 h with h | ⟨mx, s2, e2, h⟩
    · exact absurd h (liftF_noThrow (keeps_sizeQ _ _ _ _))
    obtain ⟨q2, rfl⟩ := liftF_ok (keeps_sizeQ _ _ _ _) e2
    have em : mn = m := (SizeRuns.unique (SizeRuns.intro q1) h1).1
    have ex : mx = m := (SizeRuns.unique (SizeRuns.intro q2) h2).1
    subst em ex
    obtain ⟨k, rfl⟩ : ∃ k : Nat, mx = k := ⟨mx.toNat, by omega⟩
    by_cases hlt : (bs.length : Int) < k
    · have e3 : (liftB (vecSplit n k k) : XM ABlob _) (fl, bs) = (.outOfData, (fl, bs)) := by
        unfold liftB
        dsimp only
        rw [vecSplit_small (by omega) h3 hlt]
      rw [M.bind_ood e3] at h
      exact (Prod.mk.inj (Prod.mk.inj h).2).2.symm
    · exfalso
      obtain ⟨parts, left', e, c1, c2, c3⟩ := fixedLoop_abs (k := k) (by omega) (by omega) n bs (by
        have := Nat.div_le_self bs.length k
        omega)
      have e3 : (liftB (vecSplit n k k) : XM ABlob _) (fl, bs) = (.ok parts, (fl, left')) := by
        unfold liftB
        dsimp only
        rw [vecSplit_enough (by omega) h3 (by omega), if_pos rfl, e]
      rw [M.bind_ok e3] at h
      rcases M.bind_eq_ood.1 h with h | ⟨xs, s4, -, h⟩
      · refine extractEach_noThrow (fun j => keeps_extract G n j) _ ?_ 0 left' (congrArg Prod.fst h)
        intro q hq
        obtain ⟨p, hp, rfl⟩ := List.mem_map.1 hq
        have hpl := c2 p hp
        obtain ⟨s, a', ee, -⟩ := (exacting_runs hc hE (a := p) (by omega) h1).2 (by omega)
        obtain ⟨n', rfl⟩ : ∃ n', n = n' + 1 := ⟨n - 1, by omega⟩
        dsimp only
        rw [ee n']
        simp
      · cases h

/-- **C60.** When an intact stamp throws `OutOfData`, the blob holds what it held before. -/
theorem C60_throw_keeps_data_partial {G : Graph} {fl : Flags} {i : Id} (h : Intact G fl i) {b : Blob} {bs left : Bytes}
    (hr : Reachable b) (hh : Holds b bs) (ht : Throws G fl i b left) : left = bs := by
  obtain ⟨n, hn⟩ := ht.inv hr hh
  exact intact_throw h (holds_length_lt hr.valid hh) ⟨n, hn⟩

/-- Grammar for examples: an operator over a list of integers, two integers read in turn, a lottery of both. -/
def intactG : Graph
  | 0 => some (.unary [45] 1)
  | 1 => some (.enumerator 2 [44] [91] [93])
  | 2 => some (.arith .i32)
  | 3 => some (.seq [2, 2] (fun xs => xs.flatten) false)
  | 4 => some (.lottery false [2, 3] 1 4 8)
  | _ => none

theorem intactG_intact : Intact intactG Flags.init 0 :=
  .unary (op := [45]) (c := 1) rfl (.fixedVec (c := 2) (m := 4) rfl rfl trivial (hasSize_eval 1 (by decide +kernel))
    (hasSize_eval 1 (by decide +kernel)) (by norm_num) (by norm_num))

example {b : Blob} {left : Bytes} (hr : Reachable b) (hh : Holds b [1, 2, 3])
    (ht : Throws intactG Flags.init 0 b left) : left = [1, 2, 3] := C60_throw_keeps_data_partial intactG_intact hr hh ht

theorem throw_eval {G : Graph} {fl : Flags} {i : Id} {n : Nat} {a left : ABlob}
    (h1 : (extract G n i (fl, a)).1 = .outOfData) (h2 : (extract G n i (fl, a)).2.2 = left) :
    extract G n i (fl, a) = (.outOfData, (fl, left)) :=
  Prod.ext h1 (Prod.ext (keeps_extract G n i (fl, a) (Or.inr h1)) h2)

example {b : Blob} (hr : Reachable b) (hh : Holds b [1, 2, 3]) : Throws intactG Flags.init 0 b [1, 2, 3] :=
  Throws.intro hr.valid hh (Extracts.intro (n := 3) (throw_eval (by decide +kernel) (by decide +kernel)) (by simp))

/-- **C60 is violated** by stamps made of several: two integers read in turn (as in README.md's ComplexIntStamp)
keep the first one's bytes when the second throws; a lottery and a JSON stamp keep their oracle. -/
theorem C60_violated {b b' : Blob} (hr : Reachable b) (hh : Holds b [1, 2, 3, 4, 5]) (hr' : Reachable b')
    (hh' : Holds b' [1, 2, 3, 4]) :
    Throws intactG Flags.init 3 b [5] ∧ Throws intactG Flags.init 4 b' [2, 3, 4] ∧
      Throws jsonGraph Flags.init 0 b [3, 4, 5] := by
  refine ⟨Throws.intro hr.valid hh (Extracts.intro (n := 2) (throw_eval (by decide +kernel) (by decide +kernel)) (by simp)),
    Throws.intro hr'.valid hh' (Extracts.intro (n := 4) (throw_eval (by decide +kernel) (by decide +kernel)) (by simp)),
    Throws.intro hr.valid hh (Extracts.intro (n := 10) (throw_eval (by decide +kernel) (by decide +kernel)) (by simp))⟩

end BS
