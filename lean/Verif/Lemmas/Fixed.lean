import Verif.Spec.Fixed
import Verif.Props.Sizes
import Verif.Props.Compose
import Verif.Props.Greed
import Verif.Props.GalleyVec

/-!
# Stamps of fixed size: sizes and runs
-/

namespace BS
open BlobLike

variable {G : Graph}

theorem FixedStamp.once {i : Id} {n : Nat} (h : FixedStamp G i n) : ∀ {m : Nat}, FixedStamp G i m → n = m := by
  induction h with
  | arith h => intro m h'; cases h' <;> simp_all
  | dict h _ _ => intro m h'; cases h' <;> simp_all
  | user h _ h1 _ _ _ =>
    intro m h'
    cases h' with
    | user h' _ h1' _ _ _ =>
      rw [h] at h'; injection h' with h'; injection h' with h'; subst h'
      rw [h1] at h1'; exact_mod_cast h1'
    | _ => simp_all
  | seq sz h hc _ ih =>
    intro m h'
    cases h' with
    | seq sz' h' hc' _ =>
      rw [h] at h'; injection h' with h'; injection h' with h' _; subst h'
      rw [List.map_congr_left fun c hcm => ih c hcm (hc' c hcm)]
    | _ => simp_all
  | set sz h hc _ ih =>
    intro m h'
    cases h' with
    | set sz' h' hc' _ =>
      rw [h] at h'; injection h' with h'; injection h' with h' _; subst h'
      rw [List.map_congr_left fun c hcm => ih c hcm (hc' c hcm)]
    | _ => simp_all
  | lottery h _ _ _ _ _ _ =>
    intro m h'
    cases h' with
    | lottery h' _ _ _ _ _ =>
      rw [h] at h'; injection h' with h'; injection h' with _ _ h1 h2 _; omega
    | _ => simp_all
  | picker h hne _ _ _ ih =>
    intro m h'
    cases h' with
    | picker h' _ _ hc' _ =>
      rw [h] at h'; injection h' with h'; injection h' with h'; subst h'
      obtain ⟨c, hcm⟩ := List.exists_mem_of_ne_nil _ hne
      rw [ih c hcm (hc' c hcm)]
    | _ => simp_all

theorem FixedStamp.le {i : Id} {n : Nat} (h : FixedStamp G i n) : (n : Int) ≤ INT_MAX := by
  cases h with
  | arith h => rename_i t; cases t <;> decide
  | dict => split <;> norm_num
  | user _ h => omega
  | seq _ _ _ h => omega
  | set _ _ _ h => omega
  | lottery _ hw _ _ _ h => norm_num at *; omega
  | picker _ _ _ _ h => norm_num at *; omega

/-- Both sizes of stamps given with a size each. -/
theorem forall₂_fixed {fl : Flags} {sz : Id → Nat} : ∀ {cs : List Id},
    (∀ c ∈ cs, HasMin G fl c (sz c) ∧ HasMax G fl c (sz c)) →
    HaveSizes G fl cs (cs.map fun c => ((sz c : Int), (sz c : Int)))
  | [], _ => .nil
  | c :: cs, h => .cons (h c (by simp)) (forall₂_fixed fun d hd => h d (List.mem_cons_of_mem _ hd))

theorem map_fst_pairs (cs : List Id) (sz : Id → Nat) :
    ((cs.map fun c => ((sz c : Int), (sz c : Int))).map Prod.fst).sum = ((cs.map sz).sum : Nat) ∧
    ((cs.map fun c => ((sz c : Int), (sz c : Int))).map Prod.snd).sum = ((cs.map sz).sum : Nat) := by
  induction cs with
  | nil => exact ⟨rfl, rfl⟩
  | cons c cs ih =>
    simp only [List.map_cons, List.sum_cons]
    rw [ih.1, ih.2]
    push_cast
    exact ⟨rfl, rfl⟩

theorem fixed_setSizes {cs : List Id} {sz : Id → Nat} (hn : ((cs.map sz).sum : Nat) + 2 * ((cs.length : Int) + 1) ≤ INT_MAX) :
    SetSizes (cs.map fun c => ((sz c : Int), (sz c : Int))) := by
  have hle : ∀ c ∈ cs, sz c ≤ (cs.map sz).sum := fun c hc => List.single_le_sum (by simp) _ (List.mem_map_of_mem hc)
  refine ⟨?_, ?_, ?_⟩
  · intro s hs
    obtain ⟨c, hc, rfl⟩ := List.mem_map.1 hs
    have := hle c hc
    dsimp only
    omega
  · rw [(map_fst_pairs cs sz).1, List.length_map]; exact hn
  · have : ((cs.map fun c => ((sz c : Int), (sz c : Int))).map slack).sum = 0 := by
      rw [List.map_map]
      refine List.sum_eq_zero ?_
      intro x hx
      obtain ⟨c, -, rfl⟩ := List.mem_map.1 hx
      simp [slack]
    rw [this]; norm_num

theorem fixed_filters (cs : List Id) (sz : Id → Nat) :
    (cs.map fun c => ((sz c : Int), (sz c : Int))).filter (fun s => decide (IsVariated s)) = [] ∧
    (cs.map fun c => ((sz c : Int), (sz c : Int))).filter (fun s => decide (s.2 = -1)) = [] := by
  constructor <;>
  · rw [List.filter_eq_nil_iff]
    intro s hs
    obtain ⟨c, -, rfl⟩ := List.mem_map.1 hs
    simp [IsVariated]

theorem fixed_needs (cs : List Id) (sz : Id → Nat) :
    setNeeds (cs.map fun c => ((sz c : Int), (sz c : Int))) = ((cs.map sz).sum : Nat) ∧
    setTakes (cs.map fun c => ((sz c : Int), (sz c : Int))) = ((cs.map sz).sum : Nat) := by
  obtain ⟨h1, h2⟩ := fixed_filters cs sz
  obtain ⟨e1, e2⟩ := map_fst_pairs cs sz
  have hu : ¬ ∃ s ∈ (cs.map fun c => ((sz c : Int), (sz c : Int))), s.2 = -1 := by
    rintro ⟨s, hs, he⟩
    have := List.filter_eq_nil_iff.1 h2 s hs
    simp [he] at this
  constructor
  · unfold setNeeds
    rw [h1, h2, e1, if_neg (by simp), if_neg (fun h => hu h.2)]
    simp
  · unfold setTakes
    rw [if_neg hu, h1, e2]
    simp

/-- A stamp of fixed size `n` reports `n` as both its sizes, as long as no picker inside it is marked. -/
theorem FixedStamp.sizes {i : Id} {n : Nat} (h : FixedStamp G i n) : ∀ {fl : Flags},
    (∀ k m, FixedStamp G k m → m ≤ n → fl k = ⟨false, false⟩) → HasMin G fl i n ∧ HasMax G fl i n := by
  induction h with
  | arith h =>
    intro fl _
    constructor <;>
    · refine SizeRuns.intro (n := 1) ?_
      unfold sizeQ; rw [h]; rfl
  | @dict i ws h h1 h2 =>
    intro fl _
    have e : (chooseStampSize ws.length).1 = if ws.length ≤ 256 then 1 else 2 := by
      unfold chooseStampSize
      split
      · rfl
      · rfl
    constructor <;>
    · refine SizeRuns.intro (n := 1) ?_
      unfold sizeQ; rw [h, ← e]; rfl
  | user h _ h1 h2 _ _ =>
    intro fl _
    constructor
    · refine SizeRuns.intro (n := 1) ?_
      unfold sizeQ; rw [h, ← h1]; rfl
    · refine SizeRuns.intro (n := 1) ?_
      unfold sizeQ; rw [h, ← h2]; rfl
  | @seq i cs join sz h hc hn ih =>
    intro fl hfl
    have hle : ∀ c ∈ cs, sz c ≤ (cs.map sz).sum := fun c hc => List.single_le_sum (by simp) _ (List.mem_map_of_mem hc)
    have hs := forall₂_fixed (G := G) (fl := fl) (sz := sz) (cs := cs) fun c hcm => ih c hcm fun k m hk hm =>
      hfl k m hk (le_trans hm (hle c hcm))
    obtain ⟨e1, e2⟩ := map_fst_pairs cs sz
    have := C63_seq h hs (by intro s hs; obtain ⟨c, -, rfl⟩ := List.mem_map.1 hs; simp) (by rw [e1]; omega)
    rw [e1, e2] at this
    exact ⟨this.1, this.2.2 rfl (by intro s hs; obtain ⟨c, -, rfl⟩ := List.mem_map.1 hs; simp) (by omega)⟩
  | @set i cs join sz h hc hn ih =>
    intro fl hfl
    have hle : ∀ c ∈ cs, sz c ≤ (cs.map sz).sum := fun c hc => List.single_le_sum (by simp) _ (List.mem_map_of_mem hc)
    have hs := forall₂_fixed (G := G) (fl := fl) (sz := sz) (cs := cs) fun c hcm => ih c hcm fun k m hk hm =>
      hfl k m hk (le_trans hm (hle c hcm))
    have := C63_set h hs (fixed_setSizes (by omega)) (by
      have : ((cs.map fun c => ((sz c : Int), (sz c : Int))).map fun s => if s.2 = -1 then 0 else s.2) =
          (cs.map fun c => ((sz c : Int), (sz c : Int))).map Prod.snd := by
        refine List.map_congr_left ?_
        intro s hs
        obtain ⟨c, -, rfl⟩ := List.mem_map.1 hs
        dsimp only
        rw [if_neg (by omega)]
      rw [this, (map_fst_pairs cs sz).2, List.length_map]
      omega)
    rw [(fixed_needs cs sz).1, (fixed_needs cs sz).2] at this
    exact this
  | @lottery i rec4 cs w n h hw hne hl hc hn ih =>
    intro fl _
    have hck : ckInt ((n : Int) + w) = .ok (((n + w : Nat) : Int)) := by
      rw [ckInt_ok (by omega) (by omega)]; norm_num
    constructor
    · refine SizeRuns.intro (n := 1) ?_
      unfold sizeQ; rw [h]
      show (ckInt ((n : Int) + w), fl) = _
      rw [hck]
    · refine SizeRuns.intro (n := 1) ?_
      unfold sizeQ; rw [h]
      dsimp only
      rw [if_neg (by omega)]
      show (ckInt ((n : Int) + w), fl) = _
      rw [hck]
  | @picker i cs n h hne hl hc hn ih =>
    intro fl hfl
    have hi : FixedStamp G i (n + 2) := .picker h hne hl hc hn
    have hfi := hfl i _ hi (le_refl _)
    have hs : ∀ c ∈ cs, HasMin G (fl.setIn i true) c (n : Nat) ∧ HasMax G (fl.setIn i true) c (n : Nat) := by
      intro c hcm
      refine ih c hcm fun k m hk hm => ?_
      have hki : k ≠ i := by
        rintro rfl
        have := hi.once hk
        omega
      unfold Flags.setIn
      rw [if_neg hki]
      exact hfl k m hk (by omega)
    obtain ⟨⟨m, ⟨⟨j, hj, ej⟩, -⟩, hmin⟩, -, hmax⟩ := C63_picker h hne (by rw [hfi]) (by rw [hfi])
      (mn := fun _ => (n : Int)) (mx := fun _ => (n : Int)) (fun j hj => (hs j hj).1) (fun j hj => (hs j hj).2)
      (fun _ _ => by omega) (by
        obtain ⟨c, hcm⟩ := List.exists_mem_of_ne_nil _ hne
        exact ⟨c, hcm, by norm_num; omega⟩) (fun _ _ => Or.inr ⟨by omega, by norm_num; omega⟩)
    obtain ⟨m', ⟨⟨j', hj', ej'⟩, -⟩, hmax⟩ := hmax (fun _ _ => by omega)
    subst ej; subst ej'
    exact ⟨by exact_mod_cast hmin, by exact_mod_cast hmax⟩


/-! ## Runs -/

/-- Takes exactly `n` bytes: given that many it returns a text that depends on them only and leaves the rest; given
fewer it throws. -/
def TakesExactly (G : Graph) (fl : Flags) (i : Id) (n : Nat) : Prop :=
  (∀ p : Bytes, p.length = n → ∃ s, ∀ rest : Bytes, ARun G fl i (p ++ rest) (.ok s) rest) ∧
  ∀ a : Bytes, a.length < n → ∃ left, ARun G fl i a .outOfData left

theorem pairs_eq (cs : List Id) (sz : Id → Nat) :
    (cs.map fun c => ((sz c : Int), (sz c : Int))) = fixedSizes (cs.map sz) := by
  unfold fixedSizes
  rw [List.map_map]
  rfl

theorem ARun.mk {fl : Flags} {i : Id} {a a' : ABlob} {o : Out Bytes} (n : Nat)
    (h : extract G n i (fl, a) = (o, (fl, a'))) : ARun G fl i a o a' := ⟨n, h⟩

/-- Stamps that take exact sizes, one after the other. -/
theorem turn_exact {fl : Flags} {sz : Id → Nat} : ∀ {cs : List Id}, (∀ c ∈ cs, TakesExactly G fl c (sz c)) →
    (∀ p : Bytes, p.length = (cs.map sz).sum → ∃ xs, ∀ rest : Bytes, ATurn G fl cs (p ++ rest) xs rest) ∧
    ∀ a : Bytes, a.length < (cs.map sz).sum → ∃ pre q post xs mid left, cs = pre ++ q :: post ∧
      ATurn G fl pre a xs mid ∧ ARun G fl q mid .outOfData left
  | [], _ => ⟨fun p hp => ⟨[], fun rest => by
      have : p = [] := List.length_eq_zero_iff.1 (by simpa using hp)
      rw [this]; exact .nil _⟩, fun a ha => absurd ha (by simp)⟩
  | c :: cs, h => by
    obtain ⟨h1, h2⟩ := h c (by simp)
    obtain ⟨t1, t2⟩ := turn_exact (cs := cs) fun d hd => h d (by simp [hd])
    rw [List.map_cons, List.sum_cons]
    refine ⟨fun p hp => ?_, fun a ha => ?_⟩
    · obtain ⟨s, hs⟩ := h1 (p.take (sz c)) (by rw [List.length_take]; omega)
      obtain ⟨xs, hxs⟩ := t1 (p.drop (sz c)) (by rw [List.length_drop]; omega)
      refine ⟨s :: xs, fun rest => ?_⟩
      have := hs (p.drop (sz c) ++ rest)
      rw [← List.append_assoc, List.take_append_drop] at this
      exact .cons this (hxs rest)
    · by_cases hc : a.length < sz c
      · obtain ⟨left, hl⟩ := h2 a hc
        exact ⟨[], c, cs, [], a, left, rfl, .nil _, hl⟩
      · obtain ⟨s, hs⟩ := h1 (a.take (sz c)) (by rw [List.length_take]; omega)
        have := hs (a.drop (sz c))
        rw [List.take_append_drop] at this
        obtain ⟨pre, q, post, xs, mid, left, e, e1, e2⟩ := t2 (a.drop (sz c)) (by rw [List.length_drop]; omega)
        exact ⟨c :: pre, q, post, s :: xs, mid, left, by rw [e]; rfl, .cons this e1, e2⟩

/-- Stamps that take exact sizes, applied to slices of these sizes. -/
theorem slices_exact {fl : Flags} {sz : Id → Nat} : ∀ {cs : List Id}, (∀ c ∈ cs, TakesExactly G fl c (sz c)) →
    ∀ p : Bytes, p.length = (cs.map sz).sum → ∃ xs, ∀ rest : Bytes,
      List.Forall₂ (PieceRun G fl) (cs.zip (slices (cs.map sz) (p ++ rest))) xs
  | [], _, p, _ => ⟨[], fun _ => .nil⟩
  | c :: cs, h, p, hp => by
    rw [List.map_cons, List.sum_cons] at hp
    obtain ⟨s, hs⟩ := (h c (by simp)).1 (p.take (sz c)) (by rw [List.length_take]; omega)
    obtain ⟨xs, hxs⟩ := slices_exact (cs := cs) (fun d hd => h d (by simp [hd])) (p.drop (sz c))
      (by rw [List.length_drop]; omega)
    refine ⟨s :: xs, fun rest => ?_⟩
    have h1 := hs []
    rw [List.append_nil] at h1
    have e1 : List.take (sz c) (p ++ rest) = p.take (sz c) := List.take_append_of_le_length (by omega)
    have e2 : List.drop (sz c) (p ++ rest) = p.drop (sz c) ++ rest := List.drop_append_of_le_length (by omega)
    show List.Forall₂ _ ((c, List.take (sz c) (p ++ rest)) :: cs.zip (slices (cs.map sz) (List.drop (sz c) (p ++ rest)))) _
    rw [e1, e2]
    exact .cons ⟨_, h1⟩ (hxs rest)

theorem seq_exact {fl : Flags} {i : Id} {cs : List Id} {join : List Bytes → Bytes} {unb : Bool} {sz : Id → Nat}
    (h : G i = some (.seq cs join unb)) (hc : ∀ c ∈ cs, TakesExactly G fl c (sz c)) :
    TakesExactly G fl i (cs.map sz).sum := by
  obtain ⟨t1, t2⟩ := turn_exact hc
  refine ⟨fun p hp => ?_, fun a ha => ?_⟩
  · obtain ⟨xs, hxs⟩ := t1 p hp
    exact ⟨join xs, fun rest => (seq_ok_iff h).2 ⟨xs, hxs rest, rfl⟩⟩
  · obtain ⟨pre, q, post, xs, mid, left, e, e1, e2⟩ := t2 a ha
    exact ⟨left, (seq_ood_iff h).2 ⟨pre, q, post, xs, mid, e, e1, e2⟩⟩

theorem set_exact {fl : Flags} {i : Id} {cs : List Id} {join : List Bytes → Bytes} {unb : Bool} {sz : Id → Nat}
    (h : G i = some (.set cs join unb)) (hs : ∀ c ∈ cs, HasMin G fl c (sz c) ∧ HasMax G fl c (sz c))
    (hc : ∀ c ∈ cs, TakesExactly G fl c (sz c)) (hn : (cs.map sz).sum + 2 * (cs.length + 1) ≤ INT_MAX) :
    TakesExactly G fl i (cs.map sz).sum := by
  have hz := forall₂_fixed hs
  rw [pairs_eq] at hz
  refine ⟨fun p hp => ?_, fun a ha => ?_⟩
  · obtain ⟨xs, hxs⟩ := slices_exact hc p hp
    refine ⟨join xs, fun rest => (set_ok_iff h).2 ⟨_, _, xs, hz, ?_, hxs rest, by omega, rfl⟩⟩
    rw [setSplit_fixed _ (by omega), if_neg (by rw [List.length_append]; omega)]
    congr 1
    rw [← hp, List.drop_left]
  · have e := setSplit_fixed (cs.map sz) (by omega) a
    rw [if_pos ha] at e
    exact ⟨a, (set_ood_iff h).2 ⟨_, hz, Or.inl e⟩⟩


theorem pickCandidates_same {n L : Nat} (h : n ≤ L) (pool : List Id) :
    pickCandidates (fun _ => (n : Int)) (fun _ => (n : Int)) L pool = pool := by
  unfold pickCandidates
  dsimp only
  have e1 : pool.filter (fun _ => decide ((n : Int) ≤ L)) = pool := by
    rw [List.filter_eq_self]; intro _ _; simpa using h
  rw [e1]
  split
  · next hne =>
    rw [List.filter_eq_self]
    intro a _
    obtain ⟨b, hb⟩ := List.exists_mem_of_ne_nil _ hne
    exact (List.mem_filter.1 hb).2
  · rfl

theorem picker_exact {fl : Flags} {i : Id} {cs : List Id} {n : Nat} (h : G i = some (.picker cs)) (hne : cs ≠ [])
    (hl : cs.length ≤ 2 ^ 53) (hn : n < 2 ^ 30 - 8) (hi : HasMin G fl i (n + 2 : Nat))
    (hs : ∀ c ∈ cs, HasMin G fl c n ∧ HasMax G fl c n) (hc : ∀ c ∈ cs, TakesExactly G fl c n) :
    TakesExactly G fl i (n + 2) := by
  have hps : PoolSizes G fl cs (fun _ => (n : Int)) (fun _ => (n : Int)) :=
    ⟨fun j hj => ⟨(hs j hj).1, by omega, by omega⟩, fun j hj => ⟨(hs j hj).2, Or.inr ⟨by omega, by omega⟩⟩⟩
  have hpos := List.length_pos_iff.2 hne
  refine ⟨fun p hp => ?_, fun a ha => ?_⟩
  · have ho : leNat (p.take 2) ≤ 65535 := by
      have := leNat_take_lt p 2
      omega
    obtain ⟨k, e, _, hk⟩ := C09_proportion_in_range (o := leNat (p.take 2)) (mn := 0) (mx := cs.length - 1) ho (by omega)
      (by omega)
    have hk' : k < cs.length := by omega
    obtain ⟨s, hs'⟩ := (hc cs[k] (List.getElem_mem hk')).1 (p.drop 2) (by rw [List.length_drop]; omega)
    refine ⟨s, fun rest => ?_⟩
    obtain ⟨N, hN⟩ := picker_head h hps (bs := p ++ rest) (by rw [List.length_append]; omega)
    rw [pickCandidates_same (by rw [List.length_append]; omega), List.take_append_of_le_length (by omega),
      List.drop_append_of_le_length (by omega)] at hN
    obtain ⟨N', hN'⟩ := hs' rest
    refine .mk (max N N' + 1) ?_
    have hne' : ¬ cs.isEmpty = true := by rw [List.isEmpty_iff]; exact hne
    rw [hN _ (by omega), if_neg hne', show toSz ((cs.length : Int) - 1) = cs.length - 1 by
        rw [toSz_of_nonneg (by omega) (by omega)]; omega,
      M.bind_ok (show (M.lift (oracleProportion _ _ _) : XM ABlob Nat) _ = (.ok k, _) from
        by show (oracleProportion _ _ _, _) = _; rw [e]),
      M.bind_ok (show (M.lift (vecGet _ _) : XM ABlob Id) _ = (.ok _, _) from
        by show (vecGet _ _, _) = _; rw [vecGet_nat hk' (by omega)])]
    exact lift_run (by omega) (by simp) hN'
  · obtain ⟨N, hN⟩ := picker_short h hps hi (by push_cast; omega) (bs := a) (fun j _ => by omega) (by push_cast; omega)
    exact ⟨_, N, hN N (le_refl _)⟩

theorem lotFilter_same {rec4 : Bool} {qmin qmax : Id → M Flags Int} {fl : Flags} {n : Nat} (hn : n < 2 ^ 30 - 8)
    {l : List Id} (hmin : ∀ j ∈ l, qmin j fl = (.ok (n : Int), fl)) (hmax : ∀ j ∈ l, qmax j fl = (.ok (n : Int), fl))
    (a : ABlob) :
    lotFilter rec4 qmin qmax l (fl, a) =
      (.ok (if n ≤ List.length a ∧ (rec4 = false ∨ wrap32 (List.length a) < (n : Int) + n) then l else []), (fl, a)) := by
  induction l with
  | nil => simp only [ite_self]; rfl
  | cons i l ih =>
    have ih := ih (fun j hj => hmin j (by simp [hj])) (fun j hj => hmax j (by simp [hj]))
    have h1 := hmin i (by simp)
    have h2 := hmax i (by simp)
    unfold lotFilter
    have e1 : (liftF (qmin i) : XM ABlob Int) (fl, a) = (.ok (n : Int), (fl, a)) := by
      unfold liftF; rw [h1]
    have e2 : (curSize : XM ABlob Nat) (fl, a) = (.ok (List.length a), (fl, a)) := rfl
    rw [M.bind_ok e1, M.bind_ok e2, toSz_natCast (by omega)]
    by_cases hc : List.length a < n
    · rw [if_pos hc, ih, if_neg (by omega), if_neg (by omega)]
    rw [if_neg hc]
    have e3 : (liftF (softFilter rec4 qmin qmax i (wrap32 (List.length a))) : XM ABlob Bool) (fl, a) =
        (.ok (decide (rec4 = false ∨ wrap32 (List.length a) < (n : Int) + n)), (fl, a)) := by
      unfold liftF softFilter
      cases rec4 with
      | false => rfl
      | true =>
        dsimp only
        simp only [Bool.not_true, Bool.false_eq_true, if_false, Bool.true_eq_false, false_or]
        rw [M.bind_ok h2]
        by_cases hw : wrap32 (List.length a) < n
        · rw [if_pos (Or.inr hw), decide_eq_true (by omega)]; rfl
        · rw [if_neg (by omega), M.bind_ok h1,
            M.bind_ok (show (M.lift (ckInt ((n : Int) + n)) : M Flags Int) fl = (.ok ((n : Int) + n), fl) by
              rw [ckInt_ok (by omega) (by omega)]; rfl)]
          rfl
    rw [M.bind_ok e3, M.bind_ok ih]
    by_cases hd : rec4 = false ∨ wrap32 (List.length a) < (n : Int) + n
    · have hq : n ≤ List.length a ∧ (rec4 = false ∨ wrap32 (List.length a) < (n : Int) + n) := ⟨by omega, hd⟩
      rw [decide_eq_true hd, if_pos hq, if_pos hq]; rfl
    · have hq : ¬ (n ≤ List.length a ∧ (rec4 = false ∨ wrap32 (List.length a) < (n : Int) + n)) := fun x => hd x.2
      rw [decide_eq_false hd, if_neg hq, if_neg hq]; rfl

theorem lottery_exact {fl : Flags} {i : Id} {rec4 : Bool} {cs : List Id} {w n : Nat} {smin smax : Int}
    (h : G i = some (.lottery rec4 cs w smin smax)) (hw : w = 1 ∨ w = 2 ∨ w = 4 ∨ w = 8) (hne : cs ≠ [])
    (hl : cs.length ≤ 2 ^ 53) (hn : n < 2 ^ 30 - 8)
    (hs : ∀ c ∈ cs, HasMin G fl c n ∧ HasMax G fl c n) (hc : ∀ c ∈ cs, TakesExactly G fl c n) :
    TakesExactly G fl i (n + w) := by
  have hpos := List.length_pos_iff.2 hne
  obtain ⟨N1, h1⟩ := exists_common cs fun j hj => (hs j hj).1
  obtain ⟨N2, h2⟩ := exists_common cs fun j hj => (hs j hj).2
  obtain ⟨ty, hty⟩ := uOracleTy_width hw
  obtain ⟨u1, u2⟩ := uMax_bounds hw
  have hne' : ¬ cs.isEmpty = true := by rw [List.isEmpty_iff]; exact hne
  have he' : ([] : List Id).isEmpty = true := rfl
  -- the choice, whatever the size of the blob
  have key : ∀ m ≥ max N1 N2, ∀ a : Bytes, w ≤ a.length → extract G (m + 1) i (fl, (a : ABlob)) =
      (if a.length < n + w then M.throwOOD else do
          let k ← M.lift (scaledIndex (leNat (a.take w)) (uMax w) cs.length)
          let j ← M.lift (vecGet cs k)
          extract G m j : XM ABlob Bytes) (fl, a.drop w) := by
    intro m hm a ha
    have e2 := fun r => lotFilter_same (rec4 := r) hn (fun j hj => h1 m (by omega) j hj)
      (fun j hj => h2 m (by omega) j hj) (a.drop w)
    conv_lhs => unfold extract
    rw [h]
    dsimp only
    have e1 : liftB (uOracle w) (fl, (a : ABlob)) = (.ok (leNat (a.take w)), (fl, a.drop w)) := by
      unfold liftB
      dsimp only
      rw [uOracle_abs hty, if_neg (by omega)]
    rw [M.bind_ok e1, M.bind_ok (e2 rec4)]
    rw [List.length_drop] at e2 ⊢
    by_cases hlt : a.length < n + w
    · have hq : ∀ q : Prop, ¬ (n ≤ a.length - w ∧ q) := fun _ x => by have := x.1; omega
      have f1 : ∀ r, (if n ≤ a.length - w ∧ (r = false ∨ wrap32 ((a.length - w : Nat) : Int) < (n : Int) + n) then cs
          else []) = [] := fun r => if_neg (hq _)
      have e4 : (if ([] : List Id).isEmpty = true then lotFilter false (sizeQ G m .min) (sizeQ G m .max) cs
          else pure [] : XM ABlob (List Id)) (fl, a.drop w) = (.ok [], (fl, a.drop w)) := by
        rw [if_pos he', e2 false, f1]
      rw [f1, M.bind_ok e4, if_pos he', if_pos hlt]
    · rw [if_neg hlt]
      have e4 : (if (if n ≤ a.length - w ∧ (rec4 = false ∨ wrap32 ((a.length - w : Nat) : Int) < (n : Int) + n) then cs
            else []).isEmpty = true then lotFilter false (sizeQ G m .min) (sizeQ G m .max) cs
          else pure (if n ≤ a.length - w ∧ (rec4 = false ∨ wrap32 ((a.length - w : Nat) : Int) < (n : Int) + n) then cs
            else []) : XM ABlob (List Id)) (fl, a.drop w) = (.ok cs, (fl, a.drop w)) := by
        by_cases hq : n ≤ a.length - w ∧ (rec4 = false ∨ wrap32 ((a.length - w : Nat) : Int) < (n : Int) + n)
        · rw [if_pos hq, if_neg hne']; rfl
        · rw [if_neg hq, if_pos he', e2 false, if_pos ⟨by omega, Or.inl rfl⟩]
      rw [M.bind_ok e4, if_neg hne']
  refine ⟨fun p hp => ?_, fun a ha => ?_⟩
  · have ho : leNat (p.take w) ≤ uMax w := by
      have := leNat_take_lt p w
      unfold uMax; omega
    obtain ⟨k, e, hk⟩ := scaledIndex_lt u1 ho u2 hpos (by omega)
    obtain ⟨s, hs'⟩ := (hc cs[k] (List.getElem_mem hk)).1 (p.drop w) (by rw [List.length_drop]; omega)
    refine ⟨s, fun rest => ?_⟩
    obtain ⟨N', hN'⟩ := hs' rest
    refine .mk (max (max N1 N2) N' + 1) ?_
    rw [key _ (by omega) _ (by rw [List.length_append]; omega), if_neg (by rw [List.length_append]; omega),
      List.take_append_of_le_length (by omega), List.drop_append_of_le_length (by omega),
      M.bind_ok (show (M.lift (scaledIndex _ _ _) : XM ABlob Int) _ = (.ok (k : Int), _) from
        by show (scaledIndex _ _ _, _) = _; rw [e]),
      M.bind_ok (show (M.lift (vecGet _ _) : XM ABlob Id) _ = (.ok _, _) from
        by show (vecGet _ _, _) = _; rw [vecGet_nat hk (by omega)])]
    exact lift_run (by omega) (by simp) hN'
  · by_cases haw : a.length < w
    · refine ⟨a, .mk 1 ?_⟩
      unfold extract
      rw [h]
      dsimp only
      have e1 : liftB (uOracle w) (fl, (a : ABlob)) = (.outOfData, (fl, a)) := by
        unfold liftB
        dsimp only
        rw [uOracle_abs hty, if_pos haw]
      rw [M.bind_ood e1]
    · refine ⟨a.drop w, .mk (max N1 N2 + 1) ?_⟩
      rw [key _ (le_refl _) _ (by omega), if_pos ha]
      rfl

theorem arith_exact {fl : Flags} {i : Id} {t : ArithTy} (h : G i = some (.arith t)) : TakesExactly G fl i t.size := by
  refine ⟨fun p hp => ?_, fun a ha => ⟨a, .mk 1 ?_⟩⟩
  · obtain ⟨s, hs⟩ := toString_ok t hp
    refine ⟨s, fun rest => .mk 1 ?_⟩
    unfold extract; rw [h]
    show liftB (extractArithStr t) (fl, p ++ rest) = _
    unfold liftB
    dsimp only
    rw [extractArithStr_abs, if_neg (by rw [List.length_append]; omega), List.take_append_of_le_length (by omega),
      List.drop_append_of_le_length (by omega), ← hp, List.take_length, List.drop_length]
    rw [hs]; rfl
  · unfold extract; rw [h]
    show liftB (extractArithStr t) (fl, a) = _
    unfold liftB
    dsimp only
    rw [extractArithStr_abs, if_pos ha]

theorem dict_exact {fl : Flags} {i : Id} {ws : List Bytes} (h : G i = some (.dict ws)) (h1 : 1 ≤ ws.length)
    (h2 : ws.length ≤ 65536) : TakesExactly G fl i (if ws.length ≤ 256 then 1 else 2) := by
  have e : (chooseStampSize ws.length).1 = if ws.length ≤ 256 then 1 else 2 := by
    unfold chooseStampSize
    split
    · rfl
    · rfl
  rw [← e]
  refine ⟨fun p hp => ?_, fun a ha => ⟨a, .mk 1 ?_⟩⟩
  · obtain ⟨k, hk, hi, -⟩ := (extractDict_abs ws h1 (by omega) p).2 (by omega)
    refine ⟨ws[k], fun rest => .mk 1 ?_⟩
    obtain ⟨k', hk', hi', e'⟩ := (extractDict_abs ws h1 (by omega) (p ++ rest)).2 (by rw [List.length_append]; omega)
    rw [List.take_append_of_le_length (by omega)] at hi'
    rw [hi] at hi'
    have : k = k' := by injection hi' with hi'; omega
    subst this
    unfold extract; rw [h]
    show liftB (extractDict ws) (fl, p ++ rest) = _
    unfold liftB
    dsimp only
    rw [e', List.drop_append_of_le_length (by omega), ← hp, List.drop_length]; rfl
  · unfold extract; rw [h]
    show liftB (extractDict ws) (fl, a) = _
    unfold liftB
    dsimp only
    rw [(extractDict_abs ws h1 (by omega) a).1 ha]

theorem user_run {fl : Flags} {i : Id} {u : UserStamp} (h : G i = some (.user u)) (n : Nat) (a : ABlob) :
    extract G (n + 1) i (fl, a) = ((u.behave a).1, (fl, List.drop (min (u.behave a).2 (List.length a)) a)) := by
  unfold extract; rw [h]
  dsimp only
  have e1 : (liftB (fun b => (view b, b)) : XM ABlob Bytes) (fl, a) = (.ok a, (fl, a)) := rfl
  have e2 : (curSize : XM ABlob Nat) (fl, a) = (.ok (List.length a), (fl, a)) := rfl
  have e3 : (liftB (chop (min (u.behave a).2 (List.length a))) : XM ABlob ABlob) (fl, a) =
      (.ok (List.take (min (u.behave a).2 (List.length a)) a),
        (fl, List.drop (min (u.behave a).2 (List.length a)) a)) := by
    unfold liftB
    dsimp only
    rw [chop_abs, if_neg (by omega)]
  rw [M.bind_ok e1, M.bind_ok e2, M.bind_ok e3]
  rfl

theorem FixedStamp.exact {i : Id} {n : Nat} (h : FixedStamp G i n) {fl : Flags} (hf : Fresh G fl) :
    TakesExactly G fl i n := by
  induction h with
  | arith h => exact arith_exact h
  | dict h h1 h2 => exact dict_exact h h1 h2
  | @user i u n h hn h1 h2 hs he =>
    have hx := user_run (fl := fl) h 0
    refine ⟨fun p hp => ?_, fun a ha => ⟨_, .mk 1 (by rw [hx, hs a ha])⟩⟩
    obtain ⟨s, he⟩ := he p hp
    refine ⟨s, fun rest => .mk 1 ?_⟩
    have he := he rest
    rw [hx]
    show ((u.behave (p ++ rest)).1, (fl, List.drop (min (u.behave (p ++ rest)).2 (p ++ rest).length) (p ++ rest))) = _
    rw [he, min_eq_left (by rw [List.length_append]; omega), ← hp, List.drop_left]
  | seq sz h hc hn ih => exact seq_exact h ih
  | set sz h hc hn ih =>
    exact set_exact h (fun c hcm => (hc c hcm).sizes fun k m hk _ => hf k m hk) ih hn
  | lottery h hw hne hl hc hn ih =>
    exact lottery_exact h hw hne hl hn (fun c hcm => (hc c hcm).sizes fun k m hk _ => hf k m hk) ih
  | picker h hne hl hc hn ih =>
    have hp := (FixedStamp.picker h hne hl hc hn).sizes (fl := fl) fun k m hk _ => hf k m hk
    exact picker_exact h hne hl hn hp.1 (fun c hcm => (hc c hcm).sizes fun k m hk _ => hf k m hk) ih

theorem ExactStamp.exact {i : Id} {n : Nat} (h : ExactStamp G i n) {fl : Flags} (hf : Fresh G fl) :
    TakesExactly G fl i n := by
  induction h with
  | fixed h => exact h.exact hf
  | @unary i c op n h hc ih =>
    obtain ⟨i1, i2⟩ := ih
    refine ⟨fun p hp => ?_, fun a ha => ?_⟩
    · obtain ⟨s, hs⟩ := i1 p hp
      refine ⟨unaryText op s, fun rest => ?_⟩
      obtain ⟨N, hN⟩ := hs rest
      refine .mk (N + 1) ?_
      unfold extract; rw [h]
      dsimp only
      rw [M.bind_ok hN]; rfl
    · obtain ⟨left, N, hN⟩ := i2 a ha
      refine ⟨left, .mk (N + 1) ?_⟩
      unfold extract; rw [h]
      dsimp only
      rw [M.bind_ood hN]
  | seq sz h hc ih => exact seq_exact h ih
  | set sz h hc hn =>
    exact set_exact h (fun c hcm => (hc c hcm).sizes fun k m hk _ => hf k m hk) (fun c hcm => (hc c hcm).exact hf) hn

end BS
