import Verif.Spec.Variated
import Verif.Lemmas.Fixed

/-!
# Stamps of bounded size: sizes and what runs take
-/

namespace BS
open BlobLike

variable {G : Graph} {N : Nat}

theorem sum_le_sum_of {cs : List Id} {f g : Id → Nat} (h : ∀ c ∈ cs, f c ≤ g c) : (cs.map f).sum ≤ (cs.map g).sum := by
  induction cs with
  | nil => exact le_refl _
  | cons c cs ih =>
    simp only [List.map_cons, List.sum_cons]
    exact Nat.add_le_add (h c (by simp)) (ih fun d hd => h d (by simp [hd]))

theorem VarStamp.bounds {i : Id} {lo hi : Nat} (h : VarStamp G N i lo hi) : lo ≤ hi ∧ (hi : Int) ≤ INT_MAX := by
  induction h with
  | arith h => rename_i t; cases t <;> decide
  | dict => split <;> norm_num
  | user _ h1 h2 => omega
  | seq lo hi _ _ h ih => exact ⟨sum_le_sum_of fun c hc => (ih c hc).1, by omega⟩
  | @set i cs join lo hi _ _ h _ ih =>
    have := sum_le_sum_of fun c hc => (ih c hc).1
    have := List.countP_le_length (p := fun c => decide (lo c ≠ hi c)) (l := cs)
    omega
  | @lottery i rec4 cs w a b lo hi _ hw hne _ hm h ih =>
    obtain ⟨c, hc⟩ := List.exists_mem_of_ne_nil _ hne
    have := hm c hc
    have := (ih c hc).1
    omega
  | @picker i cs a b lo hi _ _ hm ha _ h _ ih =>
    obtain ⟨c, hc, _⟩ := ha
    have := hm c hc
    have := (ih c hc).1
    omega

theorem VarStamp.once {i : Id} {lo hi : Nat} (h : VarStamp G N i lo hi) :
    ∀ {lo' hi' : Nat}, VarStamp G N i lo' hi' → lo = lo' ∧ hi = hi' := by
  induction h with
  | arith h => intro lo' hi' h'; cases h' <;> simp_all
  | dict h _ _ => intro lo' hi' h'; cases h' <;> simp_all
  | user h _ _ h1 h2 _ =>
    intro lo' hi' h'
    cases h' with
    | user h' _ _ h1' h2' _ =>
      rw [h] at h'; injection h' with h'; injection h' with h'; subst h'
      rw [h1] at h1'; rw [h2] at h2'; omega
    | _ => simp_all
  | seq lo hi h hc _ ih =>
    intro lo' hi' h'
    cases h' with
    | seq lo2 hi2 h' hc' _ =>
      rw [h] at h'; injection h' with h'; injection h' with h' _; subst h'
      exact ⟨by rw [List.map_congr_left fun c hcm => (ih c hcm (hc' c hcm)).1],
        by rw [List.map_congr_left fun c hcm => (ih c hcm (hc' c hcm)).2]⟩
    | _ => simp_all
  | @set i cs join lo hi h hc _ _ ih =>
    intro lo' hi' h'
    cases h' with
    | set lo2 hi2 h' hc' _ _ =>
      rw [h] at h'; injection h' with h'; injection h' with h' _; subst h'
      have e : cs.countP (fun c => decide (lo c ≠ hi c)) = cs.countP (fun c => decide (lo2 c ≠ hi2 c)) := by
        refine List.countP_congr fun c hcm => ?_
        rw [(ih c hcm (hc' c hcm)).1, (ih c hcm (hc' c hcm)).2]
      exact ⟨by rw [e, List.map_congr_left fun c hcm => (ih c hcm (hc' c hcm)).1],
        by rw [e, List.map_congr_left fun c hcm => (ih c hcm (hc' c hcm)).2]⟩
    | _ => simp_all
  | lottery lo hi h _ _ _ _ _ _ =>
    intro lo' hi' h'
    cases h' with
    | lottery _ _ h' _ _ _ _ _ =>
      rw [h] at h'; injection h' with h'; injection h' with _ _ h1 h2 h3; omega
    | _ => simp_all
  | picker lo hi h hc hm ha hb _ _ ih =>
    intro lo' hi' h'
    cases h' with
    | picker lo2 hi2 h' hc' hm' ha' hb' _ _ =>
      rw [h] at h'; injection h' with h'; injection h' with h'; subst h'
      obtain ⟨c, hc1, e1⟩ := ha
      obtain ⟨d, hd1, e2⟩ := hb
      obtain ⟨c', hc1', e1'⟩ := ha'
      obtain ⟨d', hd1', e2'⟩ := hb'
      have q1 := (ih c hc1 (hc' c hc1)).1
      have q2 := (ih c' hc1' (hc' c' hc1')).1
      have q3 := (ih d hd1 (hc' d hd1)).2
      have q4 := (ih d' hd1' (hc' d' hd1')).2
      have r1 := hm' c hc1
      have r2 := hm c' hc1'
      have r3 := hm' d hd1
      have r4 := hm d' hd1'
      omega
    | _ => simp_all

/-- Sizes of stamps given with bounds. -/
def boundPairs (lo hi : Id → Nat) (cs : List Id) : List SizePair := cs.map fun c => ((lo c : Int), (hi c : Int))

theorem boundPairs_sizes {fl : Flags} {lo hi : Id → Nat} : ∀ {cs : List Id},
    (∀ c ∈ cs, HasMin G fl c (lo c) ∧ HasMax G fl c (hi c)) → HaveSizes G fl cs (boundPairs lo hi cs)
  | [], _ => .nil
  | c :: cs, h => .cons (h c (by simp)) (boundPairs_sizes fun d hd => h d (List.mem_cons_of_mem _ hd))

theorem boundPairs_sums (lo hi : Id → Nat) (cs : List Id) :
    ((boundPairs lo hi cs).map Prod.fst).sum = ((cs.map lo).sum : Nat) ∧
    ((boundPairs lo hi cs).map Prod.snd).sum = ((cs.map hi).sum : Nat) := by
  unfold boundPairs
  induction cs with
  | nil => exact ⟨rfl, rfl⟩
  | cons c cs ih =>
    simp only [List.map_cons, List.sum_cons]
    rw [ih.1, ih.2]
    push_cast
    exact ⟨rfl, rfl⟩

theorem boundPairs_mem {lo hi : Id → Nat} {cs : List Id} {s : SizePair} (h : s ∈ boundPairs lo hi cs) :
    ∃ c ∈ cs, s = ((lo c : Int), (hi c : Int)) := by
  obtain ⟨c, hc, rfl⟩ := List.mem_map.1 h
  exact ⟨c, hc, rfl⟩

theorem boundPairs_slack {lo hi : Id → Nat} {cs : List Id} (h : ∀ c ∈ cs, lo c ≤ hi c) :
    ((boundPairs lo hi cs).map slack).sum ≤ ((cs.map hi).sum : Nat) := by
  unfold boundPairs
  induction cs with
  | nil => exact le_refl _
  | cons c cs ih =>
    have := ih fun d hd => h d (by simp [hd])
    have := h c (by simp)
    simp only [List.map_cons, List.sum_cons]
    have e : slack ((lo c : Int), (hi c : Int)) ≤ hi c := by
      unfold slack; dsimp only; split <;> omega
    push_cast at *
    omega

theorem boundPairs_setSizes {lo hi : Id → Nat} {cs : List Id} (h : ∀ c ∈ cs, lo c ≤ hi c)
    (hn : ((cs.map hi).sum : Nat) + 2 * ((cs.length : Int) + 1) ≤ INT_MAX) : SetSizes (boundPairs lo hi cs) := by
  have hle : ∀ c ∈ cs, hi c ≤ (cs.map hi).sum := fun c hc => List.single_le_sum (by simp) _ (List.mem_map_of_mem hc)
  refine ⟨?_, ?_, ?_⟩
  · intro s hs
    obtain ⟨c, hc, rfl⟩ := boundPairs_mem hs
    have := hle c hc
    have := h c hc
    dsimp only
    omega
  · have := sum_le_sum_of h
    rw [(boundPairs_sums lo hi cs).1, show (boundPairs lo hi cs).length = cs.length from List.length_map ..]
    omega
  · have := boundPairs_slack h
    omega

theorem boundPairs_filter {lo hi : Id → Nat} {cs : List Id} (h : ∀ c ∈ cs, lo c ≤ hi c) :
    ((boundPairs lo hi cs).filter fun s => decide (IsVariated s)).length = cs.countP (fun c => decide (lo c ≠ hi c)) ∧
    (boundPairs lo hi cs).filter (fun s => decide (s.2 = -1)) = [] := by
  constructor
  · rw [← List.countP_eq_length_filter]
    unfold boundPairs
    rw [List.countP_map]
    refine List.countP_congr fun c hc => ?_
    have := h c hc
    rw [Function.comp_apply, decide_eq_true_eq, decide_eq_true_eq]
    constructor
    · rintro ⟨h1, -⟩ h2; exact h1 (by omega)
    · intro h1; exact ⟨by omega, by omega⟩
  · rw [List.filter_eq_nil_iff]
    intro s hs
    obtain ⟨c, -, rfl⟩ := boundPairs_mem hs
    simp

theorem boundPairs_needs {lo hi : Id → Nat} {cs : List Id} (h : ∀ c ∈ cs, lo c ≤ hi c) :
    setNeeds (boundPairs lo hi cs) = ((cs.map lo).sum + 2 * cs.countP (fun c => decide (lo c ≠ hi c)) : Nat) ∧
    setTakes (boundPairs lo hi cs) = ((cs.map hi).sum + 2 * cs.countP (fun c => decide (lo c ≠ hi c)) : Nat) := by
  obtain ⟨h1, h2⟩ := boundPairs_filter h
  obtain ⟨e1, e2⟩ := boundPairs_sums lo hi cs
  have hu : ¬ ∃ s ∈ boundPairs lo hi cs, s.2 = -1 := by
    rintro ⟨s, hs, he⟩
    obtain ⟨c, -, rfl⟩ := boundPairs_mem hs
    dsimp only at he; omega
  constructor
  · unfold setNeeds
    rw [h1, h2, e1, if_neg (by simp), if_neg (fun h => hu h.2)]
    push_cast
    ring
  · unfold setTakes
    rw [if_neg hu, h1, e2]
    push_cast
    ring

/-- A stamp of bounded size reports its bounds, as long as no picker inside it is marked. -/
theorem VarStamp.sizes {i : Id} {lo hi : Nat} (h : VarStamp G N i lo hi) : ∀ {fl : Flags},
    (∀ k a b, VarStamp G N k a b → b ≤ hi → fl k = ⟨false, false⟩) → HasMin G fl i lo ∧ HasMax G fl i hi := by
  induction h with
  | arith h =>
    intro fl _
    constructor <;>
    · refine SizeRuns.intro (n := 1) ?_
      unfold sizeQ; rw [h]; rfl
  | @dict i ws h h1 h2 =>
    intro fl _
    have e : (chooseStampSize ws.length).1 = if ws.length ≤ 256 then 1 else 2 := by
      unfold chooseStampSize
      split
      · rfl
      · rfl
    constructor <;>
    · refine SizeRuns.intro (n := 1) ?_
      unfold sizeQ; rw [h, ← e]; rfl
  | user h _ _ h1 h2 _ =>
    intro fl _
    constructor
    · refine SizeRuns.intro (n := 1) ?_
      unfold sizeQ; rw [h, ← h1]; rfl
    · refine SizeRuns.intro (n := 1) ?_
      unfold sizeQ; rw [h, ← h2]; rfl
  | @seq i cs join lo hi h hc hn ih =>
    intro fl hfl
    have hle : ∀ c ∈ cs, hi c ≤ (cs.map hi).sum := fun c hc => List.single_le_sum (by simp) _ (List.mem_map_of_mem hc)
    have hs := boundPairs_sizes (G := G) (fl := fl) (lo := lo) (hi := hi) (cs := cs) fun c hcm => ih c hcm
      fun k a b hk hm => hfl k a b hk (le_trans hm (hle c hcm))
    obtain ⟨e1, e2⟩ := boundPairs_sums lo hi cs
    have hb := sum_le_sum_of fun c hcm => (hc c hcm).bounds.1
    have := C63_seq h hs (by intro s hs; obtain ⟨c, -, rfl⟩ := boundPairs_mem hs; simp) (by rw [e1]; omega)
    rw [e1, e2] at this
    exact ⟨this.1, this.2.2 rfl (by intro s hs; obtain ⟨c, -, rfl⟩ := boundPairs_mem hs; simp) (by omega)⟩
  | @set i cs join lo hi h hc hn _ ih =>
    intro fl hfl
    have hle : ∀ c ∈ cs, hi c ≤ (cs.map hi).sum := fun c hc => List.single_le_sum (by simp) _ (List.mem_map_of_mem hc)
    have hb := fun c hcm => (hc c hcm).bounds.1
    have hs := boundPairs_sizes (G := G) (fl := fl) (lo := lo) (hi := hi) (cs := cs) fun c hcm => ih c hcm
      fun k a b hk hm => hfl k a b hk (by have := hle c hcm; omega)
    have := C63_set h hs (boundPairs_setSizes hb (by omega)) (by
      have : ((boundPairs lo hi cs).map fun s => if s.2 = -1 then 0 else s.2) = (boundPairs lo hi cs).map Prod.snd := by
        refine List.map_congr_left ?_
        intro s hs
        obtain ⟨c, -, rfl⟩ := boundPairs_mem hs
        dsimp only
        rw [if_neg (by omega)]
      rw [this, (boundPairs_sums lo hi cs).2, show (boundPairs lo hi cs).length = cs.length from List.length_map ..]
      omega)
    rw [(boundPairs_needs hb).1, (boundPairs_needs hb).2] at this
    exact this
  | @lottery i rec4 cs w a b lo hi h hw hne hc hm hn ih =>
    intro fl _
    have hab : a ≤ b := by
      obtain ⟨c, hcm⟩ := List.exists_mem_of_ne_nil _ hne
      have := hm c hcm
      have := (hc c hcm).bounds.1
      omega
    constructor
    · refine SizeRuns.intro (n := 1) ?_
      unfold sizeQ; rw [h]
      show (ckInt ((a : Int) + w), fl) = _
      rw [ckInt_ok (by omega) (by omega)]; norm_num
    · refine SizeRuns.intro (n := 1) ?_
      unfold sizeQ; rw [h]
      dsimp only
      rw [if_neg (by omega)]
      show (ckInt ((b : Int) + w), fl) = _
      rw [ckInt_ok (by omega) (by omega)]; norm_num
  | @picker i cs a b lo hi h hc hm ha hb hn hsm ih =>
    intro fl hfl
    have hi' : VarStamp G N i (a + 2) (b + 2) := .picker lo hi h hc hm ha hb hn hsm
    have hfi := hfl i _ _ hi' (le_refl _)
    have hs : ∀ c ∈ cs, HasMin G (fl.setIn i true) c (lo c) ∧ HasMax G (fl.setIn i true) c (hi c) := by
      intro c hcm
      refine ih c hcm fun k m m' hk hm' => ?_
      have := hm c hcm
      have hki : k ≠ i := by
        rintro rfl
        have := hi'.once hk
        omega
      unfold Flags.setIn
      rw [if_neg hki]
      exact hfl k m m' hk (by omega)
    have hne : cs ≠ [] := by
      rintro rfl
      obtain ⟨c, hcm, -⟩ := ha
      cases hcm
    obtain ⟨⟨m, ⟨⟨j, hj, ej⟩, hmle⟩, hmin⟩, -, hmax⟩ := C63_picker h hne (by rw [hfi]) (by rw [hfi])
      (mn := fun c => (lo c : Int)) (mx := fun c => (hi c : Int)) (fun j hj => (hs j hj).1) (fun j hj => (hs j hj).2)
      (fun _ _ => by omega) (by
        obtain ⟨c, hcm, e⟩ := ha
        exact ⟨c, hcm, by rw [e]; exact_mod_cast hsm⟩) (fun c hcm => Or.inr ⟨by omega, by have := hm c hcm; omega⟩)
    obtain ⟨m', ⟨⟨j', hj', ej'⟩, hmge⟩, hmax⟩ := hmax (fun _ _ => by omega)
    have e1 : m = (a : Int) := by
      obtain ⟨c, hcm, e⟩ := ha
      have q1 := hmle ⟨c, hcm, rfl⟩
      have q2 := hm j hj
      omega
    have e2 : m' = (b : Int) := by
      obtain ⟨c, hcm, e⟩ := hb
      have q1 := hmge ⟨c, hcm, rfl⟩
      have q2 := hm j' hj'
      omega
    subst e1; subst e2
    exact ⟨by exact_mod_cast hmin, by exact_mod_cast hmax⟩

/-! ## Runs -/

/-- Every run that returns, on a blob of at most `N` bytes, takes `lo` to `hi` bytes. -/
def TakesWithin (G : Graph) (fl : Flags) (N : Nat) (i : Id) (lo hi : Nat) : Prop :=
  ∀ a s left, List.length a ≤ N → ARun G fl i a (.ok s) left →
    List.length left + lo ≤ List.length a ∧ List.length a ≤ List.length left + hi

theorem turn_within {fl : Flags} {lo hi : Id → Nat} {cs : List Id} (hc : ∀ c ∈ cs, TakesWithin G fl N c (lo c) (hi c))
    {a left : ABlob} {xs : List Bytes} (ha : List.length a ≤ N) (h : ATurn G fl cs a xs left) :
    List.length left + (cs.map lo).sum ≤ List.length a ∧ List.length a ≤ List.length left + (cs.map hi).sum := by
  induction cs generalizing a xs with
  | nil => cases h; simp
  | cons c cs ih =>
    cases h with
    | cons h1 h2 =>
      have p1 := hc c (by simp) _ _ _ ha h1
      have p2 := ih (fun d hd => hc d (by simp [hd])) (by omega) h2
      simp only [List.map_cons, List.sum_cons]
      omega

theorem set_within {fl : Flags} {i : Id} {cs : List Id} {join : List Bytes → Bytes} {unb : Bool} {lo hi : Id → Nat}
    (h : G i = some (.set cs join unb)) (hb : ∀ c ∈ cs, lo c ≤ hi c)
    (hs : ∀ c ∈ cs, HasMin G fl c (lo c) ∧ HasMax G fl c (hi c)) (hN' : N ≤ 2147483646)
    (hn : ((cs.map hi).sum : Nat) + 2 * ((cs.length : Int) + 1) ≤ INT_MAX) (hN : cs.length * (N + 1) ≤ 2 ^ 49) :
    TakesWithin G fl N i ((cs.map lo).sum + 2 * cs.countP fun c => lo c ≠ hi c)
      ((cs.map hi).sum + 2 * cs.countP fun c => lo c ≠ hi c) := by
  intro a s left ha hrun
  obtain ⟨b, hr, hh⟩ := exists_blob (bs := a) (by omega)
  obtain ⟨ss, parts, xs, h1, h2, -⟩ := ((C67_set h hr).1 s left).1 ((returns_iff hr hh).2 hrun)
  have e := haveSizes_unique (boundPairs_sizes hs) h1
  subst e
  have hl : (boundPairs lo hi cs).length = cs.length := List.length_map ..
  have := (C24_consumed_partial hr hh (boundPairs_setSizes hb hn) (by omega)
    (by rw [hl]; exact le_trans (Nat.mul_le_mul_left _ (by omega)) hN) h2).2
    (by intro s hs; obtain ⟨c, -, rfl⟩ := boundPairs_mem hs; dsimp only; omega)
    (by rw [(boundPairs_sums lo hi cs).2, hl]; omega)
  rw [(boundPairs_needs hb).1, (boundPairs_needs hb).2] at this
  omega

theorem TakesExactly.within {fl : Flags} {i : Id} {n : Nat} (h : TakesExactly G fl i n) : TakesWithin G fl N i n n := by
  intro a s left _ hrun
  by_cases hl : List.length a < n
  · obtain ⟨_, h'⟩ := h.2 a hl
    cases (h'.once (by simp) (by simp) hrun).1
  · obtain ⟨s', h'⟩ := h.1 (List.take n a) (by rw [List.length_take]; omega)
    have h' := h' (List.drop n a)
    rw [List.take_append_drop] at h'
    rw [← (h'.once (by simp) (by simp) hrun).2, List.length_drop]
    omega

theorem VarStamp.within {i : Id} {lo hi : Nat} (h : VarStamp G N i lo hi) (hN' : N ≤ 2147483646) {fl : Flags}
    (hf : Unmarked G N fl) : TakesWithin G fl N i lo hi := by
  induction h with
  | arith h => exact (arith_exact h).within
  | dict h h1 h2 => exact (dict_exact h h1 h2).within
  | @user i u lo hi h hn hl h1 h2 hb =>
    rintro a s left _ ⟨n, hrun⟩
    cases n with
    | zero => cases hrun
    | succ n =>
      rw [user_run h] at hrun
      injection hrun with q1 q2
      injection q2 with _ q3
      obtain ⟨p1, p2, p3⟩ := hb a s q1
      rw [← q3, List.length_drop]
      omega
  | seq lo hi h hc hn ih =>
    intro a s left ha hrun
    obtain ⟨xs, hx, -⟩ := (seq_ok_iff h).1 hrun
    exact turn_within ih ha hx
  | set lo hi h hc hn hN ih =>
    exact set_within h (fun c hcm => (hc c hcm).bounds.1) (fun c hcm => (hc c hcm).sizes fun k a b hk _ => hf k a b hk)
      hN' (by omega) hN
  | @lottery i rec4 cs w a b lo hi h hw hne hc hm hn ih =>
    rintro bs s left hbs ⟨n, hrun⟩
    cases n with
    | zero => cases hrun
    | succ n =>
      obtain ⟨o, b1, j, mn, -, h1, hj, -, -, h2⟩ := extract_lottery_ok h hrun
      obtain ⟨ty, hty⟩ := uOracleTy_width hw
      rw [uOracle_abs hty] at h1
      split at h1
      · cases h1
      · next hlt =>
        injection h1 with _ h1
        have hl : List.length b1 + w = List.length bs := by rw [← h1, List.length_drop]; omega
        have := ih j hj b1 s left (by omega) ⟨n, h2⟩
        have := hm j hj
        omega
  | @picker i cs a b lo hi h hc hm ha hb hn hsm ih =>
    rintro bs s left hbs ⟨n, hrun⟩
    cases n with
    | zero => cases hrun
    | succ n =>
      obtain ⟨o, b1, j, mn, -, h1, hj, -, -, h2, -⟩ := extract_picker_ok h hrun
      have hl := oracle_ok_length h1
      have := ih j hj b1 s left (by omega) ⟨n, h2⟩
      have := hm j hj
      omega

theorem Between.within {i : Id} {lo hi : Nat} (h : Between G N i lo hi) (hN' : N ≤ 2147483646) {fl : Flags}
    (hf : Unmarked G N fl) : TakesWithin G fl N i lo hi := by
  induction h with
  | bounded h => exact h.within hN' hf
  | unary h _ ih =>
    rintro a s left ha ⟨n, hrun⟩
    cases n with
    | zero => cases hrun
    | succ n =>
      obtain ⟨x, -, h1, -⟩ := extract_unary_ok h hrun
      exact ih a x left ha ⟨n, h1⟩
  | seq lo hi h hc ih =>
    intro a s left ha hrun
    obtain ⟨xs, hx, -⟩ := (seq_ok_iff h).1 hrun
    exact turn_within ih ha hx
  | set lo hi h hc hn hN =>
    exact set_within h (fun c hcm => (hc c hcm).bounds.1) (fun c hcm => (hc c hcm).sizes fun k a b hk _ => hf k a b hk)
      hN' (by omega) hN

end BS
