import Verif.Lemmas.CopyGrammar
import Verif.Props.Compose
import Verif.Props.Recursion
import Verif.Props.JsonLang
import Verif.Expr

/-!
# C92: one stamp used in two places, or two copies of it
-/

namespace BS
open BlobLike
open scoped BigOperators

section
variable {G H : Graph} {fl fl' : Flags} {R : Id → Id → Prop}

theorem copy_run (hM : Matched G H R) (hS : SameSizes G fl H fl' R) {i j : Id} (h : R i j) {n : Nat} {a a' : ABlob}
    {f : Flags} {o : Out Bytes} (ho : o ≠ .fuel) (hr : extract G n i (fl, a) = (o, (f, a'))) :
    ∃ m f', extract H m j (fl', a) = (o, (f', a')) := by
  obtain ⟨m, hm⟩ := trails_extract hM hS n i j h
  rcases hm m le_rfl a with e | ⟨e1, e2, _⟩
  · rw [hr] at e; exact absurd e ho
  · rw [hr] at e1 e2
    refine ⟨m, (extract H m j (fl', a)).2.1, Prod.ext ?_ (Prod.ext rfl e2)⟩
    dsimp only at e1
    cases e1' : (extract H m j (fl', a)).1 <;> rw [e1'] at e1 <;> cases e1 <;> first | rfl | (rename_i hh; rw [hh])

theorem copy_arun (hM : Matched G H R) (hS : SameSizes G fl H fl' R) {i j : Id} (h : R i j) {a a' : ABlob}
    {o : Out Bytes} (ho : (∃ s, o = .ok s) ∨ o = .outOfData) (hr : ARun G fl i a o a') : ARun H fl' j a o a' := by
  obtain ⟨n, hr⟩ := hr
  obtain ⟨m, f', e⟩ := copy_run hM hS h (by rcases ho with ⟨s, rfl⟩ | rfl <;> simp) hr
  have := keeps_extract H m j (fl', a) (by rw [e]; exact ho)
  rw [e] at this
  dsimp only at this
  subst this
  exact ⟨m, e⟩

theorem ends_abs {i : Id} {b : Blob} {a : ABlob} (hb : BR b a) {o : Out Bytes} :
    ExtractEnds G fl i b o ↔ ∃ n, (extract G n i (fl, a)).1 = o := by
  constructor
  · rintro ⟨n, h⟩
    have := (sim_extract G n i (fl, b) (fl, a) ⟨rfl, hb⟩).1
    rw [h] at this
    refine ⟨n, ?_⟩
    cases e : (extract G n i (fl, a)).1 <;> rw [e] at this <;> cases this <;> first | rfl | (rename_i hh; rw [hh])
  · rintro ⟨n, h⟩
    have := (sim_extract G n i (fl, b) (fl, a) ⟨rfl, hb⟩).1
    rw [h] at this
    refine ⟨n, ?_⟩
    cases e : (extract G n i (fl, b)).1 <;> rw [e] at this <;> cases this <;> first | rfl | (rename_i hh; rw [hh])

/-- **C92** for any two families of stamps that correspond and have the same sizes. -/
theorem C92_same (hM : Matched G H R) (hS : SameSizes G fl H fl' R) {i j : Id} (h : R i j) :
    SameExtraction G fl i H fl' j := by
  intro b hr
  have hb : BR b b.abs := ⟨hr.valid, rfl⟩
  have hh : Holds b b.abs := (holds_iff hr.valid _).2 rfl
  refine ⟨fun s left => ?_, fun left => ?_, fun o ho => ?_⟩
  · rw [returns_iff hr hh, returns_iff hr hh]
    exact ⟨copy_arun hM hS h (.inl ⟨s, rfl⟩), copy_arun hM.flip hS.flip h (.inl ⟨s, rfl⟩)⟩
  · rw [throws_iff hr hh, throws_iff hr hh]
    exact ⟨copy_arun hM hS h (.inr rfl), copy_arun hM.flip hS.flip h (.inr rfl)⟩
  · rw [ends_abs hb, ends_abs hb]
    constructor
    · rintro ⟨n, e⟩
      obtain ⟨m, f', e'⟩ := copy_run hM hS h ho (Prod.ext (y := (o, (extract G n i (fl, b.abs)).2)) e rfl)
      exact ⟨m, by rw [e']⟩
    · rintro ⟨n, e⟩
      obtain ⟨m, f', e'⟩ := copy_run hM.flip hS.flip h ho (Prod.ext (y := (o, (extract H n j (fl', b.abs)).2)) e rfl)
      exact ⟨m, by rw [e']⟩

end

section
variable {G H : Graph} {R : Id → Id → Prop}

theorem ends_of_sub {i j : Id} {sel : Sel} {fl fl' : Flags} (h : ∀ n, SubF fl fl' (sizeQ G n sel i) (sizeQ H n sel j)) {o : Out Int}
    (ho : o ≠ .fuel) (he : SizeEnds G fl sel i o) : SizeEnds H fl' sel j o := by
  obtain ⟨n, e⟩ := he
  rcases h n with e' | ⟨e', _⟩
  · rw [e] at e'; exact absurd e' ho
  · exact ⟨n, by rw [← e', e]⟩

/-- **C92** for sizes, where recursion passes through lotteries only. -/
theorem C92_sizes (hM : Matched G H R) {rG rH : Id → Nat} (hG : Grounded G rG) (hH : Grounded H rH) :
    SameSizes G Flags.init H Flags.init R := fun i j hij sel _ ho =>
  ⟨ends_of_sub (fun n => subF_sizeQ hM hG hH n sel i j _ _ hij (.init _ _) (.init _ _)) ho,
    ends_of_sub (fun n => subF_sizeQ hM.flip hH hG n sel j i _ _ hij (.init _ _) (.init _ _)) ho⟩

/-- **C92** where recursion passes through lotteries only. -/
theorem C92_grounded (hM : Matched G H R) {rG rH : Id → Nat} (hG : Grounded G rG) (hH : Grounded H rH) {i j : Id} (h : R i j) :
    SameExtraction G Flags.init i H Flags.init j := C92_same hM (C92_sizes hM hG hH) h

theorem size_ends_iff {i : Id} {sel : Sel} {fl : Flags} {v : Int} (h : SizeRuns G fl sel i v fl) {o : Out Int} (ho : o ≠ .fuel) :
    SizeEnds G fl sel i o ↔ o = .ok v := by
  obtain ⟨N, hN⟩ := h
  constructor
  · rintro ⟨n, e⟩
    have h1 := hN (max n N) (by omega)
    rcases fle_sizeQ G (le_max_left n N) sel i fl with e' | e'
    · rw [e] at e'; exact absurd e' ho
    · rw [← e, e', h1]
  · rintro rfl
    exact ⟨N, by rw [hN N le_rfl]⟩

theorem size_ends_none {i : Id} {sel : Sel} {fl : Flags} (h : G i = none) {o : Out Int} (ho : o ≠ .fuel) :
    SizeEnds G fl sel i o ↔ o = .ub .nullDeref := by
  have e : ∀ n, (sizeQ G (n + 1) sel i fl).1 = .ub .nullDeref := fun n => by unfold sizeQ; rw [h]; rfl
  constructor
  · rintro ⟨n, e'⟩
    cases n with
    | zero => exact absurd e'.symm ho
    | succ n => rw [← e', e]
  · rintro rfl; exact ⟨1, e 0⟩

/-- **C92** for sizes in grammars that recurse through pickers. -/
theorem C92_grammar_sizes (hM : Matched G H R) (hG : PickerGrammar G) (hH : PickerGrammar H)
    (hd : ∀ i, G i ≠ none → ∃ k, Derives G Flags.init i k ∧ k < INT_MAX / 2) : SameSizes G Flags.init H Flags.init R := by
  intro i j hij sel o ho
  by_cases hn : G i = none
  · have hn' : H j = none := by
      rcases hM i j hij with ⟨_, h⟩ | ⟨nd, _, h, _⟩
      · exact h
      · rw [hn] at h; cases h
    rw [size_ends_none hn ho, size_ends_none hn' ho]
  · have hn' : H j ≠ none := by
      obtain ⟨nd, e⟩ := Option.ne_none_iff_exists'.1 hn
      obtain ⟨nd', e', _⟩ := hM.some_left hij e
      rw [e']; simp
    obtain ⟨k, hk, hlt⟩ := hd i hn
    cases sel with
    | min =>
      have := same_min hG hH hM.loosely hij hk hlt
      rw [size_ends_iff (hG.hasMin hn _) ho, size_ends_iff (hH.hasMin hn' _) ho, this]
    | max =>
      have := (same_max hG hH hM.loosely hij hn).1
      rw [size_ends_iff (hG.hasMax hn _) ho, size_ends_iff (hH.hasMax hn' _) ho, this]

/-- **C92** for grammars that recurse through pickers. -/
theorem C92_grammar (hM : Matched G H R) (hG : PickerGrammar G) (hH : PickerGrammar H)
    (hd : ∀ i, G i ≠ none → ∃ k, Derives G Flags.init i k ∧ k < INT_MAX / 2) {i j : Id} (h : R i j) :
    SameExtraction G Flags.init i H Flags.init j := C92_same hM (C92_grammar_sizes hM hG hH hd) h

end

/-! ## Copies -/

section
variable {G H : Graph} {f : Id → Id}

theorem onParts_match (f : Id → Id) (nd : Node) : NodeMatch (fun i j => j = f i) nd (nd.onParts f) := by
  have hl : ∀ cs : List Id, List.Forall₂ (fun i j => j = f i) cs (cs.map f) := by
    intro cs
    induction cs with
    | nil => exact .nil
    | cons c cs ih => exact .cons rfl ih
  cases nd with
  | vec c join => exact .vec join rfl
  | set cs join unb => exact .set join unb (hl cs)
  | seq cs join unb => exact .seq join unb (hl cs)
  | unary op c => exact .unary op rfl
  | lottery r cs a b c => exact .lottery r a b c (hl cs)
  | picker cs => exact .picker (hl cs)
  | _ => exact .single rfl

theorem CopyOf.matched (h : CopyOf H G f) : Matched H G (fun i j => j = f i) := by
  rintro i _ rfl
  have := h i
  cases e : H i with
  | none => rw [e] at this; exact .inl ⟨rfl, this⟩
  | some nd => rw [e] at this; exact .inr ⟨nd, _, rfl, this, onParts_match f nd⟩

theorem onParts_kids (f : Id → Id) (nd : Node) : (nd.onParts f).plainKids = nd.plainKids.map f := by
  cases nd <;> rfl

theorem CopyOf.grounded (h : CopyOf H G f) {rank : Id → Nat} (hG : Grounded G rank) : Grounded H (fun i => rank (f i)) := by
  intro i nd hi
  have e := h i
  rw [hi] at e
  obtain ⟨h1, h2⟩ := hG (f i) _ e
  refine ⟨fun c hc => h1 (f c) ?_, ?_⟩
  · rw [onParts_kids]; exact List.mem_map_of_mem hc
  · rintro pool rfl c hc
    exact h2 (pool.map f) rfl (f c) (List.mem_map_of_mem hc)

/-- **C92** for copies, where recursion passes through lotteries only. -/
theorem C92_copy (h : CopyOf H G f) {rank : Id → Nat} (hG : Grounded G rank) (i : Id) :
    SameExtraction H Flags.init i G Flags.init (f i) := C92_grounded h.matched (h.grounded hG) hG rfl

theorem CopyOf.grammar (h : CopyOf H G f) (hG : PickerGrammar G) {U : Id → Int} (hU : SizeBound G U)
    (hB : ∃ B : Nat, B ≤ 536870912 ∧ ∀ i : Nat, B ≤ i → H i = none) : PickerGrammar H := by
  have at' : ∀ {i nd}, H i = some nd → G (f i) = some (nd.onParts f) := fun {i nd} hi => by
    have := h i; rw [hi] at this; exact this
  have hne : ∀ {i}, H i ≠ none → G (f i) ≠ none := fun {i} hi => by
    obtain ⟨nd, e⟩ := Option.ne_none_iff_exists'.1 hi
    rw [at' e]; simp
  refine PickerGrammar.of_bound (U := fun i => U (f i)) ⟨?_, ?_⟩ ?_ ?_ ?_ ⟨hB, ?_, ?_, ?_, ?_, ?_, ?_⟩
  · obtain ⟨B, _, hB⟩ := hB; exact ⟨B, hB⟩
  · intro i hi
    refine hG.guarded.acyclic (f i) ?_
    refine Relation.TransGen.lift f (fun a b hab => ?_) i i hi
    obtain ⟨nd, ha, hb⟩ := hab
    exact ⟨_, at' ha, by rw [onParts_kids]; exact List.mem_map_of_mem hb⟩
  · intro i nd hi j hj hn
    have e := h j
    rw [hn] at e
    refine hG.closed (f i) _ (at' hi) (f j) ?_ e
    rcases hj with hj | hj
    · exact .inl (by rw [onParts_kids]; exact List.mem_map_of_mem hj)
    · right
      cases nd with
      | lottery r cs a b c => exact List.mem_map_of_mem hj
      | picker cs => exact List.mem_map_of_mem hj
      | _ => cases hj
  · intro i cs join unb hi; exact hG.noSet _ _ _ _ (at' hi)
  · intro i cs join unb hi; exact hG.seqUnb _ _ _ _ (at' hi)
  · intro i nd hi hk hp
    have hk' : (nd.onParts f).plainKids = [] := by rw [onParts_kids, hk]; rfl
    have hp' : ∀ pool, nd.onParts f ≠ .picker pool := by
      intro pool
      cases nd with
      | picker cs => exact absurd rfl (hp cs)
      | _ => intro e; cases e
    obtain ⟨v, x, h1, h2, h3⟩ := hU.leaf (f i) _ (at' hi) hk' hp'
    have hm := (onParts_match f nd).flip
    exact ⟨v, x, (leaf_match (at' hi) hi hm.loose hk' hp' h1 _).2.2, (leaf_match (at' hi) hi hm.loose hk' hp' h2 _).2.2, h3⟩
  · intro i hi; exact hU.max _ (hne hi)
  · intro i c join hi; exact hU.vec _ _ _ (at' hi)
  · intro i c op hi; exact hU.unary _ _ _ (at' hi)
  · intro i cs join unb hi
    have := hU.seq _ _ _ _ (at' hi)
    rw [List.map_map] at this; exact this
  · intro i pool hi; exact hU.pick _ _ (at' hi)

/-- **C92** for copies of a grammar that recurses through pickers. -/
theorem C92_unroll (h : CopyOf H G f) (hG : PickerGrammar G) {U : Id → Int} (hU : SizeBound G U)
    (hd : ∀ i, G i ≠ none → ∃ k, Derives G Flags.init i k ∧ k < INT_MAX / 2)
    (hB : ∃ B : Nat, B ≤ 536870912 ∧ ∀ i : Nat, B ≤ i → H i = none) (i : Id) :
    SameExtraction H Flags.init i G Flags.init (f i) := by
  have hS := (C92_grammar_sizes h.matched.flip hG (h.grammar hG hU hB) hd).flip
  exact C92_same h.matched hS rfl

end

theorem json_derives (i : Id) (hn : jsonGraph i ≠ none) : ∃ k, Derives jsonGraph Flags.init i k ∧ k < INT_MAX / 2 := by
  have d1 : Derives jsonGraph Flags.init 1 8 := .leaf (nd := .arith .i64) rfl rfl (by simp) (hasSize_eval 1 rfl)
  have d2 : Derives jsonGraph Flags.init 2 8 := .leaf (nd := .arith .double) rfl rfl (by simp) (hasSize_eval 1 rfl)
  have d3 : Derives jsonGraph Flags.init 3 8 := .leaf (nd := .jsonStr) rfl rfl (by simp) (hasSize_eval 1 rfl)
  have d7 : Derives jsonGraph Flags.init 7 8 := .leaf (nd := .jsonStr) rfl rfl (by simp) (hasSize_eval 1 rfl)
  have d0 : Derives jsonGraph Flags.init 0 10 := .pick (pool := [1, 2, 3, 4, 5]) (j := 1) (k := 8) rfl (by simp) d1
  have d6 : Derives jsonGraph Flags.init 6 18 := by
    have := Derives.seq (G := jsonGraph) (fl := Flags.init) (i := 6) (cs := [7, 0]) (join := hashElText) (unb := true)
      (ks := ![8, 10]) rfl (by simp) (fun t => match t with | ⟨0, _⟩ => d7 | ⟨1, _⟩ => d0)
    have e : ∑ t : Fin [7, 0].length, (![8, 10] : Fin 2 → Int) t = 18 := by decide
    rw [e] at this; exact this
  have d4 : Derives jsonGraph Flags.init 4 14 :=
    .vec (c := 0) (mn := 10) (mx := -1) rfl (hasSize_eval 9 (by decide +kernel)) (hasSize_eval 9 (by decide +kernel)) d0
  have d5 : Derives jsonGraph Flags.init 5 22 :=
    .vec (c := 6) (mn := 18) (mx := -1) rfl (hasSize_eval 9 (by decide +kernel)) (hasSize_eval 9 (by decide +kernel)) d6
  match i with
  | 0 => exact ⟨_, d0, by norm_num⟩
  | 1 => exact ⟨_, d1, by norm_num⟩
  | 2 => exact ⟨_, d2, by norm_num⟩
  | 3 => exact ⟨_, d3, by norm_num⟩
  | 4 => exact ⟨_, d4, by norm_num⟩
  | 5 => exact ⟨_, d5, by norm_num⟩
  | 6 => exact ⟨_, d6, by norm_num⟩
  | 7 => exact ⟨_, d7, by norm_num⟩
  | n + 8 => exact absurd rfl hn

/-- **C92** for JSON: however many copies the recursion passes through before it comes back to a stamp it has been at,
the texts are those of `StampJSON`. -/
theorem C92_json {H : Graph} {f : Id → Id} (h : CopyOf H jsonGraph f)
    (hB : ∃ B : Nat, B ≤ 536870912 ∧ ∀ i : Nat, B ≤ i → H i = none) (i : Id) :
    SameExtraction H Flags.init i jsonGraph Flags.init (f i) :=
  C92_unroll h jsonGraph_grammar jsonGraph_bound json_derives hB i

theorem expr_grounded (ops : List Bytes) (k : Nat) : Grounded (exprGraph ops k) (fun i => if i < 3 then 0 else 1) := by
  intro i nd hi
  match i with
  | 0 => cases hi; exact ⟨(fun c hc => nomatch hc), (fun _ h => nomatch h)⟩
  | 1 => cases hi; exact ⟨(fun c hc => nomatch hc), (fun _ h => nomatch h)⟩
  | 2 => cases hi; exact ⟨(fun c hc => nomatch hc), (fun _ h => nomatch h)⟩
  | j + 3 =>
    have hi : (ops[j]?).map (fun op => Node.binary op 0 0) = some nd := hi
    obtain ⟨op, _, rfl⟩ := Option.map_eq_some_iff.1 hi
    refine ⟨fun c hc => ?_, (fun _ h => nomatch h)⟩
    have hc : c ∈ ([0, 0] : List Id) := hc
    have : c = 0 := by simpa using hc
    subst this
    show (if (0 : Nat) < 3 then 0 else 1) < (if (j : Nat) + 3 < 3 then 0 else 1)
    rw [if_pos (by norm_num), if_neg (Nat.not_lt.2 (Nat.le_add_left 3 j))]
    norm_num

/-- **C92** for arithmetic expressions: operators may have operand stamps of their own. -/
theorem C92_expr {H : Graph} {f : Id → Id} {ops : List Bytes} {k : Nat} (h : CopyOf H (exprGraph ops k) f) (i : Id) :
    SameExtraction H Flags.init i (exprGraph ops k) Flags.init (f i) := C92_copy h (expr_grounded ops k) i

theorem arun_of {G : Graph} {fl : Flags} {i : Id} {a l : ABlob} {s : Bytes} (n : Nat)
    (h : (extract G n i (fl, a)).1 = .ok s ∧ (extract G n i (fl, a)).2.2 = l) : ARun G fl i a (.ok s) l :=
  ⟨n, Prod.ext h.1 (Prod.ext (keeps_extract G n i (fl, a) (.inl ⟨s, h.1⟩)) h.2)⟩

/-! ## Examples -/

/-- JSON values in two layers, each made of values of the other. -/
def layeredJson : Graph
  | 0 => some (.picker [1, 2, 3, 4, 5])
  | 1 => some (.arith .i64)
  | 2 => some (.arith .double)
  | 3 => some .jsonStr
  | 4 => some (.enumerator 8 [44, 32] [91] [93])
  | 5 => some (.enumerator 6 [44, 32] [123] [125])
  | 6 => some (.hashEl 7 8)
  | 7 => some .jsonStr
  | 8 => some (.picker [9, 10, 11, 12, 13])
  | 9 => some (.arith .i64)
  | 10 => some (.arith .double)
  | 11 => some .jsonStr
  | 12 => some (.enumerator 0 [44, 32] [91] [93])
  | 13 => some (.enumerator 14 [44, 32] [123] [125])
  | 14 => some (.hashEl 15 0)
  | 15 => some .jsonStr
  | _ => none

theorem layeredJson_copy : CopyOf layeredJson jsonGraph (fun i => if i < 16 then i % 8 else i) := by
  intro i
  match i with
  | 0 | 1 | 2 | 3 | 4 | 5 | 6 | 7 | 8 | 9 | 10 | 11 | 12 | 13 | 14 | 15 => rfl
  | n + 16 =>
    show jsonGraph (if n + 16 < 16 then (n + 16) % 8 else n + 16) = none
    rw [if_neg (Nat.not_lt.2 (Nat.le_add_left 16 n))]; rfl

example : SameExtraction layeredJson Flags.init 0 jsonGraph Flags.init 0 ∧
    SameExtraction layeredJson Flags.init 8 jsonGraph Flags.init 0 :=
  ⟨C92_json layeredJson_copy ⟨16, by norm_num, fun i hi => by
      match i, hi with
      | n + 16, _ => rfl⟩ 0,
    C92_json layeredJson_copy ⟨16, by norm_num, fun i hi => by
      match i, hi with
      | n + 16, _ => rfl⟩ 8⟩

/-- A number and a list of numbers, made by one and the same number stamp. -/
def sharedPair : Graph
  | 0 => some (.seq [2, 1] textJoin true)
  | 1 => some (.enumerator 2 [44] [40] [41])
  | 2 => some (.arith .u16)
  | _ => none

/-- The same with a number stamp for each place. -/
def separatePair : Graph
  | 0 => some (.seq [3, 1] textJoin true)
  | 1 => some (.enumerator 2 [44] [40] [41])
  | 2 => some (.arith .u16)
  | 3 => some (.arith .u16)
  | _ => none

theorem past_ne {n k m : Nat} (h : m < k) : n + k ≠ m := by omega

example : SameExtraction separatePair Flags.init 0 sharedPair Flags.init 0 ∧
    ∃ b, Reachable b ∧ Returns sharedPair Flags.init 0 b (str "258 (772,1286)") [] := by
  refine ⟨C92_copy (f := fun i => if i = 3 then 2 else i) (rank := fun i => 3 - i) ?_ ?_ 0, ?_⟩
  · intro i
    match i with
    | 0 | 1 | 2 | 3 => rfl
    | n + 4 =>
      show sharedPair (if n + 4 = 3 then 2 else n + 4) = none
      rw [if_neg (past_ne (by norm_num))]; rfl
  · intro i nd hi
    match i with
    | 0 =>
      cases hi
      exact ⟨fun c hc => by simp [Node.plainKids] at hc; rcases hc with rfl | rfl <;> simp, (fun _ h => nomatch h)⟩
    | 1 =>
      cases hi
      exact ⟨fun c hc => by simp [Node.enumerator, Node.plainKids] at hc; subst hc; simp, (fun _ h => nomatch h)⟩
    | 2 => cases hi; exact ⟨(fun c hc => nomatch hc), (fun _ h => nomatch h)⟩
    | n + 3 => cases hi
  · obtain ⟨b, hr, hh⟩ := exists_blob (bs := [2, 1, 4, 3, 6, 5]) (by norm_num)
    exact ⟨b, hr, (returns_iff hr hh).2 (arun_of 20 (by decide +kernel))⟩

/-! ## A stamp that adds up the maxima of its parts -/

/-- A sum is a number, or a sum and a number; `maxSize()` of the longer form adds up. -/
def sharedSum : Graph
  | 0 => some (.picker [1, 2])
  | 1 => some (.seq [0, 2] textJoin false)
  | 2 => some (.arith .u8)
  | 3 => some (.vec 0 textJoin)
  | _ => none

/-- The same with a second picker and a second longer form in between. -/
def separateSum : Graph
  | 0 => some (.picker [1, 2])
  | 1 => some (.seq [4, 2] textJoin false)
  | 2 => some (.arith .u8)
  | 3 => some (.vec 0 textJoin)
  | 4 => some (.picker [5, 2])
  | 5 => some (.seq [0, 2] textJoin false)
  | _ => none

/-- Copies of a picker that recurses through a stamp with a summed maximum change its maximum, and with it the texts of
a list of it. -/
theorem C92_violated : CopyOf separateSum sharedSum (fun i => if i = 4 then 0 else if i = 5 then 1 else i) ∧
    HasMax sharedSum Flags.init 0 3 ∧ HasMax separateSum Flags.init 0 6 ∧
    ∃ b, Reachable b ∧ Returns sharedSum Flags.init 3 b (str "7") [] ∧ Returns separateSum Flags.init 3 b [] [0, 0, 7] := by
  refine ⟨?_, hasSize_eval 9 (by decide +kernel), hasSize_eval 9 (by decide +kernel), ?_⟩
  · intro i
    match i with
    | 0 | 1 | 2 | 3 | 4 | 5 => rfl
    | n + 6 =>
      show sharedSum (if n + 6 = 4 then 0 else if n + 6 = 5 then 1 else n + 6) = none
      rw [if_neg (past_ne (by norm_num)), if_neg (past_ne (by norm_num))]; rfl
  · obtain ⟨b, hr, hh⟩ := exists_blob (bs := [0, 0, 7]) (by norm_num)
    exact ⟨b, hr, (returns_iff hr hh).2 (arun_of 20 (by decide +kernel)), (returns_iff hr hh).2 (arun_of 20 (by decide +kernel))⟩

end BS
