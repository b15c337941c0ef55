import Verif.Lemmas.Shuffle
import Verif.Lemmas.CopyGrammar
import Verif.Props.Copy
import Verif.Props.Expr
import Verif.Props.Fixed
import Verif.Lemmas.Work

/-!
# C93: the order of alternatives
-/

namespace BS

section
variable {G H : Graph} {fl fl' : Flags} {R : Id → Id → Prop}

theorem NodeShuffle.flip {nd nd' : Node} (h : NodeShuffle R nd nd') : NodeShuffle (fun j i => R i j) nd' nd := by
  cases h with
  | single h => exact .single h
  | vec join h => exact .vec join h
  | set join unb h => exact .set join unb h.flip
  | seq join unb h => exact .seq join unb h.flip
  | unary op h => exact .unary op h
  | lottery rec4 smin smax h hc hd hcl hdl => exact .lottery rec4 smin smax ⟨h.2, h.1⟩ hd hc hdl hcl
  | picker h hcl hdl => exact .picker ⟨h.2, h.1⟩ hdl hcl

theorem Shuffled.flip (h : Shuffled G H R) : Shuffled H G (fun j i => R i j) := by
  intro j i hij
  obtain ⟨nd, nd', h1, h2, h3⟩ := h i j hij
  exact ⟨nd', nd, h2, h1, h3.flip⟩

theorem SizesAgree.flip (h : SizesAgree G fl H fl' R) : SizesAgree H fl' G fl (fun j i => R i j) := by
  intro j i hij
  obtain ⟨mn, mx, h1, h2, h3, h4, h5⟩ := h i j hij
  exact ⟨mn, mx, h2, h1, h4, h3, h5⟩

theorem makes_other (hu : LocalUsers G) (hx : Grows G fl H fl' R) (hz : SizesAgree G fl H fl' R) {i j : Id} (hij : R i j) {n : Nat}
    (hn : n < W31 - 8) {s left : Bytes} (h : Makes G fl i n s left) : Makes H fl' j n s left := by
  obtain ⟨b, bs, hr, hh, hl, h⟩ := h
  obtain ⟨m, h⟩ := (returns_iff hr hh).1 h
  obtain ⟨u, u', e1, e2, e3⟩ := mimic hu hx hz m i j hij bs s left (by rw [hl]; exact hn) h
  have hb : (u' ++ left).length = n := by
    rw [List.length_append, e2, ← hl]
    conv_rhs => rw [e1]
    exact (List.length_append).symm
  obtain ⟨b', hr', hh'⟩ := exists_blob (bs := u' ++ left) (by omega)
  exact ⟨b', u' ++ left, hr', hh', hb, (returns_iff hr' hh').2 (e3 left rfl)⟩

/-- **C93.** Two stamps that differ only in the order of the alternatives of pickers and lotteries, or in how often an
alternative is listed, make the same texts: what one makes of some blob, leaving some bytes, the other makes of a blob of
the same size, leaving the same bytes. They must report the same sizes. -/
theorem C93_texts (hu : LocalUsers G) (hu' : LocalUsers H) (hx : Shuffled G H R) (hz : SizesAgree G fl H fl' R) {i j : Id}
    (hij : R i j) {n : Nat} (hn : n < 2147483640) (s left : Bytes) : Makes G fl i n s left ↔ Makes H fl' j n s left :=
  ⟨makes_other hu (hx.grows hz) hz hij hn, makes_other hu' (hx.flip.grows hz.flip) hz.flip hij hn⟩

end

/-! ## Grammars -/

section
variable {G H : Graph}

theorem forall₂_with {R S : Id → Id → Prop} {cs ds : List Id} (h : List.Forall₂ R cs ds) (hs : ∀ c ∈ cs, ∀ d, R c d → S c d) :
    List.Forall₂ S cs ds := by
  induction h with
  | nil => exact .nil
  | cons h _ ih => exact .cons (hs _ List.mem_cons_self _ h) (ih fun c hc => hs c (List.mem_cons_of_mem _ hc))

theorem forall₂_same {cs ds : List Id} (h : List.Forall₂ Eq cs ds) : ds = cs := by
  induction h with
  | nil => rfl
  | cons h _ ih => rw [h, ih]

theorem NodeShuffle.to {R S : Id → Id → Prop} {nd nd' : Node} (h : NodeShuffle R nd nd')
    (hs : ∀ c, c ∈ nd.plainKids ∨ c ∈ nd.choices → ∀ d, R c d → S c d) : NodeShuffle S nd nd' := by
  cases h with
  | single h => exact .single h
  | vec join h => exact .vec join (hs _ (.inl (by simp [Node.plainKids])) _ h)
  | set join unb h => exact .set join unb (forall₂_with h fun c hc => hs c (.inl hc))
  | seq join unb h => exact .seq join unb (forall₂_with h fun c hc => hs c (.inl hc))
  | unary op h => exact .unary op (hs _ (.inl (by simp [Node.plainKids])) _ h)
  | lottery rec4 smin smax h hc hd hcl hdl =>
    refine .lottery rec4 smin smax ⟨fun c hc => ?_, fun d hd => ?_⟩ hc hd hcl hdl
    · obtain ⟨d, h1, h2⟩ := h.1 c hc; exact ⟨d, h1, hs c (.inr hc) d h2⟩
    · obtain ⟨c, h1, h2⟩ := h.2 d hd; exact ⟨c, h1, hs c (.inr h1) d h2⟩
  | picker h hcl hdl =>
    refine .picker ⟨fun c hc => ?_, fun d hd => ?_⟩ hcl hdl
    · obtain ⟨d, h1, h2⟩ := h.1 c hc; exact ⟨d, h1, hs c (.inr hc) d h2⟩
    · obtain ⟨c, h1, h2⟩ := h.2 d hd; exact ⟨c, h1, hs c (.inr h1) d h2⟩

theorem NodeShuffle.loose {R : Id → Id → Prop} {nd nd' : Node} (h : NodeShuffle R nd nd') : NodeLoose R nd nd' := by
  cases h with
  | single h => exact .single h
  | vec join h => exact .vec join h
  | set join unb h => exact .set join unb h
  | seq join unb h => exact .seq join unb h
  | unary op h => exact .unary op h
  | lottery rec4 smin smax h => exact .lottery rec4 _ smin smax
  | picker h => exact .picker h

theorem NodeShuffle.parts {nd nd' : Node} (h : NodeShuffle Eq nd nd') :
    nd'.plainKids = nd.plainKids ∧ ∀ c, c ∈ nd'.choices ↔ c ∈ nd.choices := by
  cases h with
  | single h => exact ⟨rfl, fun _ => Iff.rfl⟩
  | vec join h => rw [h]; exact ⟨rfl, fun _ => Iff.rfl⟩
  | set join unb h => rw [forall₂_same h]; exact ⟨rfl, fun _ => Iff.rfl⟩
  | seq join unb h => rw [forall₂_same h]; exact ⟨rfl, fun _ => Iff.rfl⟩
  | unary op h => rw [h]; exact ⟨rfl, fun _ => Iff.rfl⟩
  | lottery rec4 smin smax h =>
    refine ⟨rfl, fun c => ⟨fun hc => ?_, fun hc => ?_⟩⟩
    · obtain ⟨d, h1, rfl⟩ := h.2 c hc; exact h1
    · obtain ⟨d, h1, rfl⟩ := h.1 c hc; exact h1
  | picker h =>
    refine ⟨rfl, fun c => ⟨fun hc => ?_, fun hc => ?_⟩⟩
    · obtain ⟨d, h1, rfl⟩ := h.2 c hc; exact h1
    · obtain ⟨d, h1, rfl⟩ := h.1 c hc; exact h1

namespace Reordered

theorem at' (h : Reordered G H) {i : Id} {nd' : Node} (hH : H i = some nd') : ∃ nd, G i = some nd ∧ NodeShuffle Eq nd nd' := by
  rcases h i with ⟨_, h2⟩ | ⟨nd, x, h1, h2, h3⟩
  · rw [h2] at hH; cases hH
  · rw [h2] at hH; cases hH; exact ⟨nd, h1, h3⟩

theorem none_iff (h : Reordered G H) (i : Id) : H i = none ↔ G i = none := by
  rcases h i with ⟨h1, h2⟩ | ⟨nd, x, h1, h2, h3⟩ <;> simp [h1, h2]

theorem loosely (h : Reordered G H) : Loosely G H Eq := by
  rintro i j rfl
  exact (h i).imp_right fun ⟨nd, nd', h1, h2, h3⟩ => ⟨nd, nd', h1, h2, h3.loose⟩

/-- Sizes that make sense in one order do in the other. -/
theorem grammar (h : Reordered G H) (hG : PickerGrammar G) {U : Id → Int} (hU : SizeBound G U) : PickerGrammar H := by
  have small : ∃ B : Nat, B ≤ 536870912 ∧ ∀ i : Nat, B ≤ i → H i = none := by
    obtain ⟨B, h1, h2⟩ := hU.small
    exact ⟨B, h1, fun i hi => (h.none_iff i).2 (h2 i hi)⟩
  refine PickerGrammar.of_bound (U := U) ⟨?_, ?_⟩ ?_ ?_ ?_ ⟨small, ?_, ?_, ?_, ?_, ?_, ?_⟩
  · obtain ⟨B, _, hB⟩ := small; exact ⟨B, hB⟩
  · intro i hi
    refine hG.guarded.acyclic i ?_
    refine Relation.TransGen.lift id (fun a b hab => ?_) i i hi
    obtain ⟨nd', ha, hb⟩ := hab
    obtain ⟨nd, h1, h2⟩ := h.at' ha
    exact ⟨nd, h1, by rw [← h2.parts.1]; exact hb⟩
  · intro i nd' hi j hj hn
    obtain ⟨nd, h1, h2⟩ := h.at' hi
    refine hG.closed i nd h1 j ?_ ((h.none_iff j).1 hn)
    exact hj.imp (fun hj => by rw [← h2.parts.1]; exact hj) fun hj => (h2.parts.2 j).1 hj
  · intro i cs join unb hi
    obtain ⟨nd, h1, h2⟩ := h.at' hi
    cases h2 with
    | single hs => cases hs
    | set _ _ _ => exact hG.noSet _ _ _ _ h1
  · intro i cs join unb hi
    obtain ⟨nd, h1, h2⟩ := h.at' hi
    cases h2 with
    | single hs => cases hs
    | seq _ _ _ => exact hG.seqUnb _ _ _ _ h1
  · intro i nd' hi hk hp
    obtain ⟨nd, h1, h2⟩ := h.at' hi
    have hk' : nd.plainKids = [] := by rw [← h2.parts.1]; exact hk
    have hp' : ∀ pool, nd ≠ .picker pool := by
      rintro pool rfl
      cases h2 with
      | single hs => cases hs
      | picker _ => exact hp _ rfl
    obtain ⟨v, x, k1, k2, k3⟩ := hU.leaf i nd h1 hk' hp'
    exact ⟨v, x, (leaf_match h1 hi h2.loose hk' hp' k1 _).2.2, (leaf_match h1 hi h2.loose hk' hp' k2 _).2.2, k3⟩
  · intro i hi; exact hU.max i fun e => hi ((h.none_iff i).2 e)
  · intro i c join hi
    obtain ⟨nd, h1, h2⟩ := h.at' hi
    cases h2 with
    | single hs => cases hs
    | vec _ e => subst e; exact hU.vec _ _ _ h1
  · intro i c op hi
    obtain ⟨nd, h1, h2⟩ := h.at' hi
    cases h2 with
    | single hs => cases hs
    | unary _ e => subst e; exact hU.unary _ _ _ h1
  · intro i cs join unb hi
    obtain ⟨nd, h1, h2⟩ := h.at' hi
    cases h2 with
    | single hs => cases hs
    | seq _ _ e => rw [forall₂_same e]; exact hU.seq _ _ _ _ h1
  · intro i pool hi
    obtain ⟨nd, h1, h2⟩ := h.at' hi
    cases h2 with
    | single hs => cases hs
    | picker e => exact hU.pick _ _ h1

theorem users (h : Reordered G H) (hu : LocalUsers G) : LocalUsers H := by
  intro i u hi
  obtain ⟨nd, h1, h2⟩ := h.at' hi
  cases h2 with
  | single _ => exact hu i u h1

end Reordered

/-- **C93** for a grammar that recurses through pickers: the sizes are the same too, so nothing has to be known of them
in the new order. -/
theorem C93_grammar (h : Reordered G H) (hu : LocalUsers G) (hG : PickerGrammar G) {U : Id → Int} (hU : SizeBound G U)
    (hd : ∀ i, G i ≠ none → ∃ k, Derives G Flags.init i k ∧ k < INT_MAX / 2)
    (hb : ∀ i mn mx, HasMin G Flags.init i mn → HasMax G Flags.init i mx → mx ≠ -1 → mn + mx ≤ INT_MAX)
    {i : Id} (hi : G i ≠ none) {n : Nat} (hn : n < 2147483640) (s left : Bytes) :
    Makes G Flags.init i n s left ↔ Makes H Flags.init i n s left := by
  have hH := h.grammar hG hU
  refine C93_texts (R := fun i j => i = j ∧ G i ≠ none) hu (h.users hu) ?_ ?_ ⟨rfl, hi⟩ hn s left
  · rintro i j ⟨rfl, hi⟩
    rcases h i with ⟨h1, _⟩ | ⟨nd, nd', h1, h2, h3⟩
    · exact absurd h1 hi
    · exact ⟨nd, nd', h1, h2, h3.to fun c hc d e => ⟨e, hG.closed i nd h1 c hc⟩⟩
  · rintro i j ⟨rfl, hi⟩
    have hi' : H i ≠ none := fun e => hi ((h.none_iff i).1 e)
    obtain ⟨k, hk, hlt⟩ := hd i hi
    have e1 := same_min hG hH h.loosely rfl hk hlt
    have e2 := (same_max hG hH h.loosely rfl hi).1
    have b1 := hG.mn_bounds hi Flags.init
    have b2 := hG.mx_bounds hi Flags.init
    refine ⟨_, _, hG.hasMin hi _, e1 ▸ hH.hasMin hi' _, hG.hasMax hi _, e2 ▸ hH.hasMax hi' _, b1.1, b1.2, ?_⟩
    by_cases hx : mxv G Flags.init i = -1
    · exact .inl hx
    · exact .inr ⟨by omega, hb i _ _ (hG.hasMin hi _) (hG.hasMax hi _) hx⟩

end

/-! ## JSON -/

/-- The JSON stamps with the pool of the value stamp in another order (stamp_json.h 99-121). -/
def jsonWith (pool : List Id) : Graph := fun i => if i = 0 then some (.picker pool) else jsonGraph i

theorem json_sum (i : Id) (mn mx : Int) (h1 : HasMin jsonGraph Flags.init i mn) (h2 : HasMax jsonGraph Flags.init i mx)
    (hx : mx ≠ -1) : mn + mx ≤ INT_MAX := by
  have hn : jsonGraph i ≠ none := by
    intro e
    obtain ⟨N, h⟩ := h1
    have := h (N + 1) (by omega)
    unfold sizeQ at this
    rw [e] at this
    cases this
  obtain ⟨nd, hG⟩ := Option.ne_none_iff_exists'.1 hn
  by_cases hk : nd.plainKids = []
  · by_cases hp : ∀ pool, nd ≠ .picker pool
    · obtain ⟨v, x, k1, k2, _, k3, _, _, k4⟩ := jsonGraph_bound.leaf i nd hG hk hp
      obtain ⟨rfl, -⟩ := h1.unique k1
      obtain ⟨rfl, -⟩ := h2.unique k2
      omega
    · obtain ⟨pool, rfl⟩ : ∃ pool, nd = .picker pool := by simpa using hp
      match i with
      | 0 =>
        have := (h2.unique (hasSize_eval (v := -1) 20 (by decide +kernel))).1
        exact absurd this hx
      | 1 | 2 | 3 | 4 | 5 | 6 | 7 => cases hG
      | n + 8 => cases hG
  · have := jsonGraph_grammar.not_leaf_max hG hk Flags.init
    rw [mxv_eq h2] at this
    exact absurd this hx

/-- **C93** for JSON: the order in which the kinds of values stand in the pool, and how often each is listed, has no
influence on which texts can be made of how many bytes. -/
theorem C93_json {pool : List Id} (hp : ∀ c, c ∈ pool ↔ c ∈ ([1, 2, 3, 4, 5] : List Id)) (hl : pool.length ≤ 256) {n : Nat}
    (hn : n < 2147483640) (s left : Bytes) :
    Makes jsonGraph Flags.init 0 n s left ↔ Makes (jsonWith pool) Flags.init 0 n s left := by
  refine C93_grammar ?_ ?_ jsonGraph_grammar jsonGraph_bound json_derives json_sum (by simp [jsonGraph]) hn s left
  · intro i
    by_cases hi : i = 0
    · subst hi
      refine .inr ⟨.picker [1, 2, 3, 4, 5], .picker pool, rfl, rfl, .picker ⟨fun c hc => ⟨c, (hp c).2 hc, rfl⟩, fun d hd => ⟨d, (hp d).1 hd, rfl⟩⟩
        (by simp) hl⟩
    · have e : jsonWith pool i = jsonGraph i := if_neg hi
      rw [e]
      match i, hi with
      | 1, _ => exact .inr ⟨_, _, rfl, rfl, .single rfl⟩
      | 2, _ => exact .inr ⟨_, _, rfl, rfl, .single rfl⟩
      | 3, _ => exact .inr ⟨_, _, rfl, rfl, .single rfl⟩
      | 4, _ => exact .inr ⟨_, _, rfl, rfl, .vec _ rfl⟩
      | 5, _ => exact .inr ⟨_, _, rfl, rfl, .vec _ rfl⟩
      | 6, _ => exact .inr ⟨_, _, rfl, rfl, .seq _ _ (.cons rfl (.cons rfl .nil))⟩
      | 7, _ => exact .inr ⟨_, _, rfl, rfl, .single rfl⟩
      | n + 8, _ => exact .inl ⟨rfl, rfl⟩
  · intro i u hi
    match i with
    | 0 | 1 | 2 | 3 | 4 | 5 | 6 | 7 => cases hi
    | n + 8 => cases hi

/-! ## Expressions -/

/-- Objects of the expressions over two lists of operators: an operator corresponds to itself. -/
def sameOp (ops ops' : List Bytes) (i j : Nat) : Prop :=
  (i < 3 ∧ j = i) ∨ ∃ p q op, i = p + 3 ∧ j = q + 3 ∧ ops[p]? = some op ∧ ops'[q]? = some op

/-- **C93** for the expressions of examples/exampleZZ.cpp: the order in which the operators are appended to the lottery, and
how often each is appended, has no influence on which expressions can be made of how many bytes. -/
theorem C93_expr {ops ops' : List Bytes} (h : ∀ op, op ∈ ops ↔ op ∈ ops') (h1 : 1 ≤ ops.length) (h2 : ops.length ≤ 252)
    (h2' : ops'.length ≤ 252) {n : Nat} (hn : n < 2147483640) (s left : Bytes) :
    Makes (exprGraph ops ops.length) Flags.init 0 n s left ↔ Makes (exprGraph ops' ops'.length) Flags.init 0 n s left := by
  have h1' : 1 ≤ ops'.length := by
    obtain ⟨op, ho⟩ := List.exists_mem_of_length_pos h1
    exact List.length_pos_of_mem ((h op).1 ho)
  have users : ∀ (ops : List Bytes) k, LocalUsers (exprGraph ops k) := by
    intro ops k i u hi
    match i with
    | 0 => cases hi
    | 1 => cases hi
    | 2 => cases hi
    | j + 3 =>
      obtain ⟨op, _, e⟩ := Option.map_eq_some_iff.1 (show (ops[j]?).map (fun op => Node.binary op 0 0) = _ from hi)
      cases e
  have other : ∀ (ops ops' : List Bytes), (∀ op, op ∈ ops → op ∈ ops') → ∀ c ∈ 1 :: 2 :: List.range' 3 ops.length,
      ∃ d ∈ 1 :: 2 :: List.range' 3 ops'.length, sameOp ops ops' c d := by
    intro ops ops' h c hc
    rcases mem_objs hc with e | ⟨q, hq, rfl⟩
    · refine ⟨c, by rcases e with rfl | rfl <;> simp, .inl ⟨by omega, rfl⟩⟩
    · obtain ⟨k, hk, e⟩ := List.mem_iff_getElem.1 (h _ (List.getElem_mem hq))
      refine ⟨k + 3, ?_, .inr ⟨q, k, ops[q], rfl, rfl, List.getElem?_eq_getElem hq, by rw [← e, List.getElem?_eq_getElem hk]⟩⟩
      simp only [List.mem_cons, List.mem_range'_1]; omega
  have hsym : ∀ {ops ops' : List Bytes} {i j : Nat}, sameOp ops ops' i j → sameOp ops' ops j i := by
    rintro ops ops' i j (⟨h1, rfl⟩ | ⟨p, q, op, e1, e2, e3, e4⟩)
    · exact .inl ⟨h1, rfl⟩
    · exact .inr ⟨q, p, op, e2, e1, e4, e3⟩
  refine C93_texts (R := sameOp ops ops') (users _ _) (users _ _) ?_ ?_ (.inl ⟨by norm_num, rfl⟩) hn s left
  · rintro i j (⟨hi, rfl⟩ | ⟨p, q, op, rfl, rfl, e1, e2⟩)
    · match j, hi with
      | 0, _ =>
        refine ⟨_, _, exprGraph_lot h2, exprGraph_lot h2', ?_⟩
        rw [if_neg (by omega), if_neg (by omega)]
        refine .lottery true 1 (-1) ⟨other _ _ fun op => (h op).1, fun d hd => ?_⟩ ?_ ?_ ?_ ?_
        · obtain ⟨c, h1, h2⟩ := other _ _ (fun op => (h op).2) d hd
          exact ⟨c, h1, hsym h2⟩
        · unfold lotWidth; rw [if_pos (by simp; omega)]
        · unfold lotWidth; rw [if_pos (by simp; omega)]
        · simp; omega
        · simp; omega
      | 1, _ => exact ⟨_, _, rfl, rfl, .single rfl⟩
      | 2, _ => exact ⟨_, _, rfl, rfl, .single rfl⟩
    · refine ⟨Node.binary op 0 0, Node.binary op 0 0, ?_, ?_, .set _ _ ?_⟩
      · show (ops[p]?).map _ = _; rw [e1]; rfl
      · show (ops'[q]?).map _ = _; rw [e2]; rfl
      · exact .cons (.inl ⟨by norm_num, rfl⟩) (.cons (.inl ⟨by norm_num, rfl⟩) .nil)
  · obtain ⟨a1, a2, a3, a4⟩ := C70_sizes ops h2 Flags.init
    obtain ⟨b1, b2, b3, b4⟩ := C70_sizes ops' h2' Flags.init
    rw [if_neg (by omega)] at a2 b2
    rintro i j (⟨hi, rfl⟩ | ⟨p, q, op, rfl, rfl, e1, e2⟩)
    · match j, hi with
      | 0, _ => exact ⟨2, -1, a1, b1, a2, b2, by norm_num, by norm_num, .inl rfl⟩
      | 1, _ => exact ⟨1, 1, (a3 1 (.inl rfl)).1, (b3 1 (.inl rfl)).1, (a3 1 (.inl rfl)).2, (b3 1 (.inl rfl)).2, by norm_num, by norm_num,
          .inr ⟨by norm_num, by norm_num⟩⟩
      | 2, _ => exact ⟨1, 1, (a3 2 (.inr rfl)).1, (b3 2 (.inr rfl)).1, (a3 2 (.inr rfl)).2, (b3 2 (.inr rfl)).2, by norm_num, by norm_num,
          .inr ⟨by norm_num, by norm_num⟩⟩
    · obtain ⟨hp, _⟩ := List.getElem?_eq_some_iff.1 e1
      obtain ⟨hq, _⟩ := List.getElem?_eq_some_iff.1 e2
      have c1 := a4 p hp
      have c2 := b4 q hq
      rw [if_neg (by omega)] at c1 c2
      exact ⟨8, -1, c1.1, c2.1, c1.2, c2.2, by norm_num, by norm_num, .inl rfl⟩

/-! ## Lotteries made by `Append` -/

theorem minOf_members {d : Int} {l l' : List (Id × SizePair)} (h : ∀ p, p ∈ l ↔ p ∈ l') : minOf d l = minOf d l' := by
  have key : ∀ {l l' : List (Id × SizePair)}, (∀ p, p ∈ l → p ∈ l') → minOf d l' ≤ minOf d l := by
    intro l l' h
    obtain ⟨_, _, h3⟩ := minOf_spec d l
    obtain ⟨k1, k2, _⟩ := minOf_spec d l'
    rcases h3 with e | ⟨p, hp, e⟩
    · rw [e]; exact k1
    · rw [e]; exact k2 p (h p hp)
  exact le_antisymm (key fun p => (h p).2) (key fun p => (h p).1)

theorem maxOf_members {d : Int} {l l' : List (Id × SizePair)} (h : ∀ p, p ∈ l ↔ p ∈ l') : maxOf d l = maxOf d l' := by
  have key : ∀ {l l' : List (Id × SizePair)}, (∀ p, p ∈ l → p ∈ l') → maxOf d l ≤ maxOf d l' := by
    intro l l' h
    obtain ⟨_, _, h3⟩ := maxOf_spec d l
    obtain ⟨k1, k2, _⟩ := maxOf_spec d l'
    rcases h3 with e | ⟨p, hp, e⟩
    · rw [e]; exact k1
    · rw [e]; exact k2 p (h p hp)
  exact le_antisymm (key fun p => (h p).1) (key fun p => (h p).2)

/-- **C93** for lotteries of stamps of bounded size: the sizes a lottery stores do not depend on the order in which the
stamps were handed to the constructor and to `Append`, so lotteries with the same members differ in their order only. -/
theorem C93_lottery {start start' : Option (List (Id × SizePair))} {apps apps' : List (Id × SizePair)} (rec4 : Bool)
    (hm : ∀ p, p ∈ lotAll start apps ↔ p ∈ lotAll start' apps') (hne : lotAll start apps ≠ [])
    (hs : ∀ p ∈ lotAll start apps, 0 ≤ p.2.1 ∧ p.2.1 ≤ INT_MAX ∧ 0 ≤ p.2.2)
    (hw : lotWidth (lotAll start apps).length = lotWidth (lotAll start' apps').length)
    (hl : (lotAll start apps).length < 2 ^ 30) (hl' : (lotAll start' apps').length < 2 ^ 30) :
    NodeShuffle Eq ((LotState.build start apps).node rec4) ((LotState.build start' apps').node rec4) := by
  have hne' : lotAll start' apps' ≠ [] := by
    obtain ⟨p, hp⟩ := List.exists_mem_of_ne_nil _ hne
    exact List.ne_nil_of_mem ((hm p).1 hp)
  have a1 := build_storedMin start apps fun p hp => ⟨(hs p hp).1, (hs p hp).2.1⟩
  have b1 := build_storedMin start' apps' fun p hp => ⟨(hs p ((hm p).2 hp)).1, (hs p ((hm p).2 hp)).2.1⟩
  have a2 := build_storedMax_bdd start apps fun p hp => (hs p hp).2.2
  have b2 := build_storedMax_bdd start' apps' fun p hp => (hs p ((hm p).2 hp)).2.2
  obtain ⟨a3, a4⟩ := build_stamps start apps
  obtain ⟨b3, b4⟩ := build_stamps start' apps'
  rw [if_neg fun e => hne e.1] at a1 a2
  rw [if_neg fun e => hne' e.1] at b1 b2
  unfold LotState.node
  rw [a1, a2, a3, a4, b1, b2, b3, b4, minOf_members hm, maxOf_members hm, ← hw]
  refine .lottery _ _ _ ⟨fun c hc => ⟨c, ?_, rfl⟩, fun c hc => ⟨c, ?_, rfl⟩⟩ (by rw [List.length_map]) (by rw [List.length_map, hw])
    (by rw [List.length_map]; exact hl) (by rw [List.length_map]; exact hl')
  · obtain ⟨p, hp, rfl⟩ := List.mem_map.1 hc
    exact List.mem_map_of_mem ((hm p).1 hp)
  · obtain ⟨p, hp, rfl⟩ := List.mem_map.1 hc
    exact List.mem_map_of_mem ((hm p).2 hp)

/-! ## Examples -/

/-- A list of numbers and words, the kind chosen by a lottery. -/
def mixedList : Graph
  | 0 => some (.enumerator 1 [44] [40] [41])
  | 1 => some ((LotState.build (some [(2, (2, 2)), (3, (1, 1))]) [(4, (1, 1))]).node true)
  | 2 => some (.arith .u16)
  | 3 => some (.dict [[97], [98], [99]])
  | 4 => some (.arith .u8)
  | _ => none

/-- The same with the members of the lottery appended in another order, one of them twice. -/
def mixedList' : Graph
  | 0 => some (.enumerator 1 [44] [40] [41])
  | 1 => some ((LotState.build none [(4, (1, 1)), (3, (1, 1)), (4, (1, 1)), (2, (2, 2))]).node true)
  | 2 => some (.arith .u16)
  | 3 => some (.dict [[97], [98], [99]])
  | 4 => some (.arith .u8)
  | _ => none

theorem mixedList_texts {n : Nat} (hn : n < 2147483640) (s left : Bytes) :
    Makes mixedList Flags.init 0 n s left ↔ Makes mixedList' Flags.init 0 n s left := by
  refine C93_texts (R := fun i j => i = j ∧ i < 5) ?_ ?_ ?_ ?_ ⟨rfl, by norm_num⟩ hn s left
  · intro i u hi
    match i with
    | 0 | 1 | 2 | 3 | 4 => cases hi
    | n + 5 => cases hi
  · intro i u hi
    match i with
    | 0 | 1 | 2 | 3 | 4 => cases hi
    | n + 5 => cases hi
  · rintro i j ⟨rfl, hi⟩
    match i, hi with
    | 0, _ => exact ⟨_, _, rfl, rfl, .vec _ ⟨rfl, by norm_num⟩⟩
    | 1, _ =>
      refine ⟨_, _, rfl, rfl, NodeShuffle.to (R := Eq) ?_ fun c hc d e => ⟨e, ?_⟩⟩
      · refine C93_lottery true (fun p => ?_) (by simp [lotAll]) (fun p hp => ?_) rfl (by simp [lotAll]) (by simp [lotAll])
        · simp [lotAll]; tauto
        · simp [lotAll] at hp; rcases hp with rfl | rfl | rfl <;> norm_num
      · have hc : c = 2 ∨ c = 3 ∨ c = 4 := by simpa [LotState.build, LotState.node, LotState.ofList, LotState.append, Node.plainKids, Node.choices] using hc
        rcases hc with rfl | rfl | rfl <;> norm_num
    | 2, _ => exact ⟨_, _, rfl, rfl, .single rfl⟩
    | 3, _ => exact ⟨_, _, rfl, rfl, .single rfl⟩
    | 4, _ => exact ⟨_, _, rfl, rfl, .single rfl⟩
  · rintro i j ⟨rfl, hi⟩
    match i, hi with
    | 0, _ => exact ⟨4, -1, hasSize_eval 9 (by decide +kernel), hasSize_eval 9 (by decide +kernel), hasSize_eval 9 (by decide +kernel),
        hasSize_eval 9 (by decide +kernel), by norm_num, by norm_num, .inl rfl⟩
    | 1, _ => exact ⟨2, 3, hasSize_eval 9 (by decide +kernel), hasSize_eval 9 (by decide +kernel), hasSize_eval 9 (by decide +kernel),
        hasSize_eval 9 (by decide +kernel), by norm_num, by norm_num, .inr ⟨by norm_num, by norm_num⟩⟩
    | 2, _ => exact ⟨2, 2, hasSize_eval 9 (by decide +kernel), hasSize_eval 9 (by decide +kernel), hasSize_eval 9 (by decide +kernel),
        hasSize_eval 9 (by decide +kernel), by norm_num, by norm_num, .inr ⟨by norm_num, by norm_num⟩⟩
    | 3, _ => exact ⟨1, 1, hasSize_eval 9 (by decide +kernel), hasSize_eval 9 (by decide +kernel), hasSize_eval 9 (by decide +kernel),
        hasSize_eval 9 (by decide +kernel), by norm_num, by norm_num, .inr ⟨by norm_num, by norm_num⟩⟩
    | 4, _ => exact ⟨1, 1, hasSize_eval 9 (by decide +kernel), hasSize_eval 9 (by decide +kernel), hasSize_eval 9 (by decide +kernel),
        hasSize_eval 9 (by decide +kernel), by norm_num, by norm_num, .inr ⟨by norm_num, by norm_num⟩⟩

theorem Makes.of {G : Graph} {i : Id} {bs s left : Bytes} (h : bs.length ≤ INT_MAX) (hr : ARun G Flags.init i bs (.ok s) left) :
    Makes G Flags.init i bs.length s left := by
  obtain ⟨b, h1, h2⟩ := exists_blob (bs := bs) (by omega)
  exact ⟨b, bs, h1, h2, rfl, (returns_iff h1 h2).2 hr⟩

/-- The two make the same text of eight bytes. -/
example : Makes mixedList Flags.init 0 8 (str "(7,b)") [] ∧ Makes mixedList' Flags.init 0 8 (str "(7,b)") [] := by
  have : Makes mixedList Flags.init 0 8 (str "(7,b)") [] := by
    exact .of (bs := [0, 0, 255, 7, 0, 0, 0, 128]) (by decide) (arun_of 20 (by decide +kernel))
  exact ⟨this, (mixedList_texts (by norm_num) _ _).1 this⟩

/-- A pool in the opposite order with the strings listed twice. -/
example {n : Nat} (hn : n < 2147483640) (s left : Bytes) :
    Makes jsonGraph Flags.init 0 n s left ↔ Makes (jsonWith [5, 3, 4, 3, 2, 1]) Flags.init 0 n s left :=
  C93_json (fun c => by simp; tauto) (by norm_num) hn s left

/-- The four operators of exampleZZ.cpp, appended in the opposite order. -/
example {n : Nat} (hn : n < 2147483640) (s left : Bytes) :
    Makes (exprGraph [str "+", str "-", str "*", str "/"] 4) Flags.init 0 n s left ↔
      Makes (exprGraph [str "/", str "*", str "-", str "+"] 4) Flags.init 0 n s left :=
  C93_expr (ops := [str "+", str "-", str "*", str "/"]) (ops' := [str "/", str "*", str "-", str "+"]) (fun op => by simp; tauto)
    (by norm_num) (by norm_num) (by norm_num) hn s left

/-! ## Where the order matters -/

/-- A list over a lottery to which a byte, a byte and a Latin-1 string are appended. -/
def unboundedLast : Graph
  | 0 => some ((LotState.build none [(1, (1, 1)), (1, (1, 1)), (2, (1, -1))]).node false)
  | 1 => some (.arith .u8)
  | 2 => some .latin1
  | 3 => some (.vec 0 textJoin)
  | _ => none

/-- The same with the string appended before the second byte. -/
def unboundedInside : Graph
  | 0 => some ((LotState.build none [(1, (1, 1)), (2, (1, -1)), (1, (1, 1))]).node false)
  | 1 => some (.arith .u8)
  | 2 => some .latin1
  | 3 => some (.vec 0 textJoin)
  | _ => none

/-- `Append` forgets that a member is unbounded when a bounded one follows (stamp_lottery.h 216-224), so the order of the calls
changes `maxSize()`, and with it the texts of a list: of two bytes one list makes "65", the other makes no text but the empty
one. -/
theorem C93_violated : HasMax unboundedLast Flags.init 0 (-1) ∧ HasMax unboundedInside Flags.init 0 2 ∧
    Makes unboundedInside Flags.init 3 2 (str "65") [] ∧ ∀ s left, Makes unboundedLast Flags.init 3 2 s left → s = [] := by
  have h1 : HasMin unboundedLast Flags.init 0 2 := hasSize_eval 9 (by decide +kernel)
  have h2 : HasMax unboundedLast Flags.init 0 (-1) := hasSize_eval 9 (by decide +kernel)
  refine ⟨h2, hasSize_eval 9 (by decide +kernel), .of (bs := [0, 65]) (by decide) (arun_of 20 (by decide +kernel)), ?_⟩
  rintro s left ⟨b, bs, hr, hh, hl, h⟩
  obtain ⟨mn, mx, parts, xs, k1, k2, ⟨n, k3⟩, k4, _, rfl⟩ := (list_ok_iff (i := 3) rfl).1 ((returns_iff hr hh).1 h)
  obtain ⟨rfl, -⟩ := k1.unique h1
  obtain ⟨rfl, -⟩ := k2.unique h2
  rw [vecSplit_enough (by decide) (by decide) (by omega), if_neg (by decide), if_pos rfl] at k3
  have := parts_unbounded k3
  have : parts = [] := List.eq_nil_of_length_eq_zero (by omega)
  subst this
  cases k4
  rfl

end BS
