import Verif.Lemmas.Enough

/-!
# C39, C40, C41: enough data, and how much of it is taken
-/

namespace BS
open BlobLike

/-! ## C39 -/

/-- **C39**, for blobs of up to `L` bytes, where `L` is such that no list over unbounded stamps can get
more than 32768 elements: on a blob of at least `minSize()` bytes `ExtractStr` returns a string,
whatever the bytes. It neither throws nor does anything undefined. Missing: larger blobs (for which it
is violated), operators with two operands. -/
theorem C39_enough_partial {G : Graph} {fl : Flags} {L : Nat} (h : Plentiful G fl L) (hi : Idle fl) {i : Id}
    {m : Int} (hm : HasMin G fl i m) {b : Blob} {bs : Bytes} (hr : Reachable b) (hh : Holds b bs)
    (hlo : m ≤ bs.length) (hhi : bs.length ≤ L) : ∃ s left, Returns G fl i b s left := by
  have hn : G i ≠ none := by
    intro e
    obtain ⟨N, hN⟩ := hm
    have := hN (N + 1) (by omega)
    unfold sizeQ at this
    rw [e] at this; cases this
  obtain ⟨N, s, ⟨f', left⟩, e, p⟩ := plenty h hi L (le_refl _) i hn bs hhi (by rw [mnv_eq hm]; exact hlo)
  have hf : f' = fl := p.1.flags
  subst hf
  exact ⟨s, left, Returns.intro hr.valid hh ⟨N, e⟩⟩

/-- C39 without side conditions on lists of unbounded stamps: blobs of up to 65538 bytes. -/
theorem C39_small_partial {G : Graph} {fl : Flags} (hg : PickerGrammar G)
    (dict : ∀ i ws, G i = some (.dict ws) → ws ≠ [] ∧ ws.length ≤ 2 ^ 53)
    (user : ∀ i u, G i = some (.user u) → ∀ bs, u.mn ≤ (bs.length : Int) → ∃ s, (u.behave bs).1 = .ok s)
    (vec : ∀ i c join, G i = some (.vec c join) → ∀ mn mx, HasMin G fl c mn → HasMax G fl c mx →
      mx = -1 ∨ (mn ≤ mx ∧ 1 ≤ mx))
    (seq : ∀ i cs join unb, G i = some (.seq cs join unb) → ∀ j ∈ cs.dropLast, ∀ nd, G j = some nd → nd.Frugal)
    (lottery : ∀ i r l w smin smax, G i = some (.lottery r l w smin smax) →
      (w = 1 ∨ w = 2 ∨ w = 4 ∨ w = 8) ∧ l.length ≤ 2 ^ 53 ∧ (∃ j ∈ l, ∃ m, HasMin G fl j m ∧ m ≤ smin) ∧
      ∀ j ∈ l, ∀ m mx, HasMin G fl j m → HasMax G fl j mx → m + mx ≤ INT_MAX)
    (picker : ∀ i pool, G i = some (.picker pool) → pool.length ≤ 2 ^ 53)
    (hi : Idle fl) {i : Id} {m : Int} (hm : HasMin G fl i m) {b : Blob} {bs : Bytes} (hr : Reachable b)
    (hh : Holds b bs) (hlo : m ≤ bs.length) (hhi : bs.length ≤ 65538) : ∃ s left, Returns G fl i b s left := by
  refine C39_enough_partial (L := 65538) ⟨hg, by norm_num, dict, user, ?_, seq, lottery, picker⟩ hi hm hr hh hlo hhi
  intro i c join hG mn mx h1 h2
  refine (vec i c join hG mn mx h1 h2).imp (fun h => ⟨h, by norm_num, ?_⟩) id
  have hc := hg.closed i _ hG c (Or.inl (by simp [Node.plainKids]))
  have h0 := (hg.mn_bounds hc fl).1
  rw [mnv_eq h1] at h0
  have : ((65538 : Nat) - 2 : Int) / (mn + 2) < 32769 := Int.ediv_lt_of_lt_mul (by omega) (by push_cast; omega)
  omega

/-- A recursive grammar with a picker, a dictionary, a text join, an enumerator and a lottery. -/
def demoGraph : Graph
  | 0 => some (.picker [1, 2, 4])
  | 1 => some (.arith .i16)
  | 2 => some (.text 3)
  | 3 => some (.dict [[97], [98, 99]])
  | 4 => some (.enumerator 5 [44] [40] [41])
  | 5 => some (.lottery true [1, 0] 1 2 (-1))
  | _ => none

theorem demoGraph_grammar : PickerGrammar demoGraph := by
  refine SingleChild.grammar ⟨acyclic_of_rank (fun i => [0, 0, 1, 0, 1, 0].getD i 0) ?_, ⟨6, by norm_num, ?_⟩, ?_, ?_, ?_⟩
  · rintro i j ⟨nd, hG, hj⟩
    rcases i with _ | _ | _ | _ | _ | _ | i <;> cases hG <;> try cases hj
    · simp
    · rename_i h; cases h
    · simp
    · rename_i h; cases h
  · intro i hi
    obtain ⟨j, rfl⟩ : ∃ j, i = j + 6 := ⟨i - 6, (Nat.sub_add_cancel hi).symm⟩
    rfl
  · intro i nd hG j hj
    have : j ∈ [0, 1, 2, 3, 4, 5] := by
      rcases i with _ | _ | _ | _ | _ | _ | i <;> cases hG <;>
        simp [Node.plainKids, Node.choices, Node.text, Node.enumerator] at hj ⊢ <;> tauto
    simp only [List.mem_cons, List.not_mem_nil, or_false] at this
    rcases this with rfl | rfl | rfl | rfl | rfl | rfl <;> simp [demoGraph]
  · intro i nd hG
    rcases i with _ | _ | _ | _ | _ | _ | i <;> cases hG <;> simp [Node.text, Node.enumerator]
  · intro i nd hG hk hp
    rcases i with _ | _ | _ | _ | _ | _ | i
    · cases hG; exact absurd rfl (hp _)
    · exact ⟨2, 2, hasSize_eval 1 rfl, hasSize_eval 1 rfl, by norm_num, by norm_num, by norm_num, by norm_num⟩
    · cases hG; cases hk
    · exact ⟨1, 1, hasSize_eval 1 (by decide +kernel), hasSize_eval 1 (by decide +kernel),
        by norm_num, by norm_num, by norm_num, by norm_num⟩
    · cases hG; cases hk
    · exact ⟨3, -1, hasSize_eval 1 rfl, hasSize_eval 1 rfl, by norm_num, by norm_num, by norm_num, by norm_num⟩
    · cases hG

theorem demoGraph_sizes : (HasMin demoGraph Flags.init 0 3 ∧ HasMax demoGraph Flags.init 0 (-1)) ∧
    (HasMin demoGraph Flags.init 1 2 ∧ HasMax demoGraph Flags.init 1 2) ∧
    (HasMin demoGraph Flags.init 3 1 ∧ HasMax demoGraph Flags.init 3 1) ∧
    (HasMin demoGraph Flags.init 5 3 ∧ HasMax demoGraph Flags.init 5 (-1)) := by
  refine ⟨⟨?_, ?_⟩, ⟨?_, ?_⟩, ⟨?_, ?_⟩, ⟨?_, ?_⟩⟩ <;> exact hasSize_eval 9 (by decide +kernel)

theorem HasMin.eq {G : Graph} {fl : Flags} {i : Id} {v v' : Int} (h : HasMin G fl i v) (h' : HasMin G fl i v') :
    v = v' := (SizeRuns.unique h h').1

theorem HasMax.eq {G : Graph} {fl : Flags} {i : Id} {v v' : Int} (h : HasMax G fl i v) (h' : HasMax G fl i v') :
    v = v' := (SizeRuns.unique h h').1

theorem demoGraph_plentiful : Plentiful demoGraph Flags.init 163840 := by
  obtain ⟨⟨a1, a2⟩, ⟨b1, b2⟩, ⟨c1, c2⟩, d1, d2⟩ := demoGraph_sizes
  refine ⟨demoGraph_grammar, by norm_num, ?_, ?_, ?_, ?_, ?_, ?_⟩
  · intro i ws hG
    rcases i with _ | _ | _ | _ | _ | _ | i <;> cases hG
    decide
  · intro i u hG
    rcases i with _ | _ | _ | _ | _ | _ | i <;> cases hG
  · intro i c join hG mn mx h1 h2
    rcases i with _ | _ | _ | _ | _ | _ | i <;> cases hG
    · rw [h1.eq c1, h2.eq c2]; right; norm_num
    · rw [h1.eq d1, h2.eq d2]; left; norm_num
  · intro i cs join unb hG
    rcases i with _ | _ | _ | _ | _ | _ | i <;> cases hG
  · intro i r l w smin smax hG
    rcases i with _ | _ | _ | _ | _ | _ | i <;> cases hG
    refine ⟨Or.inl rfl, by norm_num, ⟨1, by simp, 2, b1, le_refl _⟩, ?_⟩
    intro j hj m mx h1 h2
    simp only [List.mem_cons, List.not_mem_nil, or_false] at hj
    rcases hj with rfl | rfl
    · rw [h1.eq b1, h2.eq b2]; norm_num
    · rw [h1.eq a1, h2.eq a2]; norm_num
  · intro i pool hG
    rcases i with _ | _ | _ | _ | _ | _ | i <;> cases hG
    norm_num

/-- C39 applies to it: any three bytes will do. -/
example {b : Blob} {bs : Bytes} (hr : Reachable b) (hh : Holds b bs) (h3 : 3 ≤ bs.length)
    (hL : bs.length ≤ 163840) : ∃ s left, Returns demoGraph Flags.init 0 b s left :=
  C39_enough_partial demoGraph_plentiful init_idle demoGraph_sizes.1.1 hr hh (by omega) hL

example : (extract demoGraph 20 0 (Flags.init, ([255, 255, 0, 0, 1, 0, 255, 0, 0, 77, 2] : ABlob))).1
    = .ok (str "(589)") := by decide +kernel

/-- Text of Latin-1 strings. -/
def textGraph : Graph
  | 0 => some (.text 1)
  | 1 => some .latin1
  | _ => none

/-- **C39 is violated** by large blobs. A text join over a Latin-1 stamp asks for 5 bytes; given
16777227 bytes it throws `OutOfData`: the one piece it computes in `float` arithmetic is a byte larger
than what is left. -/
theorem C39_violated {b : Blob} {rest : Bytes} (hr : Reachable b) (hh : Holds b (0 :: 0 :: 1 :: 0 :: rest))
    (hl : rest.length = 16777223) :
    HasMin textGraph Flags.init 0 5 ∧ Throws textGraph Flags.init 0 b rest := by
  refine ⟨hasSize_eval 9 (by decide +kernel), Throws.intro hr.valid hh (Extracts.intro (n := 2) ?_ (by simp))⟩
  have hlen : (0 :: 0 :: 1 :: 0 :: rest : Bytes).length = 16777227 := by
    rw [List.length_cons, List.length_cons, List.length_cons, List.length_cons, hl]
  have key : vecSplit 1 1 (-1) (0 :: 0 :: 1 :: 0 :: rest : ABlob) = (.outOfData, rest) := by
    rw [vecSplit_enough (by decide) (by decide) (by rw [hlen]; norm_num), if_neg (by decide), if_pos rfl]
    unfold vecUnbounded
    rw [M.bind_ok (M.get_apply _)]
    dsimp only
    rw [size_abs, hlen, if_neg (by decide)]
    have ho : (oracle : M ABlob Nat) (0 :: 0 :: 1 :: 0 :: rest : Bytes) = (.ok 0, 1 :: 0 :: rest) := by
      rw [oracle_abs, if_neg (by rw [hlen]; norm_num)]; rfl
    rw [M.bind_ok ho, show countTarget (toSz (((16777227 : Nat) : Int) - 2) / toSz (((toSz 1 : Nat) : Int) + 2))
      0 = 1 by decide +kernel]
    have h0 : (sizeOracles 1 0 : M ABlob _) (1 :: 0 :: rest : Bytes) = (.ok ([1], 1), rest) := by
      unfold sizeOracles
      have ho : (oracle : M ABlob Nat) (1 :: 0 :: rest : Bytes) = (.ok 1, rest) := by
        rw [oracle_abs, if_neg (by simp)]; rfl
      rw [M.bind_ok ho]; rfl
    rw [M.bind_ok h0, M.bind_ok (M.get_apply _)]
    dsimp only
    have h1 : (M.lift (ckInt ((1 : Int) * ((1 : Nat) : Int))) : M ABlob Int) rest = (.ok 1, rest) := rfl
    rw [M.bind_ok h1]
    have h2 : (M.lift (ckInt (wrap32 ((size rest : Nat) : Int) - 1)) : M ABlob Int) rest
        = (.ok 16777222, rest) := by
      rw [size_abs, hl, wrap32_of_fits (by norm_num) (by norm_num), ckInt_ok (by norm_num) (by norm_num)]; rfl
    rw [M.bind_ok h2, if_neg (by decide), if_neg (by decide)]
    unfold unbChopLoop
    dsimp only
    have h3 : (M.lift (FV.toCInt (FV.add f32 (FV.add f32 (FV.ofInt f32 1)
        (FV.mul f32 (FV.div f32 (FV.ofInt f32 ((1 : Nat) : Int)) (FV.ofInt f32 1)) (FV.ofInt f32 16777222)))
        (FV.fin 0))) : M ABlob Int) rest = (.ok 16777224, rest) := by
      have : FV.toCInt (FV.add f32 (FV.add f32 (FV.ofInt f32 1)
        (FV.mul f32 (FV.div f32 (FV.ofInt f32 ((1 : Nat) : Int)) (FV.ofInt f32 1)) (FV.ofInt f32 16777222)))
        (FV.fin 0)) = .ok 16777224 := by decide +kernel
      rw [this]; rfl
    rw [M.bind_ok h3]
    refine M.bind_ood ?_
    rw [chop_abs, if_pos (by rw [hl]; decide)]
  have e1 : sizeQ textGraph 1 .min 1 Flags.init = (.ok 1, Flags.init) := rfl
  have e2 : sizeQ textGraph 1 .max 1 Flags.init = (.ok (-1), Flags.init) := rfl
  unfold extract
  show ((liftF (sizeQ textGraph 1 .min 1) : XM ABlob Int) >>= _) (Flags.init, _) = _
  rw [M.bind_ok (s' := (Flags.init, (0 :: 0 :: 1 :: 0 :: rest : ABlob))) (a := (1 : Int)) (by unfold liftF; rw [e1])]
  rw [M.bind_ok (s' := (Flags.init, (0 :: 0 :: 1 :: 0 :: rest : ABlob))) (a := (-1 : Int)) (by unfold liftF; rw [e2])]
  refine M.bind_ood ?_
  unfold liftB
  dsimp only
  rw [key]

example : ∃ rest : Bytes, rest.length = 16777223 := ⟨List.replicate 16777223 7, List.length_replicate⟩

/-! ## C40 -/

/-- **C40**, in the range of C39, for stamps whose leaves keep their word: what is taken lies between
`minSize()` and `maxSize()`. Missing: larger blobs, operators with two operands, `StampJSONString`. -/
theorem C40_consumption_partial {G : Graph} {fl : Flags} {L : Nat} (h : Plentiful G fl L) (hh : Honest G fl)
    (hi : Idle fl) {i : Id} {m mx : Int} (hm : HasMin G fl i m) (hx : HasMax G fl i mx) {b : Blob}
    {bs s left : Bytes} (hr : Reachable b) (hb : Holds b bs) (hlo : m ≤ bs.length) (hhi : bs.length ≤ L)
    (hret : Returns G fl i b s left) :
    m ≤ (bs.length : Int) - left.length ∧ (mx ≠ -1 → (bs.length : Int) - left.length ≤ mx) := by
  have hn : G i ≠ none := by
    intro e
    obtain ⟨N, hN⟩ := hm
    have := hN (N + 1) (by omega)
    unfold sizeQ at this
    rw [e] at this; cases this
  obtain ⟨N, s', ⟨f', left'⟩, e, p⟩ := plenty h hi L (le_refl _) i hn bs hhi (by rw [mnv_eq hm]; exact hlo)
  obtain ⟨n, hn'⟩ := Returns.inv hr hb hret
  have e1 := e (max n N) (by omega)
  have e2 := hn' (max n N) (by omega)
  dsimp only at e1
  rw [e2] at e1
  injection e1 with _ e3
  injection e3 with _ e4
  obtain ⟨t1, t2⟩ := p.1.takes hh
  rw [← e4] at t1 t2
  rw [mnv_eq hm] at t1
  rw [mxv_eq hx] at t2
  dsimp only at t1 t2
  refine ⟨?_, fun hne => ?_⟩
  · omega
  · have := t2 hne
    omega

theorem demoGraph_honest : Honest demoGraph Flags.init := by
  obtain ⟨⟨a1, a2⟩, ⟨b1, b2⟩, _, _⟩ := demoGraph_sizes
  refine ⟨?_, ?_, ?_⟩
  · intro i hG
    rcases i with _ | _ | _ | _ | _ | _ | i <;> cases hG
  · intro i u hG
    rcases i with _ | _ | _ | _ | _ | _ | i <;> cases hG
  · intro i r l w smin smax hG
    rcases i with _ | _ | _ | _ | _ | _ | i <;> cases hG
    intro j hj m mx h1 h2
    simp only [List.mem_cons, List.not_mem_nil, or_false] at hj
    rcases hj with rfl | rfl
    · rw [h1.eq b1]; norm_num
    · rw [h1.eq a1]; norm_num

example {b : Blob} {bs s left : Bytes} (hr : Reachable b) (hb : Holds b bs) (h3 : 3 ≤ bs.length)
    (hL : bs.length ≤ 163840) (h : Returns demoGraph Flags.init 0 b s left) : left.length + 3 ≤ bs.length := by
  have := (C40_consumption_partial demoGraph_plentiful demoGraph_honest init_idle demoGraph_sizes.1.1
    demoGraph_sizes.1.2 hr hb (by omega) hL h).1
  omega

/-- **C40 is violated** by `StampJSONString`: it asks for 8 bytes and takes 1. -/
theorem C40_violated {G : Graph} {i : Id} (hG : G i = some .jsonStr) (fl : Flags) {b : Blob} {x : UInt8}
    {rest : Bytes} (hr : Reachable b) (hb : Holds b (x :: rest)) :
    HasMin G fl i 8 ∧ ∃ s, Returns G fl i b s rest := by
  refine ⟨leaf_min (by unfold sizeQ; rw [hG]; rfl), ?_⟩
  have hw : (chooseStampSize lcAlphaSmall.length).1 = 1 := by decide +kernel
  obtain ⟨k, hk, -, e⟩ := (extractDict_abs lcAlphaSmall (by decide +kernel) (by decide +kernel) (x :: rest)).2
    (by rw [hw, List.length_cons]; omega)
  rw [hw] at e
  refine ⟨[34] ++ lcAlphaSmall[k] ++ [34], Returns.intro hr.valid hb (Extracts.intro (n := 1) ?_ (by simp))⟩
  unfold extract
  rw [hG]
  have e' : (extractJsonStr : M ABlob Bytes) (x :: rest : ABlob) = (.ok ([34] ++ lcAlphaSmall[k] ++ [34]), rest) :=
    M.bind_ok e
  show (((extractJsonStr : M ABlob Bytes) (x :: rest : ABlob)).1,
    (fl, ((extractJsonStr : M ABlob Bytes) (x :: rest : ABlob)).2)) = _
  rw [e']

example : (extract jsonGraph 1 3 (Flags.init, ([0, 1, 2, 3, 4, 5, 6, 7] : ABlob))).2.2 = [1, 2, 3, 4, 5, 6, 7] := by
  decide +kernel

/-! ## C41 -/

theorem jsonGraph_sizes : (HasMin jsonGraph Flags.init 0 10 ∧ HasMax jsonGraph Flags.init 0 (-1)) ∧
    (HasMin jsonGraph Flags.init 6 18 ∧ HasMax jsonGraph Flags.init 6 (-1)) := by
  refine ⟨⟨?_, ?_⟩, ⟨?_, ?_⟩⟩ <;> exact hasSize_eval 9 (by decide +kernel)

theorem jsonGraph_plentiful : Plentiful jsonGraph Flags.init 393229 := by
  obtain ⟨⟨a1, a2⟩, b1, b2⟩ := jsonGraph_sizes
  refine ⟨jsonGraph_grammar, by norm_num, ?_, ?_, ?_, ?_, ?_, ?_⟩
  · intro i ws hG
    rcases i with _ | _ | _ | _ | _ | _ | _ | _ | i <;> cases hG
  · intro i u hG
    rcases i with _ | _ | _ | _ | _ | _ | _ | _ | i <;> cases hG
  · intro i c join hG mn mx h1 h2
    rcases i with _ | _ | _ | _ | _ | _ | _ | _ | i <;> cases hG
    · rw [h1.eq a1, h2.eq a2]; left; norm_num
    · rw [h1.eq b1, h2.eq b2]; left; norm_num
  · intro i cs join unb hG
    rcases i with _ | _ | _ | _ | _ | _ | _ | _ | i <;> cases hG
    intro j hj nd hnd
    simp only [List.dropLast_cons_of_ne_nil, List.dropLast_singleton, ne_eq, List.cons_ne_self, not_false_eq_true,
      List.mem_singleton] at hj
    subst hj
    cases hnd
    trivial
  · intro i r l w smin smax hG
    rcases i with _ | _ | _ | _ | _ | _ | _ | _ | i <;> cases hG
  · intro i pool hG
    rcases i with _ | _ | _ | _ | _ | _ | _ | _ | i <;> cases hG
    norm_num

/-- **C41**, for blobs of up to 393229 bytes: `StampJSON` returns a string for every blob of at least
10 bytes and throws `OutOfData` for every smaller one. Missing: larger blobs, for which it is
violated. -/
theorem C41_json_partial {b : Blob} {bs : Bytes} (hr : Reachable b) (hh : Holds b bs) :
    (10 ≤ bs.length → bs.length ≤ 393229 → ∃ s left, Returns jsonGraph Flags.init 0 b s left) ∧
    (bs.length < 10 → ∃ left, Throws jsonGraph Flags.init 0 b left) := by
  refine ⟨fun h1 h2 => C39_enough_partial jsonGraph_plentiful init_idle jsonGraph_sizes.1.1 hr hh (by omega) h2,
    fun h => ⟨_, (C31_picker_partial jsonGraph_grammar (i := 0) rfl (by norm_num) init_idle jsonGraph_sizes.1.1
      (by norm_num) bs).2 (by omega) b hr hh⟩⟩

example : (extract jsonGraph 9 0 (Flags.init, ([0, 0, 1, 0, 0, 0, 0, 0, 0, 0] : ABlob))).1 = .ok (str "1") := by
  decide +kernel

/-- A blob on which `StampJSON` picks the array and the array counts 32769 elements with size oracles
of 65535 each. -/
def jsonFlood : Bytes := 0 :: 0 :: List.replicate 393230 255

/-- **C41 is violated** by large blobs: on this one of 393232 bytes the sum of the size oracles of the
array overflows `int`. -/
theorem C41_violated {b : Blob} (hr : Reachable b) (hh : Holds b jsonFlood) :
    ∃ fl' b', Extracts jsonGraph Flags.init 0 b (.ub .intOverflow) fl' b' := by
  have hsz : ∀ n ≥ 9, ∀ sel i v, (sizeQ jsonGraph 9 sel i Flags.init).1 = .ok v →
      sizeQ jsonGraph n sel i Flags.init = (.ok v, Flags.init) := by
    intro n hn sel i v h
    have h9 : sizeQ jsonGraph 9 sel i Flags.init = (.ok v, Flags.init) :=
      Prod.ext h ((keeps_sizeQ jsonGraph 9 sel i Flags.init).2.2 _ _ (Prod.ext h rfl))
    rw [sizeQ_stable hn (by rw [h]; simp), h9]
  have key : ∃ left, vecSplit 9 10 (-1) (List.replicate 393230 255 : ABlob) = (.ub .intOverflow, left) := by
    rw [vecSplit_enough (by decide) (by decide) (by rw [List.length_replicate]; norm_num),
      if_neg (by decide), if_pos rfl]
    unfold vecUnbounded
    rw [M.bind_ok (M.get_apply _)]
    dsimp only
    rw [size_abs, List.length_replicate, if_neg (by decide)]
    have ho : (oracle : M ABlob Nat) (List.replicate 393230 255) = (.ok 65535, List.replicate 393228 255) := by
      have : (List.replicate 393230 255 : Bytes) = 255 :: 255 :: List.replicate 393228 255 := by
        rw [show 393230 = 393228 + 1 + 1 from rfl, List.replicate_succ, List.replicate_succ]
      rw [this, oracle_cons, leNat_ff]
    rw [M.bind_ok ho, show countTarget (toSz (((393230 : Nat) : Int) - 2) / toSz (((toSz 10 : Nat) : Int) + 2))
      65535 = 32769 by decide +kernel]
    obtain ⟨left, hl⟩ := sizeOracles_overflow 32769 0 393228 (by norm_num) (by norm_num) (by norm_num)
    exact ⟨left, M.bind_ub hl⟩
  obtain ⟨left, hl⟩ := key
  have hvec : extract jsonGraph 10 4 (Flags.init, (List.replicate 393230 255 : ABlob))
      = (.ub .intOverflow, (Flags.init, left)) := by
    unfold extract
    show ((liftF (sizeQ jsonGraph 9 .min 0) : XM ABlob Int) >>= _) (Flags.init, _) = _
    rw [M.bind_ok (s' := (Flags.init, (List.replicate 393230 255 : ABlob))) (a := (10 : Int))
      (by unfold liftF; rw [hsz 9 (by omega) .min 0 10 (by decide +kernel)])]
    rw [M.bind_ok (s' := (Flags.init, (List.replicate 393230 255 : ABlob))) (a := (-1 : Int))
      (by unfold liftF; rw [hsz 9 (by omega) .max 0 (-1) (by decide +kernel)])]
    refine M.bind_ub ?_
    unfold liftB
    dsimp only
    rw [hl]
  have hlen : List.length jsonFlood = 393232 := by
    unfold jsonFlood
    rw [List.length_cons, List.length_cons, List.length_replicate]
  have hpool : PoolSizes jsonGraph Flags.init [1, 2, 3, 4, 5] (fun j => [10, 8, 8, 8, 14, 22].getD j 0)
      (fun j => [-1, 8, 8, 8, -1, -1].getD j 0) := by
    constructor
    · intro j hj
      simp only [List.mem_cons, List.not_mem_nil, or_false] at hj
      rcases hj with rfl | rfl | rfl | rfl | rfl <;>
        refine ⟨hasSize_eval 9 ?_, by simp, by simp⟩ <;> decide +kernel
    · intro j hj
      simp only [List.mem_cons, List.not_mem_nil, or_false] at hj
      rcases hj with rfl | rfl | rfl | rfl | rfl <;>
        refine ⟨hasSize_eval 9 ?_, by simp⟩ <;> decide +kernel
  obtain ⟨N, hN⟩ := picker_head (G := jsonGraph) (i := 0) rfl hpool (bs := jsonFlood) (by omega)
  have hcand : pickCandidates (fun j => [10, 8, 8, 8, 14, 22].getD j 0)
      (fun j => [-1, 8, 8, 8, -1, -1].getD j 0) (jsonFlood.length - 2) [1, 2, 3, 4, 5] = [4, 5] := by
    rw [hlen]; decide +kernel
  obtain ⟨N', hN'⟩ := Extracts.intro hvec (by simp)
  have hpick : Extracts jsonGraph Flags.init 0 (jsonFlood : ABlob) (.ub .intOverflow) Flags.init left := by
    refine Extracts.intro (n := max N N' + 1) ?_ (by simp)
    rw [hN _ (le_max_left _ _), hcand, if_neg (by simp)]
    have h1 : (M.lift (oracleProportion (leNat (jsonFlood.take 2)) 0 (toSz (([4, 5] : List Id).length - 1 : Int))) :
        XM ABlob Nat) (Flags.init, jsonFlood.drop 2) = (.ok 0, (Flags.init, jsonFlood.drop 2)) := by
      have : oracleProportion (leNat (jsonFlood.take 2)) 0 (toSz (([4, 5] : List Id).length - 1 : Int)) = .ok 0 := by
        unfold jsonFlood
        rw [List.take_succ_cons, List.take_succ_cons, List.take_zero]
        decide +kernel
      rw [this]; rfl
    rw [M.bind_ok h1]
    have h2 : (M.lift (vecGet ([4, 5] : List Id) ((0 : Nat) : Int)) : XM ABlob Id) (Flags.init, jsonFlood.drop 2)
        = (.ok 4, (Flags.init, jsonFlood.drop 2)) := rfl
    rw [M.bind_ok h2]
    exact hN' _ (le_max_right _ _)
  rw [holds_iff hr.valid] at hh
  rw [← hh] at hpick
  obtain ⟨b', h1, _⟩ := Extracts.conc hr.valid (by simp) hpick
  exact ⟨_, b', h1⟩

end BS
