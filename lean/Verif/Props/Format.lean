import Verif.Lemmas.Invert
import Verif.Lemmas.Returns
import Verif.Lemmas.GalleySetSpec
import Verif.Props.Dict

/-!
# C26, C27: the text that enumerators, text joins and operator stamps build
-/

namespace BS

/-! ## C26 -/

theorem intersperse_cons {α : Type} (sep x y : α) (ys : List α) :
    (x :: y :: ys).intersperse sep = x :: sep :: (y :: ys).intersperse sep := rfl

theorem joinLoop_nonempty (sep : Bytes) (res : Bytes) (h : res ≠ []) (xs : List Bytes) :
    joinLoop sep res xs = sep.intercalate (res :: xs) := by
  induction xs generalizing res with
  | nil => simp [joinLoop, List.intercalate]
  | cons x xs ih =>
    have e : joinLoop sep res (x :: xs) = joinLoop sep ((res ++ sep) ++ x) xs := by
      show joinLoop sep ((if res.isEmpty then res else res ++ sep) ++ x) xs = _
      rw [if_neg (by simpa using h)]
    rw [e, ih _ (by simp [h])]
    cases xs with
    | nil => simp [List.intercalate, List.intersperse]
    | cons y ys => simp only [List.intercalate, intersperse_cons, List.flatten_cons, List.append_assoc]

/-- The loop of the code skips the empty strings at the front, then puts separators between all the
rest. -/
theorem joinLoop_eq (sep : Bytes) (xs : List Bytes) :
    joinLoop sep [] xs = sep.intercalate (xs.dropWhile (·.isEmpty)) := by
  induction xs with
  | nil => rfl
  | cons x xs ih =>
    cases x with
    | nil => exact ih
    | cons c x =>
      show joinLoop sep (([] : Bytes) ++ (c :: x)) xs = _
      rw [List.nil_append, joinLoop_nonempty _ _ (by simp)]
      rfl

theorem joinLoop_head (sep : Bytes) {xs : List Bytes} (h : xs.head? ≠ some []) :
    joinLoop sep [] xs = sep.intercalate xs := by
  rw [joinLoop_eq]
  congr 1
  cases xs with
  | nil => rfl
  | cons x xs =>
    cases x with
    | nil => simp at h
    | cons c x => rfl

theorem vec_returns {G : Graph} {i c : Id} {join : List Bytes → Bytes}
    (hG : G i = some (.vec c join)) {fl : Flags} {b : Blob} {s left : Bytes}
    (hr : Reachable b) (h : Returns G fl i b s left) :
    ∃ mn mx parts xs, HasMin G fl c mn ∧ HasMax G fl c mx ∧ VecReturns mn mx b parts left ∧
      List.Forall₂ (Gives G fl c) parts xs ∧ s = join xs := by
  have hh : Holds b b.abs := (holds_iff hr.valid _).2 rfl
  obtain ⟨n, hn⟩ := Returns.inv hr hh h
  obtain ⟨mn, mx, parts, xs, -, h1, h2, h3, h4, h5⟩ := extract_vec_ok hG (hn (n + 1) (by omega))
  exact ⟨mn, mx, parts, xs, .intro h1, .intro h2, VecReturns.intro hr.valid hh h3,
    h4.imp fun p x ⟨left, e⟩ => Gives.intro e, h5⟩

/-- **C26**, for outputs whose first element string is not empty: what the enumerator returns is the
left bracket, the strings its element stamp gives for the pieces of the split joined by the
separator, and the right bracket. -/
theorem C26_enumerator_partial {G : Graph} {i c : Id} {sep l r : Bytes}
    (hG : G i = some (.enumerator c sep l r)) {fl : Flags} {b : Blob} {s left : Bytes}
    (hr : Reachable b) (h : Returns G fl i b s left) :
    ∃ mn mx parts xs, HasMin G fl c mn ∧ HasMax G fl c mx ∧ VecReturns mn mx b parts left ∧
      List.Forall₂ (Gives G fl c) parts xs ∧
      (xs.head? ≠ some [] → s = l ++ sep.intercalate xs ++ r) := by
  obtain ⟨mn, mx, parts, xs, h1, h2, h3, h4, h5⟩ := vec_returns hG hr h
  refine ⟨mn, mx, parts, xs, h1, h2, h3, h4, fun hx => ?_⟩
  rw [h5, enumJoin, joinLoop_head sep hx]

/-- **C26** for `StampText`: the element strings separated by single spaces. -/
theorem C26_text_partial {G : Graph} {i c : Id}
    (hG : G i = some (.text c)) {fl : Flags} {b : Blob} {s left : Bytes}
    (hr : Reachable b) (h : Returns G fl i b s left) :
    ∃ mn mx parts xs, HasMin G fl c mn ∧ HasMax G fl c mx ∧ VecReturns mn mx b parts left ∧
      List.Forall₂ (Gives G fl c) parts xs ∧
      (xs.head? ≠ some [] → s = [32].intercalate xs) := by
  obtain ⟨mn, mx, parts, xs, h1, h2, h3, h4, h5⟩ := vec_returns hG hr h
  refine ⟨mn, mx, parts, xs, h1, h2, h3, h4, fun hx => ?_⟩
  rw [h5, textJoin, joinLoop_head [32] hx]

/-- A dictionary of the empty word and "a", under an enumerator `[ , ]`. -/
def enumExample : Graph
  | 0 => some (.enumerator 1 [44] [91] [93])
  | 1 => some (.dict [[], [97]])
  | _ => none

/-- **C26 is violated** when the first element string is empty: "", "a" is printed `[a]`, not
`[,a]`, although the element stamp gives "" and "a" for the two pieces. -/
theorem C26_violated {b : Blob} (hr : Reachable b) (hh : Holds b [0, 255]) :
    Gives enumExample Flags.init 1 [0] [] ∧ Gives enumExample Flags.init 1 [255] [97] ∧
    VecReturns 1 1 b [[0], [255]] [] ∧
    Returns enumExample Flags.init 0 b [91, 97, 93] [] ∧
    ([91, 97, 93] : Bytes) ≠ [91] ++ [44].intercalate [[], [97]] ++ [93] := by
  refine ⟨Gives.intro (n := 1) (left := []) (extract_eval (by decide +kernel) (by decide +kernel)),
    Gives.intro (n := 1) (left := []) (extract_eval (by decide +kernel) (by decide +kernel)),
    VecReturns.intro hr.valid hh (n := 3) (by rfl), ?_, by decide⟩
  exact Returns.intro hr.valid hh (Extracts.intro (n := 4)
    (extract_eval (by decide +kernel) (by decide +kernel)) (by simp))

/-- Three elements. -/
example : enumJoin [44, 32] [91] [93] [[49], [], [50]] = "[1, , 2]".toUTF8.toList := by
  decide +kernel

/-! ## C27 -/

/-- **C27** (unary). The operator stamp returns `op(arg)` for what its operand returns on the same
blob, and takes the same bytes. -/
theorem C27_unary {G : Graph} {i c : Id} {op : Bytes} (hG : G i = some (.unary op c)) {fl : Flags}
    {b : Blob} {s left : Bytes} (hr : Reachable b) (h : Returns G fl i b s left) :
    ∃ x, Returns G fl c b x left ∧ s = op ++ "(".toUTF8.toList ++ x ++ ")".toUTF8.toList := by
  have hh : Holds b b.abs := (holds_iff hr.valid _).2 rfl
  obtain ⟨n, hn⟩ := Returns.inv hr hh h
  obtain ⟨x, -, h1, h2⟩ := extract_unary_ok hG (hn (n + 1) (by omega))
  have e1 : "(".toUTF8.toList = [40] := by decide +kernel
  have e2 : ")".toUTF8.toList = [41] := by decide +kernel
  exact ⟨x, Returns.intro hr.valid hh (Extracts.intro h1 (by simp)), by rw [h2, e1, e2]; rfl⟩

theorem setModLoop_length {nUnb : Nat} {ss : List SizePair} {p u : FV} {a a' : ABlob} {r : SetMods}
    (h : setModLoop nUnb ss p u a = (.ok r, a')) : r.mods.length = ss.length := by
  induction ss generalizing p u a a' r with
  | nil => cases h; rfl
  | cons s ss ih =>
    unfold setModLoop at h
    split at h
    · obtain ⟨r', s1, h1, h2⟩ := M.bind_eq_ok.1 h
      cases h2
      simp only [List.length_cons, ih h1]
    split at h
    · split at h
      · obtain ⟨r', s1, h1, h2⟩ := M.bind_eq_ok.1 h
        cases h2
        simp only [List.length_cons, ih h1]
      · obtain ⟨o, s0, h0, h⟩ := M.bind_eq_ok.1 h
        obtain ⟨r', s1, h1, h2⟩ := M.bind_eq_ok.1 h
        cases h2
        simp only [List.length_cons, ih h1]
    · obtain ⟨o, s0, h0, h⟩ := M.bind_eq_ok.1 h
      obtain ⟨d, s0', h0', h⟩ := M.bind_eq_ok.1 h
      obtain ⟨r', s1, h1, h2⟩ := M.bind_eq_ok.1 h
      cases h2
      simp only [List.length_cons, ih h1]

theorem setModFix_length {ss : List SizePair} {ms : List FV} {u : FV} (h : ms.length = ss.length) :
    (setModFix ss ms u).1.length = ss.length := by
  induction ss generalizing ms u with
  | nil => cases ms <;> rfl
  | cons s ss ih =>
    cases ms with
    | nil => cases h
    | cons m ms =>
      have h' : ms.length = ss.length := by simpa using h
      unfold setModFix
      split <;> simp only [List.length_cons, ih h']

theorem setChopLoop_length {kv ku : FV} {ss : List SizePair} {ms : List FV} {vr ur : FV}
    (hl : ms.length = ss.length) {a a' : ABlob} {ps : List ABlob}
    (h : setChopLoop kv ku ss ms vr ur a = (.ok ps, a')) : ps.length = ss.length := by
  induction ss generalizing ms vr ur a a' ps with
  | nil => unfold setChopLoop at h; cases h; rfl
  | cons s ss ih =>
    cases ms with
    | nil => cases hl
    | cons m ms =>
      have h' : ms.length = ss.length := by simpa using hl
      unfold setChopLoop at h
      split at h
      · obtain ⟨_, _, _, h⟩ := M.bind_eq_ok.1 h
        obtain ⟨_, _, _, h⟩ := M.bind_eq_ok.1 h
        obtain ⟨_, _, _, h⟩ := M.bind_eq_ok.1 h
        obtain ⟨_, _, h1, h⟩ := M.bind_eq_ok.1 h
        cases h
        simp only [List.length_cons, ih h' h1]
      split at h
      · obtain ⟨_, _, _, h⟩ := M.bind_eq_ok.1 h
        obtain ⟨_, _, h1, h⟩ := M.bind_eq_ok.1 h
        cases h
        simp only [List.length_cons, ih h' h1]
      · obtain ⟨_, _, _, h⟩ := M.bind_eq_ok.1 h
        obtain ⟨_, _, _, h⟩ := M.bind_eq_ok.1 h
        obtain ⟨_, _, _, h⟩ := M.bind_eq_ok.1 h
        obtain ⟨_, _, _, h⟩ := M.bind_eq_ok.1 h
        obtain ⟨_, _, h1, h⟩ := M.bind_eq_ok.1 h
        cases h
        simp only [List.length_cons, ih h' h1]

/-- The set galley returns as many pieces as there are stamps. -/
theorem setSplit_length {ss : List SizePair} {a a' : ABlob} {ps : List ABlob}
    (h : setSplit ss a = (.ok ps, a')) : ps.length = ss.length := by
  unfold setSplit at h
  obtain ⟨t, _, _, h⟩ := M.bind_eq_ok.1 h
  obtain ⟨b, _, _, h⟩ := M.bind_eq_ok.1 h
  dsimp only at h
  split at h
  · cases h
  obtain ⟨lim, _, _, h⟩ := M.bind_eq_ok.1 h
  obtain ⟨r, _, h1, h⟩ := M.bind_eq_ok.1 h
  have hl := setModLoop_length h1
  obtain ⟨fv, _, _, h⟩ := M.bind_eq_ok.1 h
  obtain ⟨fu, _, _, h⟩ := M.bind_eq_ok.1 h
  refine setChopLoop_length ?_ h
  split
  · exact setModFix_length hl
  · exact hl

/-- **C27** (binary). The operator stamp returns `(left op right)` for what its operands return on
the two pieces of the split of the blob. -/
theorem C27_binary {G : Graph} {i c d : Id} {op : Bytes} (hG : G i = some (.binary op c d))
    {fl : Flags} {b : Blob} {s left : Bytes} (hr : Reachable b) (h : Returns G fl i b s left) :
    ∃ (mn mx mn' mx' : Int) (p q x y : Bytes), HasMin G fl c mn ∧ HasMax G fl c mx ∧
      HasMin G fl d mn' ∧ HasMax G fl d mx' ∧ SetReturns [(mn, mx), (mn', mx')] b [p, q] left ∧
      Gives G fl c p x ∧ Gives G fl d q y ∧
      s = "(".toUTF8.toList ++ x ++ " ".toUTF8.toList ++ op ++ " ".toUTF8.toList ++ y ++
        ")".toUTF8.toList := by
  have hh : Holds b b.abs := (holds_iff hr.valid _).2 rfl
  obtain ⟨n, hn⟩ := Returns.inv hr hh h
  obtain ⟨mns, mxs, parts, xs, -, h1, h2, h3, h4, h5⟩ := extract_set_ok hG (hn (n + 1) (by omega))
  have l1 := h1.length_eq
  have l2 := h2.length_eq
  have l3 := setSplit_length h3
  rw [List.length_zip, ← l1, ← l2] at l3
  have l3 : parts.length = 2 := l3
  obtain ⟨p, q, rfl⟩ := List.length_eq_two.1 l3
  cases h4 with | cons hx h4 => ?_
  cases h4 with | cons hy h4 => ?_
  cases h4
  obtain ⟨lx, hx⟩ := hx
  obtain ⟨ly, hy⟩ := hy
  have e1 : "(".toUTF8.toList = [40] := by decide +kernel
  have e2 : ")".toUTF8.toList = [41] := by decide +kernel
  have e3 : " ".toUTF8.toList = [32] := by decide +kernel
  cases h1 with | cons hm h1 => ?_
  cases h1 with | cons hm' h1 => ?_
  cases h1
  cases h2 with | cons hM h2 => ?_
  cases h2 with | cons hM' h2 => ?_
  cases h2
  exact ⟨_, _, _, _, p, q, _, _, .intro hm, .intro hM, .intro hm', .intro hM', SetReturns.intro hr.valid hh h3, Gives.intro hx, Gives.intro hy,
    by rw [h5, e1, e2, e3]; rfl⟩

/-- Bracket depth after a text, `none` once a bracket closes that was not opened. -/
def depthAfter : Nat → Bytes → Option Nat
  | d, [] => some d
  | d, c :: cs =>
    if c = 40 then depthAfter (d + 1) cs
    else if c = 41 then (match d with | 0 => none | d + 1 => depthAfter d cs)
    else depthAfter d cs

/-- Round brackets are balanced. -/
def Balanced (s : Bytes) : Prop := depthAfter 0 s = some 0

instance (s : Bytes) : Decidable (Balanced s) := inferInstanceAs (Decidable (_ = _))

theorem depthAfter_cons (d : Nat) (c : UInt8) (cs : Bytes) : depthAfter d (c :: cs) =
    if c = 40 then depthAfter (d + 1) cs
    else if c = 41 then (match d with | 0 => none | d + 1 => depthAfter d cs)
    else depthAfter d cs := by cases d <;> rfl

theorem depthAfter_append (d : Nat) (s t : Bytes) :
    depthAfter d (s ++ t) = (depthAfter d s).bind fun e => depthAfter e t := by
  induction s generalizing d with
  | nil => rfl
  | cons c cs ih =>
    rw [List.cons_append, depthAfter_cons, depthAfter_cons]
    split
    · exact ih _
    split
    · cases d with
      | zero => rfl
      | succ d => exact ih _
    · exact ih _

theorem depthAfter_add {s : Bytes} {d e : Nat} (h : depthAfter d s = some e) (k : Nat) :
    depthAfter (d + k) s = some (e + k) := by
  induction s generalizing d e with
  | nil => cases h; rfl
  | cons c cs ih =>
    rw [depthAfter_cons] at h ⊢
    split at h
    · next hc => rw [if_pos hc]; have := ih h; rwa [Nat.add_right_comm] at this
    · next hc =>
      rw [if_neg hc]
      split at h
      · next hc' =>
        rw [if_pos hc']
        cases d with
        | zero => cases h
        | succ d => rw [Nat.add_right_comm]; exact ih h
      · next hc' => rw [if_neg hc']; exact ih h

theorem Balanced.at {s : Bytes} (h : Balanced s) (d : Nat) : depthAfter d s = some d := by
  have := depthAfter_add h d
  simpa using this

theorem Balanced.append {s t : Bytes} (hs : Balanced s) (ht : Balanced t) : Balanced (s ++ t) := by
  unfold Balanced
  rw [depthAfter_append, hs.at]
  exact ht

theorem Balanced.wrap {s : Bytes} (hs : Balanced s) : Balanced ([40] ++ s ++ [41]) := by
  unfold Balanced
  rw [depthAfter_append, depthAfter_append]
  show (depthAfter 1 s).bind _ = _
  rw [hs.at]
  rfl

/-- There is a blob with any given contents that fit an address space. -/
theorem exists_blob {bs : Bytes} (h : bs.length < 9223372036854775808) : ∃ b, Reachable b ∧ Holds b bs := by
  have hv := Blob.mk'_valid (buf := bs) (off := 0) (n := bs.length) (by omega) h
  refine ⟨_, .new (buf := bs) (off := 0) (n := bs.length) (by omega) h, (holds_iff hv.1 _).2 ?_⟩
  rw [hv.2, List.drop_zero, List.take_length]

theorem SetReturns.part_lt {ss : List SizePair} {b : Blob} {parts : List Bytes} {left : Bytes}
    (hr : Reachable b) (h : SetReturns ss b parts left) : ∀ p ∈ parts, p.length < 9223372036854775808 := by
  obtain ⟨ps, b', h1, h2, _⟩ := h
  obtain ⟨s1, _⟩ := sim_setSplit ss b b.abs ⟨hr.valid, rfl⟩
  rw [h1] at s1
  rcases he : setSplit ss b.abs with ⟨o, a'⟩
  rw [he] at s1
  cases s1 with
  | @ok _ qs s1 =>
    clear he h1
    induction s1 generalizing parts with
    | nil => cases h2; simp
    | cons hx _ ih =>
      cases h2 with
      | cons hy h2 =>
        intro p hp
        rcases List.mem_cons.1 hp with rfl | hp
        · have := (holds_iff hx.1 _).1 hy
          rw [← this, hx.1.abs_length]
          exact hx.1.size_lt
        · exact ih h2 p hp

/-- **C27** (brackets). If the operator name has balanced brackets, and so has every text the operands
return, then so has every text the operator stamps return. -/
theorem C27_balanced {G : Graph} {fl : Flags} {op : Bytes} (ho : Balanced op) {c d : Id}
    (hc : ∀ (b : Blob) s left, Reachable b → Returns G fl c b s left → Balanced s)
    (hd : ∀ (b : Blob) s left, Reachable b → Returns G fl d b s left → Balanced s) {i : Id}
    (hi : G i = some (.unary op c) ∨ G i = some (.binary op c d))
    {b : Blob} {s left : Bytes} (hr : Reachable b) (h : Returns G fl i b s left) : Balanced s := by
  have e1 : "(".toUTF8.toList = [40] := by decide +kernel
  have e2 : ")".toUTF8.toList = [41] := by decide +kernel
  have e3 : " ".toUTF8.toList = [32] := by decide +kernel
  rcases hi with hG | hG
  · obtain ⟨x, hx, rfl⟩ := C27_unary hG hr h
    have := ho.append (hc b x left hr hx).wrap
    rw [e1, e2]
    simpa only [List.append_assoc] using this
  · obtain ⟨mn, mx, mn', mx', p, q, x, y, -, -, -, -, hs, hx, hy, rfl⟩ := C27_binary hG hr h
    have hb : ∀ (j : Id) (t z : Bytes), t ∈ [p, q] → Gives G fl j t z →
        (∀ (b : Blob) s left, Reachable b → Returns G fl j b s left → Balanced s) → Balanced z := by
      rintro j t z ht ⟨l, hg⟩ hall
      obtain ⟨b', hr', hh'⟩ := exists_blob (hs.part_lt hr t ht)
      exact hall b' z l hr' (hg b' hr' hh')
    have h32 : Balanced [32] := by decide
    have := ((((hb c p x (by simp) hx hc).append h32).append ho).append h32).append (hb d q y (by simp) hy hd)
    have := this.wrap
    rw [e1, e2, e3]
    simpa only [List.append_assoc] using this

example : Balanced "sin((1 + 2))".toUTF8.toList ∧ ¬ Balanced ")(".toUTF8.toList := by decide +kernel

/-- The hypotheses hold of `sin` over a dictionary of variable names. -/
example {G : Graph} {fl : Flags} (h0 : G 0 = some (.unary "sin".toUTF8.toList 1))
    (h1 : G 1 = some (.dict ["x".toUTF8.toList, "y(1)".toUTF8.toList])) {b : Blob} {s left : Bytes}
    (hr : Reachable b) (h : Returns G fl 0 b s left) : Balanced s := by
  have hw : ∀ w ∈ ["x".toUTF8.toList, "y(1)".toUTF8.toList], Balanced w := by decide +kernel
  have hc : ∀ (b : Blob) s left, Reachable b → Returns G fl 1 b s left → Balanced s := by
    intro b s left hr h
    have hh : Holds b b.abs := (holds_iff hr.valid _).2 rfl
    obtain ⟨k, _, _, hk⟩ := C12_dict_picks_word h1 (by simp) (by simp) fl
    obtain ⟨k1, k2⟩ := hk b _ hr hh
    rcases Nat.lt_or_ge b.abs.length k with hl | hl
    · obtain ⟨b1, e1, _⟩ := k1 hl
      obtain ⟨b2, e2, _⟩ := h
      cases (Extracts.unique e1 e2).1
    · obtain ⟨w, hm, b1, e1, _⟩ := k2 hl
      obtain ⟨b2, e2, _⟩ := h
      cases (Extracts.unique e1 e2).1
      exact hw _ hm
  exact C27_balanced (by decide +kernel) hc hc (Or.inl h0) hr h

/-- `sin(7 + -1)`: a unary operator over a binary one over signed characters. -/
def opExample : Graph
  | 0 => some (.unary "sin".toUTF8.toList 1)
  | 1 => some (.binary "+".toUTF8.toList 2 3)
  | 2 => some (.arith .i8)
  | 3 => some (.arith .i8)
  | _ => none

example : (extract opExample 5 0 (Flags.init, ([7, 255, 1] : ABlob))).1
    = .ok "sin((7 + -1))".toUTF8.toList := by decide +kernel

end BS
