import Verif.Spec.Swap
import Verif.Lemmas.SwapRun
import Verif.Props.Compose
import Verif.Props.JsonLang
import Verif.Props.Record
import Verif.Expr

/-!
# C91: other data for the single stamps, everything else the same
-/

namespace BS
open BlobLike

/-! ## Stamps write forms -/

/-- The form of a list: the separator stands before every item that has something before it. -/
def listForm (sep : Bytes) : Bool → List Bool → List Cell
  | _, [] => []
  | true, _ :: pat => .fix sep :: .hole :: listForm sep true pat
  | false, e :: pat => .hole :: listForm sep (!e) pat

theorem holes_listForm (sep : Bytes) : ∀ (st : Bool) (pat : List Bool), holes (listForm sep st pat) = pat.length
  | _, [] => by unfold listForm; rfl
  | true, e :: pat => by show holes (listForm sep true pat) + 1 = _; rw [holes_listForm]; rfl
  | false, e :: pat => by show holes (listForm sep (!e) pat) + 1 = _; rw [holes_listForm]; rfl

theorem joinLoop_form (sep : Bytes) (xs : List Bytes) : ∀ res : Bytes,
    joinLoop sep res xs = res ++ fill (listForm sep (!res.isEmpty) (xs.map List.isEmpty)) xs := by
  induction xs with
  | nil => intro res; unfold listForm; simp [joinLoop, fill]
  | cons x xs ih =>
    intro res
    unfold joinLoop
    rw [ih]
    cases res with
    | nil => simp [listForm, fill]
    | cons c res => simp [listForm, fill]

theorem writes_joinLoop (sep : Bytes) (n : Nat) : WritesForm (joinLoop sep []) n := by
  intro pat hp
  refine ⟨listForm sep false pat, by rw [holes_listForm, hp], fun xs hx => ?_⟩
  subst hx
  exact joinLoop_form sep xs []

/-- Text before and after. -/
theorem WritesForm.between {join : List Bytes → Bytes} {n : Nat} (h : WritesForm join n) (l r : Bytes) :
    WritesForm (fun xs => l ++ join xs ++ r) n := by
  intro pat hp
  obtain ⟨c, h1, h2⟩ := h pat hp
  refine ⟨.fix l :: (c ++ [.fix r]), ?_, fun xs hx => ?_⟩
  · show holes (c ++ [.fix r]) = n
    rw [holes_append, h1]; rfl
  · have hl : xs.length = n := by rw [← hp, ← hx, List.length_map]
    have := fill_append c [.fix r] xs [] (by rw [h1, hl])
    rw [List.append_nil] at this
    show l ++ join xs ++ r = l ++ fill (c ++ [.fix r]) xs
    rw [this, h2 xs hx]
    simp [fill]

theorem writes_enum (sep l r : Bytes) (n : Nat) : WritesForm (enumJoin sep l r) n := (writes_joinLoop sep n).between l r

theorem writes_text (n : Nat) : WritesForm textJoin n := writes_joinLoop _ n

theorem writes_binary (op : Bytes) : WritesForm (binaryText op) 2 := by
  intro pat hp
  refine ⟨[.fix [40], .hole, .fix ([32] ++ op ++ [32]), .hole, .fix [41]], rfl, fun xs hx => ?_⟩
  have hl : xs.length = 2 := by rw [← hp, ← hx, List.length_map]
  match xs, hl with
  | [a, b], _ => simp [binaryText, fill]

theorem writes_hashEl : WritesForm hashElText 2 := by
  intro pat hp
  refine ⟨[.hole, .fix [58, 32], .hole], rfl, fun xs hx => ?_⟩
  have hl : xs.length = 2 := by rw [← hp, ← hx, List.length_map]
  match xs, hl with
  | [a, b], _ => simp [hashElText, fill]

/-- Items with a separator between all of them. -/
def plainForm (sep : Bytes) : Nat → List Cell
  | 0 => []
  | 1 => [.hole]
  | n + 2 => .hole :: .fix sep :: plainForm sep (n + 1)

theorem holes_plainForm (sep : Bytes) : ∀ n, holes (plainForm sep n) = n
  | 0 => rfl
  | 1 => rfl
  | n + 2 => by show holes (plainForm sep (n + 1)) + 1 = _; rw [holes_plainForm]

theorem intercalate_form (sep : Bytes) : ∀ xs : List Bytes, sep.intercalate xs = fill (plainForm sep xs.length) xs
  | [] => rfl
  | [x] => by simp [List.intercalate, plainForm, fill]
  | x :: y :: xs => by
    have := intercalate_form sep (y :: xs)
    show _ = x ++ (sep ++ fill (plainForm sep (y :: xs).length) (y :: xs))
    rw [← this]
    simp [List.intercalate]

theorem writes_record (l sep r : Bytes) (n : Nat) : WritesForm (recordText l sep r) n := by
  refine WritesForm.between (join := sep.intercalate) (fun pat hp => ⟨plainForm sep n, holes_plainForm sep n, fun xs hx => ?_⟩) l r
  have hl : xs.length = n := by rw [← hp, ← hx, List.length_map]
  rw [← hl]
  exact intercalate_form sep xs

/-! ## Leaves -/

section
variable {G : Graph} {fl : Flags}

theorem single_any {i : Id} {nd : Node} (hG : G i = some nd) (hs : nd.single = true) (n m : Nat) :
    (extract G (n + 1) i : XM ABlob Bytes) = extract G (m + 1) i := by
  unfold extract
  rw [hG]
  cases nd <;> first | rfl | cases hs

theorem Leaf.Runs.real {l : Leaf} (h : l.Runs G fl) : l.Real G fl := fun more hm _ hr hh =>
  (returns_iff hr hh).2 ⟨1, h more hm 0⟩

theorem Leaf.Real.runs {l : Leaf} {nd : Node} (hG : G l.stamp = some nd) (hs : nd.single = true)
    (hl : l.took.length + l.room < 9223372036854775808) (h : l.Real G fl) : l.Runs G fl := by
  intro more hm n
  have hb : (l.took ++ more).length < 9223372036854775808 := by
    rw [List.length_append]
    have : List.length more = l.room := hm
    omega
  obtain ⟨b, hr, hh⟩ := exists_blob hb
  obtain ⟨k, e⟩ := (returns_iff hr hh).1 (h more hm b hr hh)
  cases k with
  | zero => cases e
  | succ k => rw [single_any hG hs n k]; exact e

theorem alike_of_mem {ls ls' : List Leaf} (h : List.Forall₂ Leaf.Alike ls ls') {l' : Leaf} (hl : l' ∈ ls') :
    ∃ l ∈ ls, l.Alike l' := by
  induction h with
  | nil => cases hl
  | cons h1 _ ih =>
    rcases List.mem_cons.1 hl with rfl | hl
    · exact ⟨_, List.mem_cons_self, h1⟩
    · obtain ⟨l, h2, h3⟩ := ih hl
      exact ⟨l, List.mem_cons_of_mem _ h2, h3⟩

/-- **C91**. -/
theorem C91_swap (hu : LocalUsers G) (hw : WriteForms G) {i : Id} {b : Blob} {bs s left : Bytes} (hr : Reachable b)
    (hh : Holds b bs) (h : Returns G fl i b s left) :
    ∃ (ls : List Leaf) (form txt : List Cell), holes form = ls.length ∧ holes txt = ls.length ∧
      (∀ l ∈ ls, (∃ nd, G l.stamp = some nd ∧ nd.single = true) ∧ l.Real G fl) ∧
      bs = fill form (ls.map Leaf.took) ++ left ∧ s = fill txt (ls.map Leaf.text) ∧
      ∀ ls', List.Forall₂ Leaf.Alike ls ls' → (∀ l ∈ ls', l.Real G fl) → ∀ left' : Bytes, left'.length = left.length →
        ∀ b', Reachable b' → Holds b' (fill form (ls'.map Leaf.took) ++ left') →
          Returns G fl i b' (fill txt (ls'.map Leaf.text)) left' := by
  obtain ⟨n, e⟩ := (returns_iff hr hh).1 h
  obtain ⟨ls, form, txt, h1, h2, h3, h4, h5, h6⟩ := swap_extract hu hw n i bs s fl left e
  have hN := holds_length_lt hr.valid hh
  refine ⟨ls, form, txt, h1, h2, fun l hl => ⟨(h5 l hl).1, (h5 l hl).2.1.real⟩, h3, h4, ?_⟩
  intro ls' hl hreal left' hleft b' hr' hh'
  refine (returns_iff hr' hh').2 ⟨n, h6 ls' hl (fun l' hl' => ?_) left' hleft⟩
  obtain ⟨l, k1, k2⟩ := alike_of_mem hl hl'
  obtain ⟨⟨nd, g1, g2⟩, _, g3⟩ := h5 l k1
  refine (hreal l' hl').runs (nd := nd) (by rw [k2.stamp]; exact g1) g2 ?_
  rw [k2.size, k2.room]
  have : List.length bs < 9223372036854775808 := hN
  omega

/-! ## Any bytes -/

theorem denotesQ_ne {s : Bytes} {q : ℚ} (h : DenotesQ s q) : s ≠ [] := by
  obtain ⟨_, ip, _, _, _, _, rfl, h, _⟩ := h
  have := h.1
  simp [this]

theorem intDec_ne (i : Int) : intDec i ≠ [] := by
  rcases intDec_spec i with ⟨_, h, _⟩ | ⟨_, _, h, _⟩
  · exact h.1
  · rw [h]; simp

theorem fmtG999_ne {eb mb : Nat} (n : Nat) (hf : (eb = 11 ∧ mb = 52) ∨ (eb = 8 ∧ mb = 23)) :
    fmtG999 (decodeBits eb mb n) ≠ [] := by
  cases h : decodeBits eb mb n with
  | nan s => cases s <;> decide
  | inf s => cases s <;> decide
  | fin s q =>
    obtain ⟨m, k, rfl, h1, h2, h3⟩ := decodeBits_fin hf h
    exact denotesQ_ne (fmtG999_exact h1 h2 h3 s)

theorem toString_ne {t : ArithTy} {v : AVal} {x : Bytes} (h : toStringPrecise t v = .ok x)
    (hv : ∀ bs : Nat, v = .bits bs → t = .float ∨ t = .double) : x ≠ [] := by
  have hx : ∀ full : Bytes, full ≠ [] → toXString 4 full = .ok x → x ≠ [] := by
    intro full hf he
    unfold toXString at he
    split at he
    · cases he; exact hf
    · split at he
      · cases he; simp
      · cases he
  cases v with
  | int i =>
    cases t with
    | i8 => exact hx _ (intDec_ne i) h
    | _ => cases h; exact intDec_ne i
  | bits b =>
    rcases hv b rfl with rfl | rfl
    · rw [toString_float] at h; cases h; exact fmtG999_ne b (.inr ⟨rfl, rfl⟩)
    · rw [toString_double] at h; cases h; exact fmtG999_ne b (.inl ⟨rfl, rfl⟩)

theorem decode_bits {t : ArithTy} {v : Bytes} {b : Nat} (h : decode t v = .bits b) : t = .float ∨ t = .double := by
  cases t with
  | float => exact .inl rfl
  | double => exact .inr rfl
  | _ => unfold decode at h; simp [ArithTy.isInt] at h; split at h <;> cases h

/-- What a stamp does with a blob: on any bytes instead of those it took, it makes a text too. -/
def AnyBytes (k : M ABlob Bytes) (N : Nat) : Prop := ∀ (u v more more' : ABlob) x, k (u ++ more) = (.ok x, more) →
  List.length v = List.length u → List.length more' = List.length more → List.length u + List.length more < N →
  ∃ y, k (v ++ more') = (.ok y, more') ∧ (y = [] ↔ x = [])

theorem any_arith (t : ArithTy) (N : Nat) : AnyBytes (extractArithStr t) N := by
  intro u v more more' x h hv hm hN
  rw [extractArithStr_abs] at h
  split at h
  · cases h
  · rename_i hl
    rw [List.length_append] at hl
    have h1 : toStringPrecise t _ = .ok x := (Prod.mk.inj h).1
    have h2 : List.length (List.drop t.size (u ++ more)) = List.length more := congrArg List.length (Prod.mk.inj h).2
    rw [List.length_drop, List.length_append] at h2
    have hs : t.size = List.length v := by omega
    obtain ⟨y, hy⟩ := toString_ok t (bs := v) hs.symm
    refine ⟨y, ?_, iff_of_false (toString_ne hy fun b hb => decode_bits hb) (toString_ne h1 fun b hb => decode_bits hb)⟩
    rw [extractArithStr_abs, if_neg (by rw [List.length_append]; omega), List.take_left' hs.symm, List.drop_left' hs.symm, hy]

theorem any_dict {ws : List Bytes} (h1 : 1 ≤ ws.length) (h2 : ws.length ≤ 2 ^ 53) (h3 : ∀ w ∈ ws, w ≠ []) (N : Nat) :
    AnyBytes (extractDict ws) N := by
  intro u v more more' x h hv hm hN
  obtain ⟨e1, e2⟩ := extractDict_abs ws h1 h2 (u ++ more)
  rw [List.length_append] at e1 e2
  by_cases hl : List.length u + List.length more < (chooseStampSize ws.length).1
  · rw [e1 hl] at h; cases h
  · obtain ⟨i, hi, _, e⟩ := e2 (by omega)
    rw [e] at h
    have g1 : ws[i] = x := Out.ok.inj (Prod.mk.inj h).1
    have g2 : List.length (List.drop (chooseStampSize ws.length).1 (u ++ more)) = List.length more :=
      congrArg List.length (Prod.mk.inj h).2
    rw [List.length_drop, List.length_append] at g2
    obtain ⟨_, e4⟩ := extractDict_abs ws h1 h2 (v ++ more')
    rw [List.length_append] at e4
    obtain ⟨j, hj, _, e5⟩ := e4 (by omega)
    have hs : (chooseStampSize ws.length).1 = List.length v := by omega
    refine ⟨_, ?_, iff_of_false (h3 _ (List.getElem_mem hj)) (by rw [← g1]; exact h3 _ (List.getElem_mem hi))⟩
    rw [e5, List.drop_left' hs.symm]

theorem any_jsonStr (N : Nat) : AnyBytes extractJsonStr N := by
  intro u v more more' x h hv hm hN
  obtain ⟨w, a1, g1, g2⟩ := M.bind_eq_ok.1 h
  cases g2
  obtain ⟨y, e1, _⟩ := any_dict (ws := lcAlphaSmall) (by decide +kernel) (by decide +kernel) (by decide +kernel) N u v more more' w
    g1 hv hm hN
  refine ⟨[34] ++ y ++ [34], ?_, iff_of_false (by simp) (by simp)⟩
  show (extractDict lcAlphaSmall >>= fun w => pure ([34] ++ w ++ [34]) : M ABlob Bytes) _ = _
  rw [M.bind_ok e1]
  rfl

theorem any_text (f : UInt8 → UInt8) : AnyBytes (extractText f) W64 := by
  intro u v more more' x h hv hm hN
  rw [extractText_abs f _ (by rw [List.length_append]; exact hN)] at h
  split at h
  · cases h
  · rename_i hl
    have e1 : ([] : ABlob) = more := (Prod.mk.inj h).2
    subst e1
    have e2 : more' = [] := List.eq_nil_of_length_eq_zero (by simpa using hm)
    subst e2
    have e3 : List.map f (u ++ []) = x := Out.ok.inj (Prod.mk.inj h).1
    rw [List.append_nil] at e3 hl
    refine ⟨List.map f v, ?_, ?_⟩
    · rw [List.append_nil, extractText_abs f _ (by simpa [hv] using hN), if_neg (by omega)]
    · rw [← e3]
      refine iff_of_false (fun e => ?_) (fun e => ?_)
      · have := congrArg List.length e
        rw [List.length_map] at this
        exact hl (by rw [← hv]; exact this)
      · have := congrArg List.length e
        rw [List.length_map] at this
        exact hl this

theorem Leaf.Runs.any {l : Leaf} {nd : Node} (hG : G l.stamp = some nd) (ho : nd.open) (h : l.Runs G fl)
    (hN : l.took.length + l.room < 9223372036854775808) {u : Bytes} (hl : u.length = l.took.length) :
    ∃ x, (Leaf.mk l.stamp l.room u x).Runs G fl ∧ l.Alike ⟨l.stamp, l.room, u, x⟩ := by
  have key : ∀ k : M ABlob Bytes, Steady k → AnyBytes k W64 → (∀ n, extract G (n + 1) l.stamp = liftB k) →
      ∃ x, (Leaf.mk l.stamp l.room u x).Runs G fl ∧ l.Alike ⟨l.stamp, l.room, u, x⟩ := by
    intro k hst hk he
    have e1 : k (l.took ++ (List.replicate l.room 0 : ABlob)) = (.ok l.text, (List.replicate l.room 0 : ABlob)) := by
      have := h (List.replicate l.room 0 : ABlob) List.length_replicate 0
      rw [he] at this
      exact (liftB_ok this).1
    have hW : l.took.length + List.length (List.replicate l.room (0 : UInt8)) < W64 := by
      rw [List.length_replicate]; omega
    obtain ⟨x, e2, e3⟩ := hk l.took u _ (List.replicate l.room 0) _ e1 hl rfl hW
    refine ⟨x, fun more hm n => ?_, ⟨rfl, rfl, hl, e3⟩⟩
    obtain ⟨u', e4, e5⟩ := hst _ _ _ e2
    have : u = u' := List.append_cancel_right e4
    subst this
    rw [he]
    exact liftB_run (e5 more (by rw [List.length_replicate]; exact hm)) fl
  cases nd with
  | arith t => exact key _ (.arith t) (any_arith t _) fun n => by unfold extract; rw [hG]
  | dict ws => exact key _ (.dict ws) (any_dict ho.1 ho.2.1 ho.2.2 _) fun n => by unfold extract; rw [hG]
  | jsonStr => exact key _ .jsonStr (any_jsonStr _) fun n => by unfold extract; rw [hG]
  | latin1 => exact key _ (.text _) (any_text _) fun n => by unfold extract; rw [hG]
  | ascii => exact key _ (.text _) (any_text _) fun n => by unfold extract; rw [hG]
  | _ => exact ho.elim

theorem OpenLeaves.local (h : OpenLeaves G) : LocalUsers G := fun i _ hG => (h i _ hG rfl).elim

/-- **C91**, for numbers, texts and words: whatever bytes are put where the single stamps take theirs. -/
theorem C91_any (ho : OpenLeaves G) (hw : WriteForms G) {i : Id} {b : Blob} {bs s left : Bytes} (hr : Reachable b)
    (hh : Holds b bs) (h : Returns G fl i b s left) :
    ∃ (ls : List Leaf) (form txt : List Cell), holes form = ls.length ∧ holes txt = ls.length ∧
      (∀ l ∈ ls, (∃ nd, G l.stamp = some nd ∧ nd.single = true) ∧ l.Real G fl) ∧
      bs = fill form (ls.map Leaf.took) ++ left ∧ s = fill txt (ls.map Leaf.text) ∧
      ∀ us : List Bytes, List.Forall₂ (fun l u => u.length = l.took.length) ls us →
        ∃ ls', List.Forall₂ Leaf.Alike ls ls' ∧ ls'.map Leaf.took = us ∧ (∀ l ∈ ls', l.Real G fl) ∧
          ∀ left' : Bytes, left'.length = left.length → ∀ b', Reachable b' → Holds b' (fill form us ++ left') →
            Returns G fl i b' (fill txt (ls'.map Leaf.text)) left' := by
  obtain ⟨n, e⟩ := (returns_iff hr hh).1 h
  obtain ⟨ls, form, txt, h1, h2, h3, h4, h5, h6⟩ := swap_extract ho.local hw n i bs s fl left e
  have hN : List.length bs < 9223372036854775808 := holds_length_lt hr.valid hh
  refine ⟨ls, form, txt, h1, h2, fun l hl => ⟨(h5 l hl).1, (h5 l hl).2.1.real⟩, h3, h4, ?_⟩
  intro us hus
  have key : ∃ ls', List.Forall₂ Leaf.Alike ls ls' ∧ ls'.map Leaf.took = us ∧ ∀ l ∈ ls', l.Runs G fl := by
    clear h1 h2 h3 h4 h6
    induction hus with
    | nil => exact ⟨[], .nil, rfl, by simp⟩
    | @cons l u ls us k1 _ ih =>
      obtain ⟨ls', g1, g2, g3⟩ := ih fun l hl => h5 l (List.mem_cons_of_mem _ hl)
      obtain ⟨⟨nd, f1, f2⟩, f3, f4⟩ := h5 l List.mem_cons_self
      obtain ⟨x, q1, q2⟩ := f3.any f1 (ho _ _ f1 f2) (by omega) k1
      refine ⟨⟨l.stamp, l.room, u, x⟩ :: ls', .cons q2 g1, by rw [List.map_cons, g2], ?_⟩
      intro l' hl'
      rcases List.mem_cons.1 hl' with rfl | hl'
      · exact q1
      · exact g3 l' hl'
  obtain ⟨ls', g1, g2, g3⟩ := key
  refine ⟨ls', g1, g2, fun l hl => (g3 l hl).real, fun left' hleft b' hr' hh' => ?_⟩
  refine (returns_iff hr' hh').2 ⟨n, ?_⟩
  have := h6 ls' g1 g3 left' hleft
  rw [show tooks ls' = us from g2] at this
  exact this

end

theorem json_open : OpenLeaves jsonGraph := by
  intro i nd h hs
  match i, h with
  | 0, h | 4, h | 5, h | 6, h => cases h; cases hs
  | 1, h | 2, h | 3, h | 7, h => cases h; trivial

theorem json_forms : WriteForms jsonGraph := by
  intro i nd h
  match i, h with
  | 0, h | 1, h | 2, h | 3, h | 7, h => cases h; trivial
  | 4, h | 5, h => cases h; exact fun n => writes_enum _ _ _ n
  | 6, h => cases h; exact writes_hashEl

/-- **C91** for JSON values: with any other bytes where numbers, strings and names take theirs, the value has the same make-up,
and the places of its numbers, strings and names hold what these bytes say. -/
theorem C91_json {fl : Flags} {b : Blob} {bs s left : Bytes} (hr : Reachable b) (hh : Holds b bs)
    (h : Returns jsonGraph fl 0 b s left) :
    ∃ (ls : List Leaf) (form txt : List Cell), holes form = ls.length ∧ holes txt = ls.length ∧
      (∀ l ∈ ls, l.stamp ∈ [1, 2, 3, 7] ∧ l.Real jsonGraph fl) ∧
      bs = fill form (ls.map Leaf.took) ++ left ∧ s = fill txt (ls.map Leaf.text) ∧
      ∀ us : List Bytes, List.Forall₂ (fun l u => u.length = l.took.length) ls us →
        ∃ ls', List.Forall₂ Leaf.Alike ls ls' ∧ ls'.map Leaf.took = us ∧ (∀ l ∈ ls', l.Real jsonGraph fl) ∧
          ∀ left' : Bytes, left'.length = left.length → ∀ b', Reachable b' → Holds b' (fill form us ++ left') →
            Returns jsonGraph fl 0 b' (fill txt (ls'.map Leaf.text)) left' := by
  obtain ⟨ls, form, txt, h1, h2, h3, h4⟩ := C91_any json_open json_forms hr hh h
  refine ⟨ls, form, txt, h1, h2, fun l hl => ⟨?_, (h3 l hl).2⟩, h4⟩
  obtain ⟨⟨nd, g, hs⟩, _⟩ := h3 l hl
  generalize l.stamp = j at g
  match j, g with
  | 0, g | 4, g | 5, g | 6, g => cases g; cases hs
  | 1, _ | 2, _ | 3, _ | 7, _ => decide

/-- The expressions of examples/exampleZZ.cpp. -/
theorem expr_open (ops : List Bytes) (k : Nat) : OpenLeaves (exprGraph ops k) ∧ WriteForms (exprGraph ops k) := by
  constructor
  · intro i nd h hs
    match i, h with
    | 0, h => cases h; cases hs
    | 1, h => cases h; trivial
    | 2, h => cases h; exact ⟨by decide +kernel, by decide +kernel, by decide +kernel⟩
    | j + 3, h =>
      have h : (ops[j]?).map (fun op => Node.binary op 0 0) = some nd := h
      obtain ⟨op, _, rfl⟩ := Option.map_eq_some_iff.1 h
      cases hs
  · intro i nd h
    match i, h with
    | 0, h | 1, h | 2, h => cases h; trivial
    | j + 3, h =>
      have h : (ops[j]?).map (fun op => Node.binary op 0 0) = some nd := h
      obtain ⟨op, _, rfl⟩ := Option.map_eq_some_iff.1 h
      exact writes_binary op

/-- Lists of structures (examples/example07.cpp, example08.cpp). -/
theorem record_open (ts : List ArithTy) (l sep r l' sep' r' : Bytes) :
    OpenLeaves (recordGraph ts l sep r l' sep' r') ∧ WriteForms (recordGraph ts l sep r l' sep' r') := by
  constructor
  · intro i nd h hs
    match i, h with
    | 0, h | 1, h => cases h; cases hs
    | j + 2, h =>
      have h : (ts[j]?).map Node.arith = some nd := h
      obtain ⟨t, _, rfl⟩ := Option.map_eq_some_iff.1 h
      trivial
  · intro i nd h
    match i, h with
    | 0, h => cases h; exact fun n => writes_enum _ _ _ n
    | 1, h => cases h; exact writes_record _ _ _ _
    | j + 2, h =>
      have h : (ts[j]?).map Node.arith = some nd := h
      obtain ⟨t, _, rfl⟩ := Option.map_eq_some_iff.1 h
      trivial

/-! ## Stamps of clients -/

/-- A stamp of a client (a class derived from `StampBaseStr`, stamp.h 59-64) that takes one byte and makes its text from those that follow. -/
def peekGraph : Graph
  | 0 => some (.user ⟨1, 1, false, fun v => (.ok (v.drop 1), 1)⟩)
  | _ => none

/-- **C91** is false if the text of a client's stamp depends on bytes it does not take. -/
theorem C91_violated_user : ¬ ∀ (G : Graph) (fl : Flags) (i : Id) (b : Blob) (bs s left : Bytes), WriteForms G → Reachable b →
    Holds b bs → Returns G fl i b s left →
    ∃ (ls : List Leaf) (form txt : List Cell), holes form = ls.length ∧ holes txt = ls.length ∧
      (∀ l ∈ ls, (∃ nd, G l.stamp = some nd ∧ nd.single = true) ∧ l.Real G fl) ∧
      bs = fill form (ls.map Leaf.took) ++ left ∧ s = fill txt (ls.map Leaf.text) ∧
      ∀ ls', List.Forall₂ Leaf.Alike ls ls' → (∀ l ∈ ls', l.Real G fl) → ∀ left' : Bytes, left'.length = left.length →
        ∀ b', Reachable b' → Holds b' (fill form (ls'.map Leaf.took) ++ left') →
          Returns G fl i b' (fill txt (ls'.map Leaf.text)) left' := by
  intro H
  have run : ∀ y n, extract peekGraph (n + 1) 0 (Flags.init, ([1, y] : ABlob)) = (.ok [y], (Flags.init, ([y] : ABlob))) :=
    fun _ _ => rfl
  have hwf : WriteForms peekGraph := by
    intro i nd h
    match i, h with
    | 0, h => cases h; trivial
  obtain ⟨b, hr, hh⟩ := exists_blob (bs := [1, 2]) (by decide)
  obtain ⟨ls, form, txt, h1, h2, h3, h4, h5, h6⟩ := H peekGraph Flags.init 0 b [1, 2] [2] [2] hwf hr hh
    ((returns_iff hr hh).2 ⟨1, run 2 0⟩)
  have h4' : fill form (ls.map Leaf.took) = [1] := (List.append_cancel_right (bs := [2]) h4).symm
  obtain ⟨b', hr', hh'⟩ := exists_blob (bs := [1, 3]) (by decide)
  have hf : List.Forall₂ Leaf.Alike ls ls := by
    clear * -
    induction ls with
    | nil => exact .nil
    | cons l ls ih => exact .cons ⟨rfl, rfl, rfl, Iff.rfl⟩ ih
  have h7 := h6 ls hf (fun l hl => (h3 l hl).2) [3] rfl b' hr' (by rw [h4']; exact hh')
  rw [← h5] at h7
  obtain ⟨n, e⟩ := (returns_iff hr' hh').1 h7
  cases n with
  | zero => cases e
  | succ n =>
    have e : extract peekGraph (n + 1) 0 (Flags.init, ([1, 3] : ABlob)) = (.ok [2], (Flags.init, ([3] : ABlob))) := e
    rw [run 3 n] at e
    have : ([3] : Bytes) = [2] := Out.ok.inj (Prod.mk.inj e).1
    exact absurd this (by decide)

/-! ## Examples -/

/-- 24 bytes make `{"a": [0]}`. Byte 6 is the name, bytes 15 to 22 are the number. -/
example : (extract jsonGraph 12 0 (Flags.init, (([0, 128, 0, 0, 0, 0] ++ [0] ++ List.replicate 8 0 ++ [0, 0, 0, 0, 0, 0, 0, 0] ++
      [0] : Bytes) : ABlob))).1 = .ok (str "{\"a\": [0]}") ∧
    (extract jsonGraph 12 0 (Flags.init, (([0, 128, 0, 0, 0, 0] ++ [255] ++ List.replicate 8 0 ++ [57, 48, 0, 0, 0, 0, 0, 0] ++
      [0] : Bytes) : ABlob))).1 = .ok (str "{\"zanier\": [12345]}") := by
  decide +kernel

/-- Changes that keep emptiness are the right ones: the separator depends on it. -/
example : enumJoin [44] [91] [93] [str "a", str "b"] = str "[a,b]" ∧ enumJoin [44] [91] [93] [[], str "b"] = str "[b]" := by
  decide +kernel

/-- A form filled in. -/
example : fill [.fix (str "{"), .hole, .fix (str ": ["), .hole, .fix (str "]}")] [str "\"a\"", str "7"] = str "{\"a\": [7]}" := by
  decide +kernel

end BS
