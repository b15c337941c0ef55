import Verif.Spec.Owner
import Verif.Lemmas.Arith
import Verif.Lemmas.BlobHist
import Mathlib.Data.List.Perm.Basic
import Mathlib.Data.List.Nodup

/-!
# C46 and C47: owned buffers
-/

namespace BS

/-- The kind of a living object. -/
def Owner.kind : Owner → Bool
  | .sized _ _ => false
  | .vlato _ _ _ _ => true

/-- Every block not freed has exactly one owner; freed blocks have none. -/
structure Owned (l : Living) (m : Mem) : Prop where
  kinds : ∀ x, l x = (m.objs x).map Owner.kind
  own : ∀ x o p, m.objs x = some o → o.ptr = some p → p < m.blocks.length ∧ p ∉ m.freed
  uniq : ∀ x y o o' p, m.objs x = some o → m.objs y = some o' → o.ptr = some p → o'.ptr = some p → x = y
  cover : ∀ p < m.blocks.length, p ∈ m.freed ∨ ∃ x o, m.objs x = some o ∧ o.ptr = some p
  nodup : m.freed.Nodup
  old : ∀ p ∈ m.freed, p < m.blocks.length

theorem kinds_set {l : Living} {m : Mem} (h : ∀ x, l x = (m.objs x).map Owner.kind) (y : Nat) (o : Option Owner) :
    ∀ x, l.set y (o.map Owner.kind) x = ((m.set y o).objs x).map Owner.kind := by
  intro x
  unfold Living.set Mem.set
  dsimp only
  split
  · rfl
  · exact h x

theorem owned_new {l : Living} {m : Mem} (h : Owned l m) {x : Nat} (hx : l x = none) (n : Nat) (o : Owner)
    (ho : o.ptr = some m.blocks.length) :
    Owned (l.set x (some o.kind)) ({ m with blocks := m.blocks ++ [n] }.set x (some o)) := by
  have hx' : m.objs x = none := by
    have := h.kinds x
    rw [hx] at this
    cases e : m.objs x with
    | none => rfl
    | some o => rw [e] at this; cases this
  constructor
  · exact kinds_set (m := { m with blocks := m.blocks ++ [n] }) h.kinds x (some o)
  · intro y o' p hy hp
    simp only [Mem.set] at hy ⊢
    rw [List.length_append, List.length_singleton]
    split at hy
    · cases hy
      rw [ho] at hp
      cases hp
      exact ⟨by omega, fun hm => by have := h.old _ hm; omega⟩
    · have := h.own y o' p hy hp
      exact ⟨by omega, this.2⟩
  · intro y z o1 o2 p hy hz h1 h2
    simp only [Mem.set] at hy hz
    split at hy <;> split at hz
    · omega
    · cases hy
      rw [ho] at h1; cases h1
      have := (h.own z o2 _ hz h2).1; omega
    · cases hz
      rw [ho] at h2; cases h2
      have := (h.own y o1 _ hy h1).1; omega
    · exact h.uniq y z o1 o2 p hy hz h1 h2
  · intro p hp
    simp only [Mem.set, List.length_append, List.length_singleton] at hp ⊢
    rcases Nat.lt_or_ge p m.blocks.length with hlt | hge
    · rcases h.cover p hlt with hf | ⟨y, o', hy, hp'⟩
      · exact .inl hf
      · refine .inr ⟨y, o', ?_, hp'⟩
        rw [if_neg]
        · exact hy
        · rintro rfl; rw [hx'] at hy; cases hy
    · refine .inr ⟨x, o, if_pos rfl, ?_⟩
      rw [ho]; congr 1; omega
  · exact h.nodup
  · intro p hp
    have := h.old p hp
    simp only [Mem.set, List.length_append, List.length_singleton]
    omega

theorem owned_step {l : Living} {m : Mem} (h : Owned l m) {op : OwnOp} (hl : op.Legal l)
    (hc : ∀ y x, op ≠ .copy y x) : ∃ m', op.run m = (.ok (), m') ∧ Owned (op.living l) m' := by
  cases op with
  | newSized x n => exact ⟨_, rfl, owned_new h hl n (.sized (some m.blocks.length) n) rfl⟩
  | newVlato x off len elt =>
    exact ⟨_, rfl, owned_new h hl _ (.vlato (some m.blocks.length) off len elt) rfl⟩
  | newVlatoPtr x off len elt =>
    exact ⟨_, rfl, owned_new h hl _ (.vlato (some m.blocks.length) off len elt) rfl⟩
  | copy y x => exact absurd rfl (hc y x)
  | convert y x =>
    obtain ⟨h1, h2⟩ := hl
    have hk := h.kinds x
    rw [h1] at hk
    cases e : m.objs x with
    | none => rw [e] at hk; cases hk
    | some o =>
      cases o with
      | sized p n => rw [e] at hk; cases hk
      | vlato p off len elt =>
        have hy : m.objs y = none := by
          have := h.kinds y
          rw [h2] at this
          cases e : m.objs y with
          | none => rfl
          | some o => rw [e] at this; cases this
        have hxy : y ≠ x := by rintro rfl; rw [e] at hy; cases hy
        refine ⟨(m.set y (some (.sized p (vlatoSize off len elt)))).set x (some (.vlato none off len elt)), ?_, ?_⟩
        · show (Mem.obj x >>= _) m = _
          rw [M.bind_ok (show Mem.obj x m = (.ok (.vlato p off len elt), m) by unfold Mem.obj; rw [e])]
          rfl
        · have hobj : ∀ z, ((m.set y (some (.sized p (vlatoSize off len elt)))).set x (some (.vlato none off len elt))).objs z =
              if z = x then some (.vlato none off len elt) else if z = y then some (.sized p (vlatoSize off len elt)) else m.objs z :=
            fun z => rfl
          constructor
          · intro z
            rw [hobj]
            show (if z = y then some false else l z) = _
            by_cases hz : z = x
            · rw [if_pos hz, if_neg (by rintro rfl; exact hxy hz), hz, h1]; rfl
            · rw [if_neg hz]
              by_cases hz' : z = y
              · rw [if_pos hz', if_pos hz']; rfl
              · rw [if_neg hz', if_neg hz', h.kinds z]
          · intro z o q hz hq
            rw [hobj] at hz
            split at hz
            · cases hz; cases hq
            · split at hz
              · cases hz; exact h.own x _ q e hq
              · exact h.own z o q hz hq
          · intro z w o1 o2 q hz hw hq1 hq2
            rw [hobj] at hz hw
            split at hz
            · cases hz; cases hq1
            · split at hw
              · cases hw; cases hq2
              · split at hz <;> split at hw
                · omega
                · cases hz
                  rename_i hwx _ _
                  exact absurd (h.uniq x w _ _ q e hw hq1 hq2).symm hwx
                · cases hw
                  rename_i hzx _ _ _
                  exact absurd (h.uniq z x _ _ q hz e hq1 hq2) hzx
                · exact h.uniq z w _ _ q hz hw hq1 hq2
          · intro q hq
            rcases h.cover q hq with hf | ⟨z, o, hz, hp⟩
            · exact .inl hf
            · right
              by_cases hzx : z = x
              · subst hzx
                rw [e] at hz; cases hz
                exact ⟨y, .sized p (vlatoSize off len elt), by rw [hobj, if_neg hxy, if_pos rfl], hp⟩
              · refine ⟨z, o, ?_, hp⟩
                rw [hobj, if_neg hzx, if_neg (by rintro rfl; rw [hy] at hz; cases hz), hz]
          · exact h.nodup
          · exact h.old
  | destroy x =>
    have hk := h.kinds x
    cases e : m.objs x with
    | none => rw [e] at hk; exact absurd hk hl
    | some o =>
      cases ep : o.ptr with
      | none =>
        refine ⟨m.set x none, ?_, ?_⟩
        · show (Mem.obj x >>= _) m = _
          rw [M.bind_ok (show Mem.obj x m = (.ok o, m) by unfold Mem.obj; rw [e]), ep]
          rfl
        · constructor
          · exact kinds_set h.kinds x none
          · intro z o' q hz hq
            simp only [Mem.set] at hz
            split at hz
            · cases hz
            · exact h.own z o' q hz hq
          · intro z w o1 o2 q hz hw hq1 hq2
            simp only [Mem.set] at hz hw
            split at hz
            · cases hz
            · split at hw
              · cases hw
              · exact h.uniq z w _ _ q hz hw hq1 hq2
          · intro q hq
            rcases h.cover q hq with hf | ⟨z, o', hz, hp⟩
            · exact .inl hf
            · refine .inr ⟨z, o', ?_, hp⟩
              simp only [Mem.set]
              rw [if_neg]
              · exact hz
              · rintro rfl; rw [e] at hz; cases hz; rw [ep] at hp; cases hp
          · exact h.nodup
          · exact h.old
      | some p =>
        obtain ⟨h1, h2⟩ := h.own x o p e ep
        refine ⟨({ m with freed := p :: m.freed } : Mem).set x none, ?_, ?_⟩
        · show (Mem.obj x >>= _) m = _
          rw [M.bind_ok (show Mem.obj x m = (.ok o, m) by unfold Mem.obj; rw [e]), ep]
          dsimp only
          rw [M.bind_ok (show free p m = (.ok (), { m with freed := p :: m.freed }) from if_pos ⟨h1, h2⟩)]
          rfl
        · constructor
          · exact kinds_set (m := { m with freed := p :: m.freed }) h.kinds x none
          · intro z o' q hz hq
            simp only [Mem.set] at hz ⊢
            split at hz
            · cases hz
            · rename_i hzx
              obtain ⟨h3, h4⟩ := h.own z o' q hz hq
              refine ⟨h3, fun hm => ?_⟩
              rcases List.mem_cons.1 hm with rfl | hm
              · exact hzx (h.uniq z x _ _ q hz e hq ep)
              · exact h4 hm
          · intro z w o1 o2 q hz hw hq1 hq2
            simp only [Mem.set] at hz hw
            split at hz
            · cases hz
            · split at hw
              · cases hw
              · exact h.uniq z w _ _ q hz hw hq1 hq2
          · intro q hq
            simp only [Mem.set] at hq ⊢
            rcases h.cover q hq with hf | ⟨z, o', hz, hp⟩
            · exact .inl (List.mem_cons_of_mem _ hf)
            · by_cases hzx : z = x
              · subst hzx
                rw [e] at hz; cases hz
                rw [ep] at hp; cases hp
                exact .inl (by simp)
              · exact .inr ⟨z, o', by rw [if_neg hzx]; exact hz, hp⟩
          · exact List.nodup_cons.2 ⟨h2, h.nodup⟩
          · intro q hq
            rcases List.mem_cons.1 hq with rfl | hq
            · exact h1
            · exact h.old q hq

theorem owned_run {l l' : Living} {ops : List OwnOp} (hist : History l ops l') (hc : NoCopies ops) {m : Mem}
    (h : Owned l m) : ∃ m', runOwn ops m = (.ok (), m') ∧ Owned l' m' := by
  induction hist generalizing m with
  | nil l => exact ⟨m, rfl, h⟩
  | cons hl _ ih =>
    obtain ⟨m1, h1, h2⟩ := owned_step h hl (fun y x e => hc y x (by simp [e]))
    obtain ⟨m2, h3, h4⟩ := ih (fun y x hm => hc y x (List.mem_cons_of_mem _ hm)) h2
    exact ⟨m2, by unfold runOwn; rw [M.bind_ok h1, h3], h4⟩

theorem owned_empty : Owned nobody Mem.empty :=
  ⟨fun _ => rfl, fun _ _ _ h => (by cases h), fun _ _ _ _ _ h => (by cases h), fun _ h => (by cases h), .nil,
    fun _ h => (by cases h)⟩

/-- **C46**, for histories without copies: nothing is freed twice at any time, no freed block is pointed to,
and when all objects are gone every block allocated has been freed exactly once. -/
theorem C46_freed_once_partial {ops : List OwnOp} {l : Living} (h : History nobody ops l) (hc : NoCopies ops) :
    ∃ m, runOwn ops Mem.empty = (.ok (), m) ∧ m.freed.Nodup ∧
      (∀ x o p, m.objs x = some o → o.ptr = some p → p < m.blocks.length ∧ p ∉ m.freed) ∧
      (l = nobody → m.freed.Perm (List.range m.blocks.length)) := by
  obtain ⟨m, h1, h2⟩ := owned_run h hc owned_empty
  refine ⟨m, h1, h2.nodup, h2.own, ?_⟩
  rintro rfl
  refine (List.perm_ext_iff_of_nodup h2.nodup List.nodup_range).2 fun p => ?_
  rw [List.mem_range]
  refine ⟨h2.old p, fun hp => ?_⟩
  rcases h2.cover p hp with hf | ⟨x, o, hx, _⟩
  · exact hf
  · have := h2.kinds x
    rw [hx] at this
    cases this

/-- The history of the unit test t/050 gives back both blocks. -/
example : (runOwn [.newSized 0 40, .newVlato 1 8 5 2, .convert 2 1, .destroy 1, .destroy 2, .destroy 0] Mem.empty).1
      = .ok () ∧
    (runOwn [.newSized 0 40, .newVlato 1 8 5 2, .convert 2 1, .destroy 1, .destroy 2, .destroy 0] Mem.empty).2.freed
      = [0, 1] := by decide +kernel

example : History nobody [.newVlato 1 8 5 2, .convert 2 1, .destroy 1, .destroy 2]
    (((((nobody.set 1 (some true)).set 2 (some false)).set 1 none)).set 2 none) :=
  .cons (by rfl) (.cons ⟨by rfl, by rfl⟩ (.cons (by intro h; cases h) (.cons (by intro h; cases h) (.nil _))))

/-- **C46 is violated** as soon as an object is copied: both classes have the implicitly declared copy
constructor, and both objects free the block. -/
theorem C46_violated (n : Nat) : History nobody [.newSized 0 n, .copy 1 0, .destroy 1, .destroy 0] nobody ∧
    (runOwn [.newSized 0 n, .copy 1 0, .destroy 1, .destroy 0] Mem.empty).1 = .ub .badFree := by
  constructor
  · have e : nobody = OwnOp.living (OwnOp.living (OwnOp.living (OwnOp.living nobody (.newSized 0 n)) (.copy 1 0))
        (.destroy 1)) (.destroy 0) := by
      funext x
      by_cases h0 : x = 0
      · subst h0; rfl
      · by_cases h1 : x = 1
        · subst h1; rfl
        · simp [OwnOp.living, Living.set, h0, h1]
    have hist : History nobody [.newSized 0 n, .copy 1 0, .destroy 1, .destroy 0]
        (OwnOp.living (OwnOp.living (OwnOp.living (OwnOp.living nobody (.newSized 0 n)) (.copy 1 0)) (.destroy 1))
          (.destroy 0)) :=
      History.cons (o := .newSized 0 n) (show nobody 0 = none from rfl)
        (History.cons (o := .copy 1 0) ⟨(by intro h; cases h), rfl⟩
          (History.cons (o := .destroy 1) (by intro h; cases h)
            (History.cons (o := .destroy 0) (by intro h; cases h) (.nil _))))
    rw [← e] at hist
    exact hist
  · rfl

/-- **C46 is violated** in ExtractPValue: when the data run out, the block stays allocated and no object
points to it, for every arithmetic type and every heap where the invariant held. -/
theorem C46_violated_leak {β : Type} [BlobLike β] {l : Living} {m : Mem} (h : Owned l m) (x : Nat) (t : ArithTy) (b b' : β)
    (hb : extractValue t b = (.outOfData, b')) :
    ∃ m' p, extractPValue x t (m, b) = (.outOfData, (m', b')) ∧ p < m'.blocks.length ∧ p ∉ m'.freed ∧
      ∀ y o, m'.objs y = some o → o.ptr ≠ some p := by
  refine ⟨{ m with blocks := m.blocks ++ [t.size] }, m.blocks.length, ?_, ?_, ?_, ?_⟩
  · unfold extractPValue malloc
    dsimp only
    rw [hb]
  · simp
  · intro hm
    exact Nat.lt_irrefl _ (h.old _ hm)
  · intro y o hy hp
    exact Nat.lt_irrefl _ (h.own y o _ hy hp).1

/-- With enough data it does what a constructor does. -/
theorem C46_extractPValue {β : Type} [BlobLike β] {l : Living} {m : Mem} (h : Owned l m) {x : Nat} (hx : l x = none)
    (t : ArithTy) (b b' : β) (v : AVal) (hb : extractValue t b = (.ok v, b')) :
    ∃ m', extractPValue x t (m, b) = (.ok v, (m', b')) ∧ Owned (l.set x (some false)) m' := by
  refine ⟨({ m with blocks := m.blocks ++ [t.size] } : Mem).set x (some (.sized (some m.blocks.length) t.size)), ?_,
    owned_new h hx t.size (.sized (some m.blocks.length) t.size) rfl⟩
  unfold extractPValue malloc
  dsimp only
  rw [hb]

/-! ## C47 -/

/-- What every object says about its block is true. -/
def Truthful (m : Mem) : Prop := ∀ x o p, m.objs x = some o → o.ptr = some p → m.blocks[p]? = some o.claims

theorem vlatoSize_claims (p : Option Nat) (off len elt : Nat) :
    vlatoSize off len elt = (Owner.vlato p off len elt).claims := by
  unfold vlatoSize toSz
  show _ = (off + len * elt) % 18446744073709551616
  rw [← Int.natCast_mul]
  generalize len * elt = k
  omega

theorem truthful_new {m : Mem} (h : Truthful m) (x n : Nat) (o : Owner) (ho : o.ptr = some m.blocks.length)
    (hn : n = o.claims) : Truthful (({ m with blocks := m.blocks ++ [n] } : Mem).set x (some o)) := by
  intro y o' p hy hp
  simp only [Mem.set] at hy ⊢
  split at hy
  · cases hy
    rw [ho] at hp
    cases hp
    rw [List.getElem?_append_right (Nat.le_refl _), Nat.sub_self, hn]
    rfl
  · have := h y o' p hy hp
    have hlt : p < m.blocks.length := by
      rcases Nat.lt_or_ge p m.blocks.length with h | h
      · exact h
      · rw [List.getElem?_eq_none h] at this; cases this
    rw [List.getElem?_append_left hlt, this]

theorem truthful_set {m : Mem} (h : Truthful m) (x : Nat) (o : Option Owner)
    (ho : ∀ o' p, o = some o' → o'.ptr = some p → m.blocks[p]? = some o'.claims) : Truthful (m.set x o) := by
  intro y o' p hy hp
  simp only [Mem.set] at hy ⊢
  split at hy
  · exact ho o' p hy hp
  · exact h y o' p hy hp

theorem obj_ok {x : Nat} {m m' : Mem} {o : Owner} (h : Mem.obj x m = (.ok o, m')) : m.objs x = some o ∧ m' = m := by
  unfold Mem.obj at h
  split at h
  · rename_i o' e
    cases h
    exact ⟨e, rfl⟩
  · cases h

theorem truthful_step {m m' : Mem} (h : Truthful m) {op : OwnOp} (hr : op.run m = (.ok (), m')) : Truthful m' := by
  cases op with
  | newSized x n => cases hr; exact truthful_new h x n (.sized (some m.blocks.length) n) rfl rfl
  | newVlato x off len elt =>
    cases hr
    refine truthful_new h x _ (.vlato (some m.blocks.length) off len elt) rfl ?_
    rw [← vlatoSize_claims]
    unfold vlatoSize
    rw [Int.mul_comm]
  | newVlatoPtr x off len elt =>
    cases hr
    exact truthful_new h x _ (.vlato (some m.blocks.length) off len elt) rfl (vlatoSize_claims _ _ _ _)
  | convert y x =>
    obtain ⟨o, m1, h1, h2⟩ := M.bind_eq_ok.1 hr
    obtain ⟨hx, rfl⟩ := obj_ok h1
    cases o with
    | sized p n => cases h2
    | vlato p off len elt =>
      cases h2
      refine truthful_set (truthful_set h y _ ?_) x _ ?_
      · intro o' q he hq
        cases he
        rw [h x _ q hx hq, vlatoSize_claims p]
        rfl
      · intro o' q he hq
        cases he
        cases hq
  | destroy x =>
    obtain ⟨o, m1, h1, h2⟩ := M.bind_eq_ok.1 hr
    obtain ⟨hx, rfl⟩ := obj_ok h1
    cases ep : o.ptr with
    | none =>
      rw [ep] at h2
      cases h2
      exact truthful_set h x none (fun _ _ he => by cases he)
    | some p =>
      rw [ep] at h2
      obtain ⟨_, m2, h3, h4⟩ := M.bind_eq_ok.1 h2
      cases h4
      unfold free at h3
      split at h3
      · cases h3
        exact truthful_set (m := { m1 with freed := p :: m1.freed }) h x none (fun _ _ he => by cases he)
      · cases h3
  | copy y x =>
    obtain ⟨o, m1, h1, h2⟩ := M.bind_eq_ok.1 hr
    obtain ⟨hx, rfl⟩ := obj_ok h1
    cases h2
    exact truthful_set h y (some o) (fun o' p he hp => by cases he; exact h x o p hx hp)

theorem truthful_run {ops : List OwnOp} {m m' : Mem} (h : Truthful m) (hr : runOwn ops m = (.ok (), m')) : Truthful m' := by
  induction ops generalizing m with
  | nil => cases hr; exact h
  | cons o os ih =>
    obtain ⟨_, m1, h1, h2⟩ := M.bind_eq_ok.1 hr
    exact ih (truthful_step h h1) h2

/-- **C47** After every history, copies or not, the size an object reports is the size of the block it
points to; and the block of a `VLATO_ptr` has room for its `length` elements unless
`offset + length * sizeof(ArrayT)` does not fit in `size_t`. -/
theorem C47_size_partial {ops : List OwnOp} {m : Mem} (h : runOwn ops Mem.empty = (.ok (), m)) {x : Nat} {o : Owner}
    {p : Nat} (ho : m.objs x = some o) (hp : o.ptr = some p) :
    m.blocks[p]? = some o.claims ∧
    ∀ q off len elt, o = .vlato q off len elt → off + len * elt < 18446744073709551616 →
      ∀ i < len, ∀ n, m.blocks[p]? = some n → off + (i + 1) * elt ≤ n := by
  have hh := truthful_run (m := Mem.empty) (fun _ _ _ h => by cases h) h x o p ho hp
  refine ⟨hh, ?_⟩
  rintro q off len elt rfl hf i hi n hn
  rw [hh] at hn
  cases hn
  show _ ≤ (off + len * elt) % 18446744073709551616
  rw [Nat.mod_eq_of_lt hf]
  have := Nat.mul_le_mul_right elt (show i + 1 ≤ len from hi)
  omega

example : (runOwn [.newVlato 1 8 5 2] Mem.empty).2.blocks = [18] := by decide +kernel

/-- **C47 is violated** for lengths that do not fit: a `VLATO_ptr` of 2^63 elements of two bytes gets a
block that has no room for the first one. -/
theorem C47_violated : ∃ m, runOwn [.newVlato 0 8 9223372036854775808 2] Mem.empty = (.ok (), m) ∧
    m.objs 0 = some (.vlato (some 0) 8 9223372036854775808 2) ∧ m.blocks[0]? = some 8 ∧ ¬ 8 + (0 + 1) * 2 ≤ 8 :=
  ⟨_, rfl, rfl, rfl, by omega⟩

end BS
