import Verif.Spec.Double
import Verif.Props.Owner

/-!
# C46: exactly which histories free a buffer twice
-/

namespace BS

theorem obj_some {x : Nat} {m : Mem} {o : Owner} (h : m.objs x = some o) : Mem.obj x m = (.ok o, m) := by
  unfold Mem.obj; rw [h]

/-- The use of an object that is not alive is undefined. -/
theorem C46_gone {l : Living} {m : Mem} (h : ∀ x, l x = (m.objs x).map Owner.kind) {op : OwnOp} {x : Nat} (hu : op.Uses x)
    (hx : l x = none) : op.run m = (.ub .nullDeref, m) := by
  have e : m.objs x = none := by
    have := h x
    rw [hx] at this
    cases e : m.objs x with
    | none => rfl
    | some o => rw [e] at this; cases this
  have e' : Mem.obj x m = (.ub .nullDeref, m) := by unfold Mem.obj; rw [e]
  cases op with
  | convert y z => cases hu; exact M.bind_ub e'
  | destroy z => cases hu; exact M.bind_ub e'
  | copy y z => cases hu; exact M.bind_ub e'
  | _ => cases hu

theorem live_some {l : Living} {m : Mem} (h : ∀ x, l x = (m.objs x).map Owner.kind) {x : Nat} (hx : l x ≠ none) :
    ∃ o, m.objs x = some o := by
  cases e : m.objs x with
  | none => exact absurd ((h x).trans (by rw [e]; rfl)) hx
  | some o => exact ⟨o, rfl⟩

theorem live_none {l : Living} {m : Mem} (h : ∀ x, l x = (m.objs x).map Owner.kind) {x : Nat} (hx : l x = none) :
    m.objs x = none := by
  have := h x
  rw [hx] at this
  cases e : m.objs x with
  | none => rfl
  | some o => rw [e] at this; cases this

/-- What a legal operation does, in terms of the state: it ends well with the kinds as they should be, or it frees what must
not be freed. -/
theorem own_step {l : Living} {m : Mem} (h : ∀ x, l x = (m.objs x).map Owner.kind) {op : OwnOp} (hl : op.Legal l) :
    (op.run m).1 = .ub .badFree ∨
      ∃ m', op.run m = (.ok (), m') ∧ (∀ x, op.living l x = (m'.objs x).map Owner.kind) := by
  cases op with
  | newSized x n => exact .inr ⟨_, rfl, kinds_set (m := { m with blocks := _ }) h x (some (.sized (some m.blocks.length) n))⟩
  | newVlato x off len elt =>
    exact .inr ⟨_, rfl, kinds_set (m := { m with blocks := _ }) h x (some (.vlato (some m.blocks.length) off len elt))⟩
  | newVlatoPtr x off len elt =>
    exact .inr ⟨_, rfl, kinds_set (m := { m with blocks := _ }) h x (some (.vlato (some m.blocks.length) off len elt))⟩
  | copy y x =>
    obtain ⟨o, e⟩ := live_some h hl.1
    refine .inr ⟨m.set y (some o), ?_, ?_⟩
    · show (Mem.obj x >>= _) m = _
      rw [M.bind_ok (obj_some e)]; rfl
    · have := kinds_set h y (some o)
      rw [show (some o).map Owner.kind = l x by rw [h x, e]] at this
      exact this
  | convert y x =>
    obtain ⟨h1, h2⟩ := hl
    obtain ⟨o, e⟩ := live_some h (x := x) (by rw [h1]; simp)
    have hk := h x
    rw [h1, e] at hk
    cases o with
    | sized p n => cases hk
    | vlato p off len elt =>
      have hxy : y ≠ x := by rintro rfl; rw [h1] at h2; cases h2
      refine .inr ⟨(m.set y (some (.sized p (vlatoSize off len elt)))).set x (some (.vlato none off len elt)), ?_, fun z => ?_⟩
      · show (Mem.obj x >>= _) m = _
        rw [M.bind_ok (obj_some e)]; rfl
      · show (if z = y then some false else l z) =
          Option.map Owner.kind (if z = x then some (.vlato none off len elt) else if z = y then _ else m.objs z)
        by_cases hz : z = x
        · rw [if_pos hz, if_neg (by rintro rfl; exact hxy hz), hz, h1]; rfl
        · rw [if_neg hz]
          by_cases hz' : z = y
          · rw [if_pos hz', if_pos hz']; rfl
          · rw [if_neg hz', if_neg hz', h z]
  | destroy x =>
    obtain ⟨o, e⟩ := live_some h hl
    cases ep : o.ptr with
    | none =>
      refine .inr ⟨m.set x none, ?_, kinds_set h x none⟩
      show (Mem.obj x >>= _) m = _
      rw [M.bind_ok (obj_some e), ep]; rfl
    | some p =>
      by_cases hp : p < m.blocks.length ∧ p ∉ m.freed
      · refine .inr ⟨({ m with freed := p :: m.freed } : Mem).set x none, ?_, kinds_set (m := { m with freed := _ }) h x none⟩
        show (Mem.obj x >>= _) m = _
        rw [M.bind_ok (obj_some e), ep]
        dsimp only
        rw [M.bind_ok (show free p m = (.ok (), { m with freed := p :: m.freed }) from if_pos hp)]
        rfl
      · left
        show ((Mem.obj x >>= _) m).1 = _
        rw [M.bind_ok (obj_some e), ep]
        dsimp only
        rw [M.bind_ub (show free p m = (.ub .badFree, m) from if_neg hp)]

/-- Some living object points to a block that is gone, or that another one points to as well. -/
def Doomed (m : Mem) : Prop :=
  ∃ x o p, m.objs x = some o ∧ o.ptr = some p ∧
    (p ∈ m.freed ∨ ∃ y o', y ≠ x ∧ m.objs y = some o' ∧ o'.ptr = some p)

/-- An object moves or stays: the doom stays. -/
theorem doomed_keep {m m' : Mem} (h : Doomed m) (g : Nat → Nat) (hf : ∀ p ∈ m.freed, p ∈ m'.freed)
    (hg : ∀ x o p, m.objs x = some o → o.ptr = some p → ∃ o', m'.objs (g x) = some o' ∧ o'.ptr = some p)
    (hi : ∀ x y o o', m.objs x = some o → m.objs y = some o' → g x = g y → x = y) : Doomed m' := by
  obtain ⟨x, o, p, h1, h2, h3⟩ := h
  obtain ⟨o1, h4, h5⟩ := hg x o p h1 h2
  refine ⟨g x, o1, p, h4, h5, h3.imp (hf p) ?_⟩
  rintro ⟨y, o', h6, h7, h8⟩
  obtain ⟨o2, h9, h10⟩ := hg y o' p h7 h8
  exact ⟨g y, o2, fun e => h6 (hi y x _ _ h7 h1 e), h9, h10⟩

theorem doomed_new {m : Mem} (h : Doomed m) {x : Nat} (hx : m.objs x = none) (n : Nat) (o : Owner) :
    Doomed (({ m with blocks := m.blocks ++ [n] } : Mem).set x (some o)) :=
  doomed_keep h id (fun _ h => h) (fun z o' p hz hp => ⟨o', by
    show (if z = x then _ else m.objs z) = _
    rw [if_neg (by rintro rfl; rw [hx] at hz; cases hz), hz], hp⟩) fun _ _ _ _ _ _ e => e

theorem doomed_step {l : Living} {m m' : Mem} (h : ∀ x, l x = (m.objs x).map Owner.kind) (hd : Doomed m) {op : OwnOp}
    (hl : op.Legal l) (hr : op.run m = (.ok (), m')) : Doomed m' := by
  cases op with
  | newSized x n => cases hr; exact doomed_new hd (live_none h hl) _ _
  | newVlato x off len elt => cases hr; exact doomed_new hd (live_none h hl) _ _
  | newVlatoPtr x off len elt => cases hr; exact doomed_new hd (live_none h hl) _ _
  | copy y x =>
    obtain ⟨o, e⟩ := live_some h hl.1
    have hy := live_none h hl.2
    replace hr : (Mem.obj x >>= _) m = _ := hr
    rw [M.bind_ok (obj_some e)] at hr
    cases hr
    exact doomed_keep hd id (fun _ h => h) (fun z o' p hz hp => ⟨o', by
      show (if z = y then _ else m.objs z) = _
      rw [if_neg (by rintro rfl; rw [hy] at hz; cases hz), hz], hp⟩) fun _ _ _ _ _ _ e => e
  | convert y x =>
    obtain ⟨h1, h2⟩ := hl
    obtain ⟨o, e⟩ := live_some h (x := x) (by rw [h1]; simp)
    have hy := live_none h h2
    have hk := h x
    rw [h1, e] at hk
    cases o with
    | sized p n => cases hk
    | vlato q off len elt =>
      have hxy : y ≠ x := by rintro rfl; rw [h1] at h2; cases h2
      replace hr : (Mem.obj x >>= _) m = _ := hr
      rw [M.bind_ok (obj_some e)] at hr
      cases hr
      refine doomed_keep hd (fun z => if z = x then y else z) (fun _ h => h) (fun z o' p hz hp => ?_) ?_
      · show ∃ o'', (if (if z = x then y else z) = x then _ else if (if z = x then y else z) = y then _ else m.objs _) =
          some o'' ∧ _
        by_cases hzx : z = x
        · subst hzx
          rw [e] at hz; cases hz
          rw [if_pos rfl, if_neg hxy, if_pos rfl]
          exact ⟨_, rfl, hp⟩
        · have hzy : z ≠ y := by rintro rfl; rw [hy] at hz; cases hz
          rw [if_neg hzx, if_neg hzx, if_neg hzy]
          exact ⟨o', hz, hp⟩
      · intro a b oa ob ha hb (hab : (if a = x then y else a) = if b = x then y else b)
        have hay : a ≠ y := by rintro rfl; rw [hy] at ha; cases ha
        have hby : b ≠ y := by rintro rfl; rw [hy] at hb; cases hb
        split at hab <;> split at hab <;> simp_all
  | destroy x =>
    obtain ⟨o, e⟩ := live_some h hl
    replace hr : (Mem.obj x >>= _) m = _ := hr
    rw [M.bind_ok (obj_some e)] at hr
    obtain ⟨a, oa, p, h1, h2, h3⟩ := hd
    cases ep : o.ptr with
    | none =>
      rw [ep] at hr
      cases hr
      have keep : ∀ z oz, m.objs z = some oz → oz.ptr = some p → (m.set x none).objs z = some oz := fun z oz hz hp => by
        show (if z = x then _ else m.objs z) = _
        rw [if_neg (by rintro rfl; rw [e] at hz; cases hz; rw [ep] at hp; cases hp), hz]
      exact ⟨a, oa, p, keep a oa h1 h2, h2, h3.imp id fun ⟨b, ob, h4, h5, h6⟩ => ⟨b, ob, h4, keep b ob h5 h6, h6⟩⟩
    | some q =>
      rw [ep] at hr
      dsimp only at hr
      by_cases hq : q < m.blocks.length ∧ q ∉ m.freed
      · rw [M.bind_ok (show free q m = (.ok (), { m with freed := q :: m.freed }) from if_pos hq)] at hr
        cases hr
        have keep : ∀ z oz, z ≠ x → m.objs z = some oz →
            (({ m with freed := q :: m.freed } : Mem).set x none).objs z = some oz := fun z oz hz ho => by
          show (if z = x then _ else m.objs z) = _
          rw [if_neg hz, ho]
        by_cases hax : a = x
        · subst hax
          rw [e] at h1; cases h1
          rw [ep] at h2; cases h2
          rcases h3 with h3 | ⟨b, ob, h4, h5, h6⟩
          · exact absurd h3 hq.2
          · exact ⟨b, ob, p, keep b ob h4 h5, h6, .inl (List.mem_cons_self ..)⟩
        · refine ⟨a, oa, p, keep a oa hax h1, h2, ?_⟩
          rcases h3 with h3 | ⟨b, ob, h4, h5, h6⟩
          · exact .inl (List.mem_cons_of_mem _ h3)
          · by_cases hbx : b = x
            · subst hbx
              rw [e] at h5; cases h5
              rw [ep] at h6; cases h6
              exact .inl (List.mem_cons_self ..)
            · exact .inr ⟨b, ob, h4, keep b ob hbx h5, h6⟩
      · rw [M.bind_ub (show free q m = (.ub .badFree, m) from if_neg hq)] at hr
        cases hr

theorem doomed_run {l l' : Living} {ops : List OwnOp} (hist : History l ops l') {m : Mem}
    (h : ∀ x, l x = (m.objs x).map Owner.kind) (hd : Doomed m) (hn : l' = nobody) : (runOwn ops m).1 = .ub .badFree := by
  induction hist generalizing m with
  | nil l =>
    subst hn
    obtain ⟨x, o, p, h1, -⟩ := hd
    have := h x
    rw [h1] at this
    cases this
  | cons hl _ ih =>
    unfold runOwn
    rcases own_step h hl with h1 | ⟨m', h1, h2⟩
    · rcases hm : OwnOp.run _ m with ⟨o, s⟩
      rw [hm] at h1
      cases h1
      rw [M.bind_ub hm]
    · rw [M.bind_ok h1]
      exact ih h2 (doomed_step h hd hl h1) hn

/-- `f` are the objects that hold a buffer. -/
def HoldersAre (f : Nat → Prop) (m : Mem) : Prop := ∀ x, f x ↔ ∃ o p, m.objs x = some o ∧ o.ptr = some p

theorem holders_set {f : Nat → Prop} {m : Mem} (h : HoldersAre f m) (y : Nat) (o : Owner) (z : Nat) :
    (z = y ∧ o.ptr ≠ none ∨ z ≠ y ∧ f z) ↔ ∃ o' p, (m.set y (some o)).objs z = some o' ∧ o'.ptr = some p := by
  show _ ↔ ∃ o' p, (if z = y then _ else m.objs z) = _ ∧ _
  by_cases e : z = y
  · rw [if_pos e]
    constructor
    · rintro (⟨-, h'⟩ | ⟨h', -⟩)
      · obtain ⟨p, hp⟩ := Option.ne_none_iff_exists'.1 h'
        exact ⟨o, p, rfl, hp⟩
      · exact absurd e h'
    · rintro ⟨o', p, h1, h2⟩
      cases h1
      exact .inl ⟨e, by rw [h2]; simp⟩
  · rw [if_neg e, ← h z]
    simp [e]

theorem holders_step {l : Living} {f : Nat → Prop} {m m' : Mem} (hk : ∀ x, l x = (m.objs x).map Owner.kind) (h : HoldersAre f m)
    {op : OwnOp} (hl : op.Legal l) (hr : op.run m = (.ok (), m')) : HoldersAre (op.full f) m' := by
  have hnew : ∀ x n o, o.ptr = some m.blocks.length →
      ∀ z, z = x ∨ f z ↔ ∃ o' p, (({ m with blocks := m.blocks ++ [n] } : Mem).set x (some o)).objs z = some o' ∧ o'.ptr = some p := by
    intro x n o ho z
    rw [← holders_set (m := { m with blocks := m.blocks ++ [n] }) h x o z, ho]
    by_cases e : z = x <;> simp [e]
  cases op with
  | newSized x n => cases hr; exact hnew x _ _ rfl
  | newVlato x off len elt => cases hr; exact hnew x _ _ rfl
  | newVlatoPtr x off len elt => cases hr; exact hnew x _ _ rfl
  | copy y x =>
    obtain ⟨o, e⟩ := live_some hk hl.1
    replace hr : (Mem.obj x >>= _) m = _ := hr
    rw [M.bind_ok (obj_some e)] at hr
    cases hr
    intro z
    rw [← holders_set h y o z]
    have : f x ↔ o.ptr ≠ none := by
      rw [h x]
      constructor
      · rintro ⟨o', p, h1, h2⟩
        rw [e] at h1; cases h1
        rw [h2]; simp
      · intro h'
        obtain ⟨p, hp⟩ := Option.ne_none_iff_exists'.1 h'
        exact ⟨o, p, e, hp⟩
    rw [← this]
    rfl
  | convert y x =>
    obtain ⟨h1, h2⟩ := hl
    obtain ⟨o, e⟩ := live_some hk (x := x) (by rw [h1]; simp)
    have hkx := hk x
    rw [h1, e] at hkx
    cases o with
    | sized p n => cases hkx
    | vlato q off len elt =>
      replace hr : (Mem.obj x >>= _) m = _ := hr
      rw [M.bind_ok (obj_some e)] at hr
      cases hr
      intro z
      have k1 : HoldersAre _ (m.set y (some (.sized q (vlatoSize off len elt)))) := fun z => holders_set h y _ z
      refine Iff.trans ?_ (holders_set k1 x (.vlato none off len elt) z)
      have : f x ↔ q ≠ none := by
        rw [h x]
        constructor
        · rintro ⟨o', p, h1, h2⟩
          rw [e] at h1; cases h1
          rintro rfl
          cases h2
        · intro h'
          obtain ⟨p, hp⟩ := Option.ne_none_iff_exists'.1 h'
          exact ⟨_, p, e, hp⟩
      show z ≠ x ∧ (z = y ∧ f x ∨ z ≠ y ∧ f z) ↔
        (z = x ∧ (none : Option Nat) ≠ none ∨ z ≠ x ∧ (z = y ∧ q ≠ none ∨ z ≠ y ∧ f z))
      rw [this]
      simp
  | destroy x =>
    obtain ⟨o, e⟩ := live_some hk hl
    replace hr : (Mem.obj x >>= _) m = _ := hr
    rw [M.bind_ok (obj_some e)] at hr
    have key : ∀ m1 : Mem, m1.objs = m.objs → HoldersAre (fun z => z ≠ x ∧ f z) (m1.set x none) := by
      intro m1 hm z
      show _ ↔ ∃ o' p, (if z = x then none else m1.objs z) = _ ∧ _
      rw [hm]
      by_cases hz : z = x
      · rw [if_pos hz]; simp [hz]
      · rw [if_neg hz, ← h z]; simp [hz]
    cases ep : o.ptr with
    | none =>
      rw [ep] at hr
      cases hr
      exact key m rfl
    | some q =>
      rw [ep] at hr
      dsimp only at hr
      by_cases hq : q < m.blocks.length ∧ q ∉ m.freed
      · rw [M.bind_ok (show free q m = (.ok (), { m with freed := q :: m.freed }) from if_pos hq)] at hr
        cases hr
        exact key _ rfl
      · rw [M.bind_ub (show free q m = (.ub .badFree, m) from if_neg hq)] at hr
        cases hr

/-- A copy of an object that holds nothing changes nothing about the blocks. -/
theorem owned_copy {l : Living} {m : Mem} (h : Owned l m) {y x : Nat} (hl : (OwnOp.copy y x).Legal l)
    (hx : ∀ o p, m.objs x = some o → o.ptr ≠ some p) :
    ∃ m', (OwnOp.copy y x).run m = (.ok (), m') ∧ Owned ((OwnOp.copy y x).living l) m' := by
  obtain ⟨o, e⟩ := live_some h.kinds hl.1
  have hy := live_none h.kinds hl.2
  refine ⟨m.set y (some o), ?_, ?_⟩
  · show (Mem.obj x >>= _) m = _
    rw [M.bind_ok (obj_some e)]; rfl
  have old : ∀ z oz p, (m.set y (some o)).objs z = some oz → oz.ptr = some p → m.objs z = some oz := by
    intro z oz p (hz : (if z = y then _ else m.objs z) = _) hp
    split at hz
    · cases hz; exact absurd hp (hx o p e)
    · exact hz
  constructor
  · have := kinds_set h.kinds y (some o)
    rw [show (some o).map Owner.kind = l x by rw [h.kinds x, e]] at this
    exact this
  · exact fun z oz p hz hp => h.own z oz p (old z oz p hz hp) hp
  · exact fun z w oz ow p hz hw hp hq => h.uniq z w oz ow p (old z oz p hz hp) (old w ow p hw hq) hp hq
  · intro p hp
    refine (h.cover p hp).imp id fun ⟨z, oz, hz, hq⟩ => ⟨z, oz, ?_, hq⟩
    show (if z = y then _ else m.objs z) = _
    rw [if_neg (by rintro rfl; rw [hy] at hz; cases hz), hz]
  · exact h.nodup
  · exact h.old

theorem owned_run_full {l l' : Living} {ops : List OwnOp} (hist : History l ops l') {f : Nat → Prop} (hc : ¬ FullCopy f ops)
    {m : Mem} (hf : HoldersAre f m) (h : Owned l m) : ∃ m', runOwn ops m = (.ok (), m') ∧ Owned l' m' := by
  induction hist generalizing m f with
  | nil l => exact ⟨m, rfl, h⟩
  | @cons l l' o os hl _ ih =>
    have st : ∃ m', o.run m = (.ok (), m') ∧ Owned (o.living l) m' := by
      by_cases hcp : ∃ y x, o = .copy y x
      · obtain ⟨y, x, rfl⟩ := hcp
        refine owned_copy h hl fun ox p he hp => hc (.inl ⟨y, x, rfl, (hf x).2 ⟨ox, p, he, hp⟩⟩)
      · exact owned_step h hl fun y x e => hcp ⟨y, x, e⟩
    obtain ⟨m1, h1, h2⟩ := st
    obtain ⟨m2, h3, h4⟩ := ih (fun hm => hc (.inr hm)) (holders_step h.kinds hf hl h1) h2
    exact ⟨m2, by unfold runOwn; rw [M.bind_ok h1, h3], h4⟩

theorem full_copy_run {l l' : Living} {ops : List OwnOp} (hist : History l ops l') {f : Nat → Prop} (hc : FullCopy f ops)
    {m : Mem} (hf : HoldersAre f m) (h : ∀ x, l x = (m.objs x).map Owner.kind) (hn : l' = nobody) :
    (runOwn ops m).1 = .ub .badFree := by
  induction hist generalizing m f with
  | nil l => exact hc.elim
  | @cons l l' o os hl hs ih =>
    unfold runOwn
    rcases own_step h hl with h1 | ⟨m', h1, h2⟩
    · rcases hm : OwnOp.run _ m with ⟨o, s⟩
      rw [hm] at h1
      cases h1
      rw [M.bind_ub hm]
    · rw [M.bind_ok h1]
      rcases hc with ⟨y, x, rfl, hx⟩ | hc
      · refine doomed_run hs h2 ?_ hn
        obtain ⟨ox, p, e, hp⟩ := (hf x).1 hx
        have hyx : x ≠ y := by rintro rfl; exact hl.1 hl.2
        replace h1 : (Mem.obj x >>= _) m = _ := h1
        rw [M.bind_ok (obj_some e)] at h1
        cases h1
        exact ⟨y, ox, p, if_pos rfl, hp, .inr ⟨x, ox, hyx, (if_neg hyx).trans e, hp⟩⟩
      · exact ih hc (holders_step h hf hl h1) h2 hn

/-- **C46**, exactly: a legal history at whose end all objects are gone frees every block exactly once if no copy is made of an
object that holds a buffer; and otherwise a block is freed that must not be. -/
theorem C46_exact {ops : List OwnOp} (h : History nobody ops nobody) :
    (¬ FullCopy (fun _ => False) ops → ∃ m, runOwn ops Mem.empty = (.ok (), m) ∧ m.freed.Perm (List.range m.blocks.length)) ∧
    (FullCopy (fun _ => False) ops → (runOwn ops Mem.empty).1 = .ub .badFree) := by
  have hk : HoldersAre (fun _ => False) Mem.empty := fun x => ⟨False.elim, fun ⟨_, _, h, _⟩ => by cases h⟩
  refine ⟨fun hc => ?_, fun hc => full_copy_run h hc hk owned_empty.kinds rfl⟩
  obtain ⟨m, h1, h2⟩ := owned_run_full h hc hk owned_empty
  refine ⟨m, h1, (List.perm_ext_iff_of_nodup h2.nodup List.nodup_range).2 fun p => ?_⟩
  rw [List.mem_range]
  refine ⟨h2.old p, fun hp => (h2.cover p hp).elim id ?_⟩
  rintro ⟨x, o, hx, -⟩
  have := h2.kinds x
  rw [hx] at this
  cases this

/-- A copy of a `VLATO_ptr` that has given its buffer away does no harm; a copy before does. -/
example : ¬ FullCopy (fun _ => False) [.newVlato 0 4 3 2, .convert 1 0, .copy 2 0, .destroy 2, .destroy 1, .destroy 0] ∧
    (runOwn [.newVlato 0 4 3 2, .convert 1 0, .copy 2 0, .destroy 2, .destroy 1, .destroy 0] Mem.empty).1 = .ok () ∧
    FullCopy (fun _ => False) [.newVlato 0 4 3 2, .copy 2 0, .convert 1 0, .destroy 2, .destroy 1, .destroy 0] ∧
    (runOwn [.newVlato 0 4 3 2, .copy 2 0, .convert 1 0, .destroy 2, .destroy 1, .destroy 0] Mem.empty).1 = .ub .badFree := by
  refine ⟨?_, rfl, .inr (.inl ⟨2, 0, rfl, .inl rfl⟩), rfl⟩
  simp [FullCopy, OwnOp.full]

/-- Nothing may be done with an object after its end. -/
example : (runOwn [.newSized 0 4, .destroy 0, .destroy 0] Mem.empty).1 = .ub .nullDeref ∧
    (OwnOp.destroy 0).run Mem.empty = (.ub .nullDeref, Mem.empty) :=
  ⟨rfl, C46_gone (l := nobody) (fun _ => rfl) rfl rfl⟩

end BS
