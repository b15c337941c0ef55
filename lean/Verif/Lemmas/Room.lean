import Verif.Spec.Room
import Verif.Lemmas.Ample
import Verif.Lemmas.Shuffle
import Verif.Lemmas.UnbDivide
import Verif.Props.SetAny
import Verif.Props.VecAny

/-!
# Lemmas: texts for which there is room
-/

namespace BS
open BlobLike

variable {G : Graph} {fl : Flags} {mn mx : Id → Int}

/-- Some `n` bytes make `s`. -/
def AMakes (G : Graph) (fl : Flags) (i : Id) (n : Nat) (s : Bytes) : Prop :=
  ∃ a left : ABlob, List.length a = n ∧ ARun G fl i a (.ok s) left

theorem aMakes_of {i : Id} {n : Nat} {s left : Bytes} (h : Makes G fl i n s left) : AMakes G fl i n s := by
  obtain ⟨b, bs, h1, h2, h3, h4⟩ := h
  exact ⟨bs, left, h3, (returns_iff h1 h2).1 h4⟩

theorem AMakes.makes {i : Id} {n : Nat} {s : Bytes} (h : AMakes G fl i n s) (hn : n ≤ INT_MAX) :
    ∃ left, Makes G fl i n s left := by
  obtain ⟨a, left, h1, h2⟩ := h
  obtain ⟨b, e1, e2⟩ := exists_blob (bs := a) (by omega)
  exact ⟨left, b, a, e1, e2, h1, (returns_iff e1 e2).2 h2⟩

/-- The members of a structure, one after the other. -/
theorem room_turn (hf : Fresh G fl) : ∀ (l : List (Id × Nat × Bytes)), (∀ x ∈ l, AMakes G fl x.1 x.2.1 x.2.2) →
    (∀ x ∈ l.dropLast, ExactStamp G x.1 x.2.1) →
    ∃ a left : ABlob, List.length a = (l.map fun x => x.2.1).sum ∧
      ATurn G fl (l.map fun x => x.1) a (l.map fun x => x.2.2) left
  | [], _, _ => ⟨[], [], rfl, .nil _⟩
  | [x], h, _ => by
    obtain ⟨a, left, h1, h2⟩ := h x (by simp)
    exact ⟨a, left, by simpa using h1, .cons h2 (.nil _)⟩
  | x :: y :: l, h, he => by
    obtain ⟨a, left, h1, h2⟩ := room_turn hf (y :: l) (fun z hz => h z (List.mem_cons_of_mem _ hz))
      (fun z hz => he z (by rw [List.dropLast_cons_cons]; exact List.mem_cons_of_mem _ hz))
    obtain ⟨p, pl, h3, h4⟩ := h x (by simp)
    obtain ⟨s', h5⟩ := ((he x (by rw [List.dropLast_cons_cons]; simp)).exact hf).1 p h3
    have h6 := h5 []
    rw [List.append_nil] at h6
    have e := (ARun.once (by simp) (by simp) h4 h6).1
    cases e
    refine ⟨p ++ a, left, ?_, .cons (h5 a) h2⟩
    rw [List.length_append, h3, h1]
    simp

/-- The pieces that make the texts. -/
theorem room_pieces : ∀ (l : List (Id × Nat × Bytes)), (∀ x ∈ l, AMakes G fl x.1 x.2.1 x.2.2) →
    ∃ parts : List Bytes, List.Forall₂ (fun (x : Id × Nat × Bytes) (p : Bytes) => p.length = x.2.1) l parts ∧
      List.Forall₂ (PieceRun G fl) ((l.map fun x => x.1).zip parts) (l.map fun x => x.2.2)
  | [], _ => ⟨[], .nil, .nil⟩
  | x :: l, h => by
    obtain ⟨parts, h1, h2⟩ := room_pieces l fun y hy => h y (List.mem_cons_of_mem _ hy)
    obtain ⟨a, left, h3, h4⟩ := h x (by simp)
    exact ⟨a :: parts, .cons h3 h1, .cons ⟨left, h4⟩ h2⟩

theorem lengths_sum {l : List (Id × Nat × Bytes)} {parts : List Bytes}
    (h : List.Forall₂ (fun (x : Id × Nat × Bytes) (p : Bytes) => p.length = x.2.1) l parts) :
    parts.flatten.length = (l.map fun x => x.2.1).sum := by
  induction h with
  | nil => rfl
  | cons h _ ih => rw [List.flatten_cons, List.length_append, h, ih]; simp

/-- Parts of a set with at most one unbounded stamp are determined by the data. -/
theorem parts_unique {ss : List SizePair} {ps qs : List Bytes}
    (hp : List.Forall₂ (fun (s : SizePair) (p : Bytes) => s.2 ≠ -1 → (p.length : Int) = s.1) ss ps)
    (hq : List.Forall₂ (fun (s : SizePair) (p : Bytes) => s.2 ≠ -1 → (p.length : Int) = s.1) ss qs)
    (hu : (ss.filter fun s => decide (s.2 = -1)).length ≤ 1) (he : ps.flatten = qs.flatten) : ps = qs := by
  induction hp generalizing qs with
  | nil => cases hq; rfl
  | @cons s p ss ps h hp ih =>
    cases hq with
    | @cons _ q _ qs h' hq =>
    have hlen : p.length = q.length := by
      by_cases hs : s.2 = -1
      · have h0 : ∀ t ∈ ss, t.2 ≠ -1 := by
          intro t ht e
          rw [List.filter_cons_of_pos (by simpa using hs), List.length_cons] at hu
          have : 0 < (ss.filter fun s => decide (s.2 = -1)).length :=
            List.length_pos_of_mem (List.mem_filter.2 ⟨ht, by simpa using e⟩)
          omega
        have key : ∀ {ts : List SizePair} {rs : List Bytes},
            List.Forall₂ (fun (s : SizePair) (p : Bytes) => s.2 ≠ -1 → (p.length : Int) = s.1) ts rs →
            (∀ t ∈ ts, t.2 ≠ -1) → (rs.flatten.length : Int) = (ts.map Prod.fst).sum := by
          intro ts rs h
          induction h with
          | nil => intro _; rfl
          | cons h _ ih =>
            intro h0
            rw [List.flatten_cons, List.length_append, List.map_cons, List.sum_cons, Nat.cast_add, h (h0 _ (by simp)),
              ih fun t ht => h0 t (List.mem_cons_of_mem _ ht)]
        have e1 := key hp h0
        have e2 := key hq h0
        have e3 := congrArg List.length he
        rw [List.flatten_cons, List.flatten_cons, List.length_append, List.length_append] at e3
        omega
      · have e1 := h hs
        have e2 := h' hs
        omega
    rw [List.flatten_cons, List.flatten_cons] at he
    obtain ⟨rfl, e⟩ := List.append_inj he hlen
    rw [ih hq (le_trans (by
      by_cases hs : s.2 = -1
      · rw [List.filter_cons_of_pos (by simpa using hs), List.length_cons]; omega
      · rw [List.filter_cons_of_neg (by simpa using hs)]) hu) e]

/-- At most one unbounded stamp: the pieces themselves are the data. -/
theorem setSplit_parts {ss : List SizePair} (hs : ∀ s ∈ ss, 0 ≤ s.1 ∧ (s.2 = s.1 ∨ s.2 = -1))
    (hu : (ss.filter fun s => decide (s.2 = -1)).length ≤ 1) {parts : List Bytes} (hp : List.Forall₂ Suits ss parts)
    (ht : parts.flatten.length + 2 * (ss.length + 1) ≤ INT_MAX) (hn : ss.length * (parts.flatten.length + 1) ≤ 2 ^ 49) :
    setSplit ss (parts.flatten : ABlob) = (.ok parts, []) := by
  have hsum : (ss.map Prod.fst).sum ≤ parts.flatten.length := by
    clear hs hu ht hn
    induction hp with
    | nil => simp
    | @cons s p ss ps h _ ih =>
      rw [List.map_cons, List.sum_cons, List.flatten_cons, List.length_append, Nat.cast_add]
      unfold Suits at h
      split at h <;> omega
  have hnn : 0 ≤ (ss.map Prod.fst).sum := List.sum_nonneg fun x hx => by
    obtain ⟨s, h1, rfl⟩ := List.mem_map.1 hx
    exact (hs s h1).1
  have hle : ∀ s ∈ ss, s.1 ≤ INT_MAX := by
    intro s h1
    have := List.single_le_sum (l := ss.map Prod.fst) (fun x hx => by
      obtain ⟨s, h1, rfl⟩ := List.mem_map.1 hx
      exact (hs s h1).1) s.1 (List.mem_map_of_mem h1)
    omega
  have hz : SetSizes ss := by
    refine ⟨fun s h1 => ⟨(hs s h1).1, ?_⟩, by omega, ?_⟩
    · have := hle s h1
      rcases (hs s h1).2 with e | e
      · exact .inr ⟨by omega, by omega⟩
      · exact .inl e
    · have : ∀ x ∈ ss.map slack, x = 0 := by
        intro x hx
        obtain ⟨s, h1, rfl⟩ := List.mem_map.1 hx
        unfold slack
        rcases (hs s h1).2 with e | e
        · rw [e]; split <;> omega
        · rw [if_pos e]
      rw [List.sum_eq_zero this]; decide
  have hnv : ∀ s ∈ ss, ¬ IsVariated s := by
    rintro s h1 ⟨a, b⟩
    rcases (hs s h1).2 with e | e
    · exact a e.symm
    · exact b e
  have hor : ∀ o ∈ setOracles ss parts.flatten, o = none := by
    refine stampOracles_all_none (fun s h1 => ?_) _
    rcases (hs s h1).2 with e | e
    · exact .inl e
    · refine .inr ⟨e, decide_eq_false ?_⟩
      rw [List.countP_eq_length_filter]
      omega
  have hv0 : ss.countP SizePair.var = 0 := by
    rw [List.countP_eq_zero]
    intro s h1 h2
    exact hnv s h1 ((isVariated_iff s).2 h2)
  have hcnt : (ss.filter fun s => decide (s.2 = -1)).length = ss.countP SizePair.unb := by
    rw [← List.countP_eq_length_filter]
    exact List.countP_congr (fun s _ => by rw [s.unb_iff]; simp)
  have hneed : setNeed ss = (ss.map Prod.fst).sum := by
    unfold setNeed minSum
    rw [hv0, if_neg (by omega), if_neg (by omega)]
    simp
  have hoc : oracleCount ss = 0 := by
    have := setNeed_eq hz.ok
    rw [hneed] at this
    unfold minSum at this
    omega
  obtain ⟨qs, left, h3, hf⟩ := set_core hz ⟨fun ⟨s, h1, h2⟩ => absurd h2 (hnv s h1), fun ⟨s, h1, _⟩ => by
      have := hor _ (List.of_mem_zip h1).2
      cases this⟩ (by rw [hneed]; exact hsum) (by omega) hn
  have hcat := hf.cat
  rw [hoc, Nat.mul_zero, List.take_zero, List.nil_append] at hcat
  have hqs : List.Forall₂ (fun (s : SizePair) (p : Bytes) => s.2 ≠ -1 → (p.length : Int) = s.1) ss qs := by
    rw [List.forall₂_iff_get]
    refine ⟨hf.length.symm, fun i hi hi' hne => ?_⟩
    refine (hf.sizes i _ _ (List.getElem?_eq_getElem hi) (List.getElem?_eq_getElem hi')).2.2.2 ?_
    rcases (hs ss[i] (List.getElem_mem _)).2 with e | e
    · exact e.symm
    · exact absurd e hne
  have hps : List.Forall₂ (fun (s : SizePair) (p : Bytes) => s.2 ≠ -1 → (p.length : Int) = s.1) ss parts :=
    hp.imp fun s p h hne => by
      unfold Suits at h
      rw [if_neg hne] at h
      exact h
  have hleft : left = [] := by
    obtain ⟨fv, g1, g2⟩ := hf.used
    split at g2
    · exact List.length_eq_zero_iff.1 (by omega)
    · next h0 =>
      have key : ∀ {ts : List SizePair} {rs : List Bytes},
          List.Forall₂ (fun (s : SizePair) (p : Bytes) => s.2 ≠ -1 → (p.length : Int) = s.1) ts rs →
          (∀ t ∈ ts, t.2 ≠ -1) → (rs.flatten.length : Int) = (ts.map Prod.fst).sum := by
        intro ts rs h
        induction h with
        | nil => intro _; rfl
        | cons h _ ih =>
          intro h0
          rw [List.flatten_cons, List.length_append, List.map_cons, List.sum_cons, Nat.cast_add, h (h0 _ (by simp)),
            ih fun t ht => h0 t (List.mem_cons_of_mem _ ht)]
      have hn1 : ∀ t ∈ ss, t.2 ≠ -1 := by
        intro t h1 h2
        exact h0 (List.countP_pos_iff.2 ⟨t, h1, t.unb_iff.2 h2⟩)
      have e1 := key hps hn1
      have e2 := key hqs hn1
      have e3 := congrArg List.length hcat
      rw [List.length_append] at e3
      exact List.length_eq_zero_iff.1 (by omega)
  subst hleft
  rw [List.append_nil] at hcat
  rw [h3, parts_unique hps hqs hu hcat.symm]

/-- Elements of fixed size are cut off one after another. -/
theorem fixedLoop_parts {k : Nat} (hk : 1 ≤ k) (hk2 : k < W64) {parts : List Bytes} (h : ∀ p ∈ parts, p.length = k) :
    fixedLoop (parts.length + 1) (k : Int) (parts.flatten : ABlob) = (.ok parts, []) := by
  have hl := flatten_length_const h
  obtain ⟨qs, left, h1, h2, h3, h4⟩ := fixedLoop_abs hk hk2 (parts.length + 1) parts.flatten (by
    rw [hl, Nat.mul_div_cancel _ (by omega)]; omega)
  have hl' := flatten_length_const h3
  have e := congrArg List.length h2
  rw [List.length_append, hl, hl'] at e
  have hc : qs.length = parts.length := by
    apply Nat.le_antisymm
    · by_contra hc
      have := Nat.mul_le_mul_right k (by omega : parts.length + 1 ≤ qs.length)
      rw [Nat.add_mul] at this
      omega
    · by_contra hc
      have := Nat.mul_le_mul_right k (by omega : qs.length + 1 ≤ parts.length)
      rw [Nat.add_mul] at this
      omega
  have hleft : left = [] := List.length_eq_zero_iff.1 (by rw [hc] at e; omega)
  subst hleft
  rw [List.append_nil] at h2
  have key : ∀ (ps qs : List Bytes), ps.length = qs.length → (∀ p ∈ ps, p.length = k) → (∀ p ∈ qs, p.length = k) →
      ps.flatten = qs.flatten → ps = qs := by
    intro ps
    induction ps with
    | nil => intro qs h _ _ _; exact (List.length_eq_zero_iff.1 h.symm).symm
    | cons p ps ih =>
      intro qs h hp hq he
      cases qs with
      | nil => cases h
      | cons q qs =>
        rw [List.flatten_cons, List.flatten_cons] at he
        obtain ⟨rfl, e⟩ := List.append_inj he ((hp p (by simp)).trans (hq q (by simp)).symm)
        rw [ih qs (by simpa using h) (fun x hx => hp x (List.mem_cons_of_mem _ hx))
          (fun x hx => hq x (List.mem_cons_of_mem _ hx)) e]
  rw [h1, key qs parts hc h3 h h2]

/-- Elements of variated size, each behind its oracle. -/
theorem variatedLoop_parts {lo hi : Nat} (h0 : lo ≤ hi) (h1 : lo + 2 ≤ INT_MAX) (h2 : hi ≤ INT_MAX) (hd : hi - lo + 1 ≤ 256) :
    ∀ parts : List Bytes, (∀ p ∈ parts, lo ≤ p.length ∧ p.length ≤ hi) →
    ∃ a : ABlob, List.length a = (parts.map fun p => 2 + p.length).sum ∧
      variatedLoop (parts.length + 1) (lo : Int) (hi : Int) a = (.ok parts, [])
  | [], _ => by
    refine ⟨[], rfl, ?_⟩
    unfold variatedLoop
    have e1 : ((M.lift (ckInt ((lo : Int) + 2)) : M ABlob Int) []) = (.ok ((lo : Int) + 2), []) := by
      rw [ckInt_ok (by omega) (by omega)]; rfl
    rw [M.bind_ok e1, M.bind_ok (M.get_apply _),
      show toSz ((lo : Int) + 2) = lo + 2 by rw [toSz_of_nonneg (by omega) (by omega)]; omega, size_abs, if_pos (by simp)]
    rfl
  | p :: parts, h => by
    obtain ⟨a, i1, i2⟩ := variatedLoop_parts h0 h1 h2 hd parts fun q hq => h q (List.mem_cons_of_mem _ hq)
    obtain ⟨p1, p2⟩ := h p (by simp)
    obtain ⟨o, o1, o2⟩ := (C11_small_ranges_exact h0 (by omega : hi < W64) hd).2 p.length p1 p2
    have hol : (leBytes 2 o).length = 2 := leBytes_length 2 o
    have hov : leNat (leBytes 2 o) = o := leNat_leBytes 2 o (by omega)
    refine ⟨leBytes 2 o ++ (p ++ a), ?_, ?_⟩
    · rw [List.length_append, List.length_append, hol, i1, List.map_cons, List.sum_cons]; omega
    rw [List.length_cons]
    unfold variatedLoop
    have e1 : ((M.lift (ckInt ((lo : Int) + 2)) : M ABlob Int) (leBytes 2 o ++ (p ++ a))) =
        (.ok ((lo : Int) + 2), leBytes 2 o ++ (p ++ a)) := by
      rw [ckInt_ok (by omega) (by omega)]; rfl
    have hal : (leBytes 2 o ++ (p ++ a)).length = 2 + (p.length + List.length a) := by
      rw [List.length_append, hol, List.length_append]
    rw [M.bind_ok e1, M.bind_ok (M.get_apply _),
      show toSz ((lo : Int) + 2) = lo + 2 by rw [toSz_of_nonneg (by omega) (by omega)]; omega, size_abs,
      if_neg (by rw [hal]; omega)]
    have ho := oracle_abs (leBytes 2 o ++ (p ++ a))
    rw [if_neg (by rw [hal]; omega), List.take_left' hol, List.drop_left' hol, hov] at ho
    rw [M.bind_ok ho, toSz_natCast (by omega : lo < W64), toSz_natCast (by omega : hi < W64)]
    have hlift : (M.lift (oracleProportion o lo hi) : M ABlob Nat) (p ++ a) = (.ok p.length, p ++ a) := by rw [o2]; rfl
    rw [M.bind_ok hlift, M.bind_ok (M.get_apply _),
      wrap32_of_fits (by omega : (-W31 : Int) ≤ (p.length : Int)) (by omega), toSz_natCast (by omega), size_abs,
      if_neg (by rw [List.length_append]; omega), toSz_natCast (by omega)]
    have hc : (chop p.length : M ABlob ABlob) (p ++ a) = (.ok p, a) := by
      rw [chop_abs, if_neg (by rw [List.length_append]; omega), List.take_left' rfl, List.drop_left' rfl]
    rw [M.bind_ok hc, M.bind_ok i2]
    rfl

theorem room_texts {c : Id} : ∀ (l : List (Nat × Bytes)), (∀ x ∈ l, AMakes G fl c x.1 x.2) →
    ∃ parts : List Bytes, List.Forall₂ (fun (x : Nat × Bytes) (p : Bytes) => p.length = x.1) l parts ∧
      List.Forall₂ (fun p x => PieceRun G fl (c, p) x) parts (l.map Prod.snd)
  | [], _ => ⟨[], .nil, .nil⟩
  | x :: l, h => by
    obtain ⟨parts, h1, h2⟩ := room_texts l fun y hy => h y (List.mem_cons_of_mem _ hy)
    obtain ⟨a, left, h3, h4⟩ := h x (by simp)
    exact ⟨a :: parts, .cons h3 h1, .cons ⟨left, h4⟩ h2⟩

theorem lengths_of {l : List (Nat × Bytes)} {parts : List Bytes}
    (h : List.Forall₂ (fun (x : Nat × Bytes) (p : Bytes) => p.length = x.1) l parts) :
    parts.map List.length = l.map Prod.fst := by
  induction h with
  | nil => rfl
  | cons h _ ih => rw [List.map_cons, List.map_cons, h, ih]

theorem room_of_mem {α : Type} {f : α → Nat} {l : List α} {x : α} (hx : x ∈ l) : f x ≤ (l.map f).sum :=
  List.le_sum_of_mem (List.mem_map_of_mem hx)

theorem room_makes (hf : Fresh G fl) (hk : KnownSizes G fl mn mx) {i : Id} {n : Nat} {s : Bytes} (h : Room G fl mn mx i n s) :
    n ≤ 1500000 → AMakes G fl i n s := by
  induction h with
  | single hG hn h => exact fun _ => aMakes_of h
  | @unary i c op n s hG h ih =>
    intro hL
    obtain ⟨a, left, h1, m, h2⟩ := ih hL
    exact ⟨a, left, h1, .mk (n := m + 1) (by
      unfold extract; rw [hG]; dsimp only
      rw [M.bind_ok h2]; rfl)⟩
  | @picker i j pool n s hG hl hj h h1 h2 ih =>
    intro hL
    obtain ⟨a, left, e1, e2⟩ := ih (by omega)
    have hs : PoolSizes G fl pool mn mx := by
      refine ⟨fun k hk' => ?_, fun k hk' => ?_⟩
      · obtain ⟨b1, b2, b3, b4, b5⟩ := hk.sizes k (hk.closed i _ hG k (Or.inr hk'))
        exact ⟨b1, b3, b4⟩
      · obtain ⟨b1, b2, b3, b4, b5⟩ := hk.sizes k (hk.closed i _ hG k (Or.inr hk'))
        exact ⟨b2, by omega⟩
    obtain ⟨p, p1, p2⟩ := pick_reach hG hs hl (L := n) (by omega) (mem_pickCandidates.2 ⟨hj, h1, h2⟩)
    exact ⟨p ++ a, left, by rw [List.length_append, p1, e1], p2 a s left e1 e2⟩
  | @lottery i j rec4 l w smin smax n s hG hw hl hj h h1 h2 ih =>
    intro hL
    obtain ⟨a, left, e1, e2⟩ := ih (by omega)
    have hs : LotSizes G fl l mn mx := by
      refine ⟨fun k hk' => ?_, fun k hk' => ?_⟩
      · obtain ⟨b1, b2, b3, b4, b5⟩ := hk.sizes k (hk.closed i _ hG k (Or.inr hk'))
        exact ⟨b1, b3, b4⟩
      · obtain ⟨b1, b2, b3, b4, b5⟩ := hk.sizes k (hk.closed i _ hG k (Or.inr hk'))
        exact ⟨b2, b5⟩
    obtain ⟨p, p1, p2⟩ := lot_reach hG hw hl hs (L := n) (by omega) (mem_lotCandidates.2 ⟨hj, h1, h2⟩)
    exact ⟨p ++ a, left, by rw [List.length_append, p1, e1], p2 a s left e1 e2⟩
  | @seq i join unb l hG h he ih =>
    intro hL
    obtain ⟨a, left, e1, e2⟩ := room_turn hf l (fun x hx => ih x hx (le_trans (room_of_mem (f := fun x => x.2.1) hx) hL)) he
    exact ⟨a, left, e1, (seq_ok_iff hG).2 ⟨_, e2, rfl⟩⟩
  | @set i join unb l hG h hs hl ih =>
    intro hL
    have hsum : (l.map fun x => x.2.1).sum ≤ 1500000 := le_trans (Nat.le_add_right _ _) hL
    obtain ⟨parts, e1, e2⟩ := room_pieces l fun x hx => ih x hx (le_trans (room_of_mem (f := fun x => x.2.1) hx) hsum)
    have hlen := lengths_sum e1
    have hc : ∀ c ∈ l.map (fun x => x.1), G c ≠ none := fun c hc => hk.closed i _ hG c (Or.inl hc)
    have hsz : HaveSizes G fl (l.map fun x => x.1) ((l.map fun x => x.1).map fun c => (mn c, mx c)) := by
      unfold HaveSizes
      rw [List.forall₂_map_right_iff]
      exact List.forall₂_same.2 fun c hcm => ⟨(hk.sizes c (hc c hcm)).1, (hk.sizes c (hc c hcm)).2.1⟩
    set ss : List SizePair := (l.map fun x => x.1).map fun c => (mn c, mx c) with hss
    have hcount : (ss.filter fun s => decide (s.2 = -1)).length = (l.filter fun x => decide (mx x.1 = -1)).length := by
      rw [hss, List.map_map, List.filter_map, List.length_map]
      rfl
    have hsl : ss.length = l.length := by rw [hss, List.length_map, List.length_map]
    have hok : ∀ s ∈ ss, 0 ≤ s.1 ∧ (s.2 = s.1 ∨ s.2 = -1) := by
      intro s hsm
      rw [hss, List.map_map] at hsm
      obtain ⟨x, hx, rfl⟩ := List.mem_map.1 hsm
      have := (hk.sizes x.1 (hc x.1 (List.mem_map_of_mem hx))).2.2.1
      have := hs x hx
      dsimp only [Function.comp]
      omega
    have hsuit : List.Forall₂ Suits ss parts := by
      rw [hss, List.map_map, List.forall₂_map_left_iff]
      rw [List.forall₂_iff_get] at e1 ⊢
      refine ⟨e1.1, fun k hk1 hk2 => ?_⟩
      have h1 := e1.2 k hk1 hk2
      have h2 := hs (l.get ⟨k, hk1⟩) (List.get_mem _ _)
      have h3 := (hk.sizes _ (hc _ (List.mem_map_of_mem (List.get_mem l ⟨k, hk1⟩)))).2.2.1
      unfold Suits
      simp only [Function.comp]
      split <;> omega
    have hx : ∀ {a : ABlob} {left : ABlob}, setSplit ss a = (.ok parts, left) →
        ARun G fl i a (.ok (join (l.map fun x => x.2.2))) left := fun e =>
      (set_ok_iff hG).2 ⟨ss, parts, _, hsz, e, e2, by rw [List.length_map]; omega, rfl⟩
    have hmul : ∀ k ≤ 1500000, ss.length * (k + 1) ≤ 2 ^ 49 := by
      intro k hk
      rw [hsl]
      exact le_trans (Nat.mul_le_mul hl (Nat.succ_le_succ hk)) (by norm_num)
    split at hL
    · next hu =>
      rw [← hcount] at hu hL
      obtain ⟨o, o1, o2⟩ := C69_division_partial hok hu hsuit (by rw [hlen]; omega) (hmul _ (by rw [hlen]; omega))
      obtain ⟨b, b1, b2⟩ := exists_blob (bs := o ++ parts.flatten) (by rw [List.length_append, o1, hlen]; omega)
      have := SetReturns.inv b1.valid b2 (o2 b b1 b2)
      refine ⟨o ++ parts.flatten, [], ?_, hx this⟩
      rw [← hcount, if_pos hu, List.length_append, o1, hlen]
      omega
    · next hu =>
      rw [← hcount] at hu
      refine ⟨parts.flatten, [], ?_, hx (setSplit_parts hok (by omega) hsuit ?_ (hmul _ (by rw [hlen]; omega)))⟩
      · rw [← hcount, if_neg hu, hlen]; omega
      · rw [hlen, hsl]; omega
  | @fixedList i c join n l hG hl h1 h2 h3 h ih =>
    intro hL
    have hpos : 1 ≤ l.length := List.length_pos_iff.2 hl
    have hn : n ≤ l.length * n := Nat.le_mul_of_pos_left _ hpos
    have hle : l.length ≤ l.length * n := Nat.le_mul_of_pos_right _ h3
    obtain ⟨parts, e1, e2⟩ := room_texts (G := G) (fl := fl) (c := c) (l.map fun s => (n, s)) (by
      intro x hx
      obtain ⟨s, hs, rfl⟩ := List.mem_map.1 hx
      exact ih s hs (by omega))
    have hp : ∀ p ∈ parts, p.length = n := by
      have := lengths_of e1
      rw [List.map_map] at this
      intro p hp
      have h4 : p.length ∈ parts.map List.length := List.mem_map_of_mem hp
      rw [this] at h4
      obtain ⟨_, _, h5⟩ := List.mem_map.1 h4
      exact h5.symm
    have hpl : parts.length = l.length := by
      have := e1.length_eq
      rw [List.length_map] at this
      exact this.symm
    have hfl := flatten_length_const hp
    rw [List.map_map, show (Prod.snd ∘ fun s : Bytes => (n, s)) = id from rfl, List.map_id] at e2
    obtain ⟨b1, b2, b3, b4, b5⟩ := hk.sizes c (hk.closed i _ hG c (Or.inl (by simp [Node.plainKids])))
    refine ⟨parts.flatten, [], by rw [hfl, hpl], (list_ok_iff hG).2 ⟨_, _, parts, l, b1, b2, ⟨parts.length + 1, ?_⟩, e2,
      by rw [hpl]; omega, rfl⟩⟩
    rw [vecSplit_enough b3 b4 (by rw [hfl, hpl, h1]; omega), if_pos (by rw [h1, h2]), h1]
    exact fixedLoop_parts h3 (by omega) hp
  | @variedList i c join l hG hl h1 h2 h hn ih =>
    intro hL
    obtain ⟨b1, b2, b3, b4, b5⟩ := hk.sizes c (hk.closed i _ hG c (Or.inl (by simp [Node.plainKids])))
    obtain ⟨parts, e1, e2⟩ := room_texts (G := G) (fl := fl) (c := c) l (fun x hx => ih x hx (by
      have := room_of_mem (f := fun x : Nat × Bytes => 2 + x.1) hx
      omega))
    obtain ⟨lo, hlo⟩ := Int.eq_ofNat_of_zero_le b3
    obtain ⟨hi, hhi⟩ := Int.eq_ofNat_of_zero_le (by omega : 0 ≤ mx c)
    have hlen := lengths_of e1
    have hp : ∀ p ∈ parts, lo ≤ p.length ∧ p.length ≤ hi := by
      intro p hp
      have h4 : p.length ∈ parts.map List.length := List.mem_map_of_mem hp
      rw [hlen] at h4
      obtain ⟨x, hx, h5⟩ := List.mem_map.1 h4
      have := hn x hx
      omega
    have hsum : (parts.map fun p => 2 + p.length).sum = (l.map fun x => 2 + x.1).sum := by
      have : (parts.map fun p => 2 + p.length) = (parts.map List.length).map (2 + ·) := by rw [List.map_map]; rfl
      rw [this, hlen, List.map_map]
      rfl
    have hpl := e1.length_eq
    obtain ⟨x0, hx0⟩ := List.exists_mem_of_ne_nil l hl
    have hx1 := room_of_mem (f := fun x : Nat × Bytes => 2 + x.1) hx0
    have hx2 := hn x0 hx0
    have hcnt : l.length ≤ (l.map fun x => 2 + x.1).sum := by
      clear hL hl h hn ih e1 e2 hlen hp hsum hpl hx0 hx1 hx2
      induction l with
      | nil => simp
      | cons x l ih => rw [List.map_cons, List.sum_cons, List.length_cons]; omega
    obtain ⟨a, a1, a2⟩ := variatedLoop_parts (lo := lo) (hi := hi) (by omega) (by omega) (by omega) (by omega) parts hp
    refine ⟨a, [], by rw [a1, hsum], (list_ok_iff hG).2 ⟨_, _, parts, _, b1, b2, ⟨parts.length + 1, ?_⟩, e2, by omega, rfl⟩⟩
    rw [vecSplit_enough b3 b4 (by rw [a1, hsum]; omega), if_neg (by omega), if_neg (by omega)]
    have e3 : ((M.lift (ckInt (mx c - mn c)) : M ABlob Int) a) = (.ok (mx c - mn c), a) := by
      rw [ckInt_ok (by omega) (by omega)]; rfl
    rw [M.bind_ok e3, hlo, hhi]
    exact a2
  | @listOfOne i c join n s hG h1 h h2 h3 ih =>
    intro hL
    obtain ⟨b1, b2, b3, b4, b5⟩ := hk.sizes c (hk.closed i _ hG c (Or.inl (by simp [Node.plainKids])))
    obtain ⟨a, left, e1, e2⟩ := ih (by omega)
    obtain ⟨m, hm⟩ := Int.eq_ofNat_of_zero_le b3
    obtain ⟨hd, f1, f2⟩ := vecUnbounded_single (m := m) (l := n) (by omega) (by omega) (by
      rw [hm] at h3
      exact_mod_cast h3)
    refine ⟨hd ++ a, [], by rw [List.length_append, f1, e1], (list_ok_iff hG).2 ⟨_, _, [a], [s], b1, b2, ⟨0, ?_⟩,
      .cons ⟨left, e2⟩ .nil, by simp, rfl⟩⟩
    rw [vecSplit_enough b3 b4 (by rw [List.length_append, f1, e1]; omega), if_neg (by omega), if_pos h1, hm]
    exact f2 a e1
  | @list i c join l n s hG h1 hl h h2 h' h'' h3 h4 h5 ih ih' ih'' =>
    intro hL
    obtain ⟨b1, b2, b3, b4, b5⟩ := hk.sizes c (hk.closed i _ hG c (Or.inl (by simp [Node.plainKids])))
    obtain ⟨m, hm⟩ := Int.eq_ofNat_of_zero_le b3
    obtain ⟨parts, e1, e2⟩ := room_texts (G := G) (fl := fl) (c := c) l (fun x hx => ih x hx (by
      have := room_of_mem (f := fun x : Nat × Bytes => 2 + x.1) hx
      omega))
    have hlen := lengths_of e1
    have hpl := e1.length_eq
    have hsum : (l.map fun x => 2 + x.1).sum = 2 * parts.length + (parts.map List.length).sum := by
      rw [hlen, ← hpl]
      clear hL hl h h2 ih e1 e2 hlen h5 hpl
      induction l with
      | nil => rfl
      | cons x l ih => simp only [List.map_cons, List.sum_cons, List.length_cons, ih]; omega
    have hmem : ∀ x ∈ parts.map List.length, m ≤ x ∧ x ≤ m + 32767 := by
      rw [hlen]
      intro y hy
      obtain ⟨x, hx, rfl⟩ := List.mem_map.1 hy
      have := h2 x hx
      omega
    obtain ⟨hd, d, f1, f2, f3⟩ := vecUnbounded_divide (m := m) (ls := parts.map List.length) (l := n + 1) (by
        intro e
        rw [List.map_eq_nil_iff] at e
        rw [e] at hpl
        exact hl (List.length_eq_zero_iff.1 hpl)) (fun x hx => (hmem x hx).1) (by omega) (fun x hx => (hmem x hx).2)
      (by omega) (by omega) (by
        rw [List.length_map]
        have e : (2 * (parts.length + 1) + ((parts.map List.length).sum + (n + 1)) : Nat) =
            (l.map fun x => 2 + x.1).sum + n + 3 := by omega
        rw [e]
        rw [hm] at h5
        exact_mod_cast h5)
    rw [List.length_map] at f1
    rw [← List.length_flatten] at f3 hsum
    obtain ⟨last, lleft, lx, q1, q2⟩ : ∃ (last lleft : ABlob) (lx : Bytes), List.length last = n + 1 - d ∧
        ARun G fl c last (.ok s) lleft ∧ lx.length = d := by
      rcases (by omega : d = 0 ∨ d = 1) with rfl | rfl
      · obtain ⟨a, left, g1, g2⟩ := ih'' (by omega)
        exact ⟨a, left, [], g1, g2, rfl⟩
      · obtain ⟨a, left, g1, g2⟩ := ih' (by omega)
        exact ⟨a, left, [0], g1, g2, rfl⟩
    obtain ⟨q2, q3⟩ := q2
    have hbl : (parts.flatten ++ (last ++ lx)).length = parts.flatten.length + (n + 1) := by
      rw [List.length_append, List.length_append, q1, q3]; omega
    have f4 := f3 (parts.flatten ++ (last ++ lx)) hbl
    have ecut : cutSizes (parts.map List.length ++ [n + 1 - d]) (parts.flatten ++ (last ++ lx)) = parts ++ [last] := by
      have := cutSizes_self (parts ++ [last]) lx
      rw [List.map_append, List.map_singleton, q1, List.flatten_append, List.flatten_singleton, List.append_assoc] at this
      exact this
    rw [ecut] at f4
    refine ⟨hd ++ (parts.flatten ++ (last ++ lx)), List.drop (parts.flatten.length + (n + 1 - d)) (parts.flatten ++ (last ++ lx)),
      ?_, (list_ok_iff hG).2 ⟨_, _, parts ++ [last], _, b1, b2, ⟨0, ?_⟩,
      List.rel_append e2 (.cons ⟨lleft, q2⟩ .nil), ?_, rfl⟩⟩
    · rw [List.length_append, f1, hbl]; omega
    · rw [vecSplit_enough b3 b4 (by rw [List.length_append, f1, hbl]; omega), if_neg (by omega), if_pos h1, hm]
      exact f4
    · rw [List.length_append, List.length_singleton]; omega

end BS
