import Verif.Props.JsonLong
import Verif.Lemmas.UnbDivide
import Verif.Spec.JsonSpace

/-!
# Large values of `StampJSON` (C62)
-/

namespace BS
open BlobLike

/-- An array or a hash from what the galley hands out. -/
theorem vec_run_of {i c : Id} {join : List Bytes → Bytes} (hG : jsonGraph i = some (.vec c join)) {m : Nat}
    (hm : 1 ≤ m) (hm' : m ≤ 18)
    (h1 : (sizeQ jsonGraph 9 .min c Flags.init).1 = .ok (m : Int))
    (h2 : (sizeQ jsonGraph 9 .max c Flags.init).1 = .ok (-1))
    {a left : ABlob} {ps : List ABlob} {xs : List Bytes} (hmin : m ≤ a.length)
    (e2 : (vecUnbounded (m : Int) : M ABlob _) a = (.ok ps, left)) (hk : ps.length < 2147483648)
    (hx : List.Forall₂ (JsonRuns c) ps xs) : JsonRuns i a (join xs) := by
  obtain ⟨N, hN⟩ := common_fuel hx
  refine ⟨max N 9 + 1, left, ?_⟩
  unfold extract
  rw [hG]
  dsimp only
  have q1 : liftF (sizeQ jsonGraph (max N 9) .min c) (Flags.init, a) = (.ok (m : Int), (Flags.init, a)) := by
    unfold liftF; dsimp only; rw [jsonSize_ok (by omega) h1]
  have q2 : liftF (sizeQ jsonGraph (max N 9) .max c) (Flags.init, a) = (.ok (-1), (Flags.init, a)) := by
    unfold liftF; dsimp only; rw [jsonSize_ok (by omega) h2]
  have q3 : liftB (vecSplit (max N 9) (m : Int) (-1)) (Flags.init, a) = (.ok ps, (Flags.init, left)) := by
    unfold liftB; dsimp only
    rw [vecSplit_enough (by omega) (by omega) (by exact_mod_cast hmin), if_neg (by omega), if_pos rfl, e2]
  rw [M.bind_ok q1, M.bind_ok q2, M.bind_ok q3]
  have := extractEach_run (hN (max N 9) (by omega)) 0 left (by omega)
  rw [Nat.cast_zero] at this
  rw [M.bind_ok this]
  rfl

/-- Elements of which each can be had from `room` bytes and from one more: together they can be had from the sum
and what the galley needs, and from one byte more. -/
theorem pieces_run {α : Type} {i c : Id} {join : List Bytes → Bytes} (hG : jsonGraph i = some (.vec c join)) {m : Nat}
    (hm : 1 ≤ m) (hm' : m ≤ 18)
    (h1 : (sizeQ jsonGraph 9 .min c Flags.init).1 = .ok (m : Int))
    (h2 : (sizeQ jsonGraph 9 .max c Flags.init).1 = .ok (-1))
    {T : α → Bytes → Prop} {room : α → Nat} {q : List α} (hq : q ≠ []) (hge : ∀ z ∈ q, m ≤ room z)
    (hs : q.length = 1 ∨ ∀ z ∈ q, room z ≤ m + 32766)
    (hP : ∀ z ∈ q, ∀ l, l = room z ∨ l = room z + 1 → ∃ p x, p.length = l ∧ T z x ∧ JsonRuns c (p : ABlob) x)
    {e : Nat} (he : e ≤ 1) {n : Nat}
    (hn : n = (if q.length = 1 then 2 else 3) + (q.map fun z => 2 + room z).sum + e)
    (hb1 : n ≤ 1500000) (hb2 : (n - 2) / (m + 2) ≤ 65535) :
    ∃ (a : ABlob) (qs : List (α × Bytes)), a.length = n ∧ qs.map Prod.fst = q ∧ (∀ z ∈ qs, T z.1 z.2) ∧
      JsonRuns i a (join (qs.map Prod.snd)) := by
  rw [sum_two] at hn
  cases q with
  | nil => exact absurd rfl hq
  | cons z0 q =>
  rcases q.eq_nil_or_concat with rfl | ⟨mid, zk, hmid⟩
  · obtain ⟨p, x, g1, g2, g3⟩ := hP z0 (by simp) (room z0 + e) (by omega)
    have h0 := hge z0 (by simp)
    simp only [List.length_singleton, if_true, List.map_cons, List.map_nil, List.sum_cons, List.sum_nil] at hn
    obtain ⟨hd, f1, f2⟩ := vecUnbounded_single (m := m) (l := room z0 + e) (by omega) (by omega)
      (by rwa [show 2 + (room z0 + e) = n - 2 by omega])
    refine ⟨hd ++ p, [(z0, x)], by rw [List.length_append, f1, g1]; omega, rfl, by simpa using g2, ?_⟩
    exact vec_run_of hG hm hm' h1 h2 (by rw [List.length_append, f1, g1]; omega) (f2 p g1) (by simp) (.cons g3 .nil)
  · rw [List.concat_eq_append] at hmid
    subst hmid
    have hlen : (z0 :: (mid ++ [zk])).length ≠ 1 := by simp
    rw [if_neg hlen] at hn
    have hs' := hs.resolve_left hlen
    have hk := hge zk (by simp)
    have hk' := hs' zk (by simp)
    have h0 := hge z0 (by simp)
    have h0' := hs' z0 (by simp)
    have hsum : n = 2 + 2 * (mid.length + 2) + ((room z0 + e) + (mid.map room).sum + (room zk + 1)) := by
      simp only [List.length_cons, List.length_append, List.length_nil, List.map_cons, List.map_append, List.map_nil,
        List.sum_cons, List.sum_append, List.sum_nil] at hn
      omega
    obtain ⟨hd, d, f1, f2, f3⟩ := vecUnbounded_divide (m := m) (ls := (room z0 + e) :: mid.map room) (l := room zk + 1)
      (by simp) (by
        intro x hx
        rcases List.mem_cons.1 hx with rfl | hx
        · omega
        · obtain ⟨z, hz, rfl⟩ := List.mem_map.1 hx
          exact hge z (by simp [hz])) (by omega) (by
        intro x hx
        rcases List.mem_cons.1 hx with rfl | hx
        · omega
        · obtain ⟨z, hz, rfl⟩ := List.mem_map.1 hx
          have := hs' z (by simp [hz])
          omega) (by omega) (by rw [List.sum_cons]; omega) (by
        rw [List.sum_cons, List.length_cons, List.length_map]
        rwa [show 2 * (mid.length + 1 + 1) + (room z0 + e + (mid.map room).sum + (room zk + 1)) = n - 2 by omega])
    rw [List.length_cons, List.length_map] at f1
    rw [List.sum_cons] at f3
    set chosen : List (α × Nat) := (z0, room z0 + e) :: (mid.map (fun z => (z, room z)) ++ [(zk, room zk + 1 - d)]) with hch
    have hcin : ∀ z ∈ chosen, z.1 ∈ z0 :: (mid ++ [zk]) ∧ (z.2 = room z.1 ∨ z.2 = room z.1 + 1) := by
      intro z hz
      rcases List.mem_cons.1 hz with rfl | hz
      · exact ⟨by simp, by dsimp only; omega⟩
      · rcases List.mem_append.1 hz with hz | hz
        · obtain ⟨y, hy, rfl⟩ := List.mem_map.1 hz
          exact ⟨by simp [hy], .inl rfl⟩
        · rw [List.mem_singleton] at hz
          subst hz
          exact ⟨by simp, by dsimp only; omega⟩
    obtain ⟨ps, qs, e1, e2, e3, e4⟩ := trees_pieces (c := c) (T := fun (z : α × Nat) x => T z.1 x) (len := Prod.snd)
      (l := chosen) fun z hz => hP z.1 (hcin z hz).1 z.2 (hcin z hz).2
    have hlens : ps.map List.length = (room z0 + e) :: mid.map room ++ [room zk + 1 - d] := by
      rw [e3, hch]
      simp [Function.comp_def]
    have hfl : ps.flatten.length = (room z0 + e) + (mid.map room).sum + (room zk + 1 - d) := by
      have : ps.flatten.length = (ps.map List.length).sum := List.length_flatten
      rw [this, hlens]
      simp only [List.cons_append, List.sum_cons, List.sum_append, List.sum_nil]
      omega
    have hbody : (ps.flatten ++ List.replicate d 0 : Bytes).length = (room z0 + e) + (mid.map room).sum + (room zk + 1) := by
      rw [List.length_append, List.length_replicate, hfl]; omega
    have f4 := f3 (ps.flatten ++ List.replicate d 0) hbody
    rw [← hlens, cutSizes_self] at f4
    have hpl : ps.length = mid.length + 2 := by
      have := congrArg List.length hlens
      simpa using this
    refine ⟨hd ++ (ps.flatten ++ List.replicate d 0), qs.map fun z => (z.1.1, z.2), ?_, ?_, ?_, ?_⟩
    · rw [List.length_append, f1, hbody]; omega
    · rw [List.map_map]
      have : qs.map (fun z => z.1.1) = (qs.map Prod.fst).map Prod.fst := by rw [List.map_map]; rfl
      refine this.trans ?_
      rw [e1, hch]
      simp [Function.comp_def]
    · intro z hz
      obtain ⟨y, hy, rfl⟩ := List.mem_map.1 hz
      exact e2 y hy
    · rw [List.map_map]
      exact vec_run_of hG hm hm' h1 h2 (by rw [List.length_append, f1, hbody]; omega) f4 (by omega) e4

theorem array_pick_wide {rest : Bytes} {s : Bytes} (h1 : 14 ≤ rest.length) (h2 : rest.length < 2147483648)
    (h : JsonRuns 4 (rest : ABlob) s) : JsonRuns 0 (0 :: 0 :: rest : ABlob) s := by
  obtain ⟨_, k2, k3⟩ := C53_json_kind (x := 0) (y := 0) (rest := rest)
  refine deleg_run (rest := rest) (j := 4) ?_ (by simp only [List.length_cons]; omega) (by omega) h
  by_cases h3 : rest.length < 22
  · exact k2 h1 h3
  · exact k3 (by omega)

theorem hash_pick_wide {rest : Bytes} {s : Bytes} (h1 : 22 ≤ rest.length) (h2 : rest.length < 2147483648)
    (h : JsonRuns 5 (rest : ABlob) s) : JsonRuns 0 (0 :: 128 :: rest : ABlob) s := by
  obtain ⟨_, _, k3⟩ := C53_json_kind (x := 0) (y := 128) (rest := rest)
  exact deleg_run (rest := rest) (j := 5) (k3 (by omega)) (by simp only [List.length_cons]; omega) (by omega) h

/-- A name and a value, from a byte and the bytes of the value. -/
theorem member_run {w : Bytes} (hw : w ∈ lcAlphaSmall) {p s : Bytes} (h : JsonRuns 0 (p : ABlob) s) :
    ∃ o : UInt8, JsonRuns 6 (o :: p : ABlob) (quoted w ++ str ": " ++ s) := by
  obtain ⟨n, left, e3⟩ := h
  obtain ⟨o, ho⟩ := word_run hw
  refine ⟨o, n + 2, left, ?_⟩
  have hx1 : extract jsonGraph (n + 1) 7 (Flags.init, (o :: p : ABlob)) = (.ok (quoted w), (Flags.init, p)) := by
    rw [extract_name]
    unfold liftB
    dsimp only
    rw [ho]
  have hx2 := extract_lift (m := n + 1) (by omega) e3
  show (do
    let xs ← extractSeq (extract jsonGraph (n + 1)) [7, 0]
    pure (hashElText xs) : XM ABlob Bytes) _ = _
  have : extractSeq (extract jsonGraph (n + 1)) [7, 0] (Flags.init, (o :: p : ABlob)) =
      (.ok [quoted w, s], (Flags.init, left)) := by
    unfold extractSeq
    rw [M.bind_ok hx1]
    unfold extractSeq
    rw [M.bind_assoc, M.bind_ok hx2]
    rfl
  rw [M.bind_ok this, str_colon]
  rfl

theorem JSpace.ge {t : JTree} {n : Nat} (h : JSpace t n) :
    (t.container = false → n = 10) ∧ (t.container = true → 17 ≤ n) := by
  induction h with
  | int => exact ⟨fun _ => rfl, by simp [JTree.container]⟩
  | dbl => exact ⟨fun _ => rfl, by simp [JTree.container]⟩
  | word => exact ⟨fun _ => rfl, by simp [JTree.container]⟩
  | arr hn hs h => exact ⟨by simp [JTree.container], fun _ => by omega⟩
  | obj hn hs hw hc h ih =>
    rename_i l
    refine ⟨by simp [JTree.container], fun _ => ?_⟩
    cases l with
    | nil => exact absurd rfl hn
    | cons p l =>
      have := (ih p (by simp)).2 (hc p (by simp))
      rw [List.map_cons, List.sum_cons]
      omega

/-- **C62** for large values, on the bytes: from the room and from one byte more. -/
theorem tree_wide {t : JTree} {n : Nat} (h : JSpace t n) : n ≤ 786434 → ∀ l : Nat,
    (t.container = false ∧ 10 ≤ l ∧ l ≤ 15) ∨ (t.container = true ∧ (l = n ∨ l = n + 1)) →
    ∃ p s, p.length = l ∧ JText t s ∧ JsonRuns 0 (p : ABlob) s := by
  have scalar : ∀ {t : JTree} {l : Nat}, JRoom True t 10 → t.container = false → 10 ≤ l → l ≤ 15 →
      ∃ p s, p.length = l ∧ JText t s ∧ JsonRuns 0 (p : ABlob) s :=
    fun h hc h1 h2 => tree_json h (by norm_num) _ (.inl ⟨hc, h1, h2⟩)
  induction h with
  | int h1 h2 =>
    rintro - l (⟨-, hl, hl'⟩ | ⟨h, _⟩)
    · exact scalar (.int h1 h2) rfl hl hl'
    · cases h
  | dbl hs he hm =>
    rintro - l (⟨-, hl, hl'⟩ | ⟨h, _⟩)
    · exact scalar (.dbl hs he hm) rfl hl hl'
    · cases h
  | word hw =>
    rintro - l (⟨-, hl, hl'⟩ | ⟨h, _⟩)
    · exact scalar (.word hw) rfl hl hl'
    · cases h
  | arr hn hs h ih =>
    rename_i q
    intro hn4 l hl
    have hl := (hl.resolve_left (fun h => by cases h.1)).2
    -- the room of an only element is at least 11
    obtain ⟨room, hroom⟩ : ∃ room : JTree × Nat → Nat, room = fun z => if q.length = 1 then max 11 z.2 else z.2 := ⟨_, rfl⟩
    have hr2 : ∀ z ∈ q, (z.1.container = false → 10 ≤ room z ∧ room z ≤ 11) ∧ (z.1.container = true → room z = z.2) ∧
        10 ≤ room z ∧ room z ≤ max 11 z.2 := by
      intro z hz
      obtain ⟨g1, g2⟩ := (h z hz).ge
      rw [hroom]
      dsimp only
      cases hc : z.1.container
      · have := g1 hc
        refine ⟨fun _ => ?_, nofun, ?_⟩ <;> split <;> omega
      · have := g2 hc
        refine ⟨nofun, fun _ => ?_, ?_⟩ <;> split <;> omega
    have htot : max 17 ((if q.length = 1 then 4 else 5) + (q.map fun p => 2 + p.2).sum) =
        (if q.length = 1 then 4 else 5) + (q.map fun p => 2 + room p).sum := by
      by_cases h1 : q.length = 1
      · obtain ⟨z, rfl⟩ := List.length_eq_one_iff.1 h1
        have := (h z (by simp)).ge
        simp only [List.length_singleton, if_true, List.map_cons, List.map_nil, List.sum_cons, List.sum_nil, hroom]
        cases hc : z.1.container
        · have := this.1 hc; omega
        · have := this.2 hc; omega
      · have e : room = Prod.snd := by rw [hroom]; simp only [if_neg h1]
        rw [e, if_neg h1, sum_two]
        have h2 : 2 ≤ q.length := by
          have := List.length_pos_iff.2 hn
          omega
        cases q with
        | nil => simp at h2
        | cons z q =>
          have hz := (h z (by simp)).ge
          rw [List.map_cons, List.sum_cons]
          cases hc : z.1.container
          · have := hz.1 hc; omega
          · have := hz.2 hc; omega
    rw [htot] at hl hn4
    have hbd : ∀ z ∈ q, 2 + room z ≤ (q.map fun p => 2 + room p).sum := fun z hz =>
      le_sum (f := fun p : JTree × Nat => 2 + room p) hz
    have h45 : (if q.length = 1 then 4 else 5) = 2 + (if q.length = 1 then 2 else 3) := by split <;> rfl
    have h23 : 2 ≤ (if q.length = 1 then 2 else 3) ∧ (if q.length = 1 then 2 else 3) ≤ 3 := by split <;> omega
    rw [h45] at hl hn4
    obtain ⟨ex, hex, hex1⟩ : ∃ ex, l = 2 + ((if q.length = 1 then 2 else 3) + (q.map fun p => 2 + room p).sum + ex) ∧ ex ≤ 1 := by
      rcases hl with hl | hl
      · exact ⟨0, by omega, by omega⟩
      · exact ⟨1, by omega, by omega⟩
    obtain ⟨a, qs, f1, f2, f3, f4⟩ := pieces_run (i := 4) (c := 0) rfl (m := 10) (by norm_num) (by norm_num)
      (by decide +kernel) (by decide +kernel) (T := fun z x => JText z.1 x) (room := room) hn (fun z hz => (hr2 z hz).2.2.1)
      (hs.imp id fun hs z hz => by have := hs z hz; have := (hr2 z hz).2.2.2; omega)
      (fun z hz l hl => by
        obtain ⟨g1, g2, -, -⟩ := hr2 z hz
        have := hbd z hz
        have hz2 := h z hz
        cases hc : z.1.container
        · have := g1 hc
          have e10 := hz2.ge.1 hc
          exact ih z hz (by omega) l (.inl ⟨hc, by omega, by omega⟩)
        · have := g2 hc
          exact ih z hz (by omega) l (.inr ⟨hc, by omega⟩))
      hex1 rfl (by omega) (by omega)
    have hq1 : 12 ≤ (q.map fun p => 2 + room p).sum := by
      obtain ⟨z, hz⟩ := List.exists_mem_of_ne_nil q hn
      have := hbd z hz
      have := (hr2 z hz).2.2.1
      omega
    refine ⟨0 :: 0 :: a, _, ?_, ?_, array_pick_wide ?_ ?_ f4⟩
    · simp only [List.length_cons, f1]; omega
    · rw [enumJoin_ne (fun x hx => by
        obtain ⟨z, hz, rfl⟩ := List.mem_map.1 hx
        exact (f3 z hz).ne_nil)]
      have := JText.arr (l := qs.map fun z => (z.1.1, z.2)) (fun p hp => by
        obtain ⟨z, hz, rfl⟩ := List.mem_map.1 hp
        exact f3 z hz)
      rw [← f2]
      simp only [List.map_map, Function.comp_def] at this ⊢
      exact this
    · rw [f1]; omega
    · rw [f1]; omega
  | obj hn hs hw hc h ih =>
    rename_i q
    intro hn4 l hl
    have hl := (hl.resolve_left (fun h => by cases h.1)).2
    have hge : ∀ z ∈ q, 17 ≤ z.2.2 := fun z hz => (h z hz).ge.2 (hc z hz)
    have e3 : (q.map fun p => 3 + p.2.2) = q.map fun p => 2 + (1 + p.2.2) := List.map_congr_left fun z _ => by omega
    rw [e3] at hl hn4
    have hbd : ∀ z ∈ q, 2 + (1 + z.2.2) ≤ (q.map fun p => 2 + (1 + p.2.2)).sum := fun z hz =>
      le_sum (f := fun p : Bytes × JTree × Nat => 2 + (1 + p.2.2)) hz
    have h45 : (if q.length = 1 then 4 else 5) = 2 + (if q.length = 1 then 2 else 3) := by split <;> rfl
    have h23 : 2 ≤ (if q.length = 1 then 2 else 3) ∧ (if q.length = 1 then 2 else 3) ≤ 3 := by split <;> omega
    rw [h45] at hl hn4
    obtain ⟨ex, hex, hex1⟩ : ∃ ex, l = 2 + ((if q.length = 1 then 2 else 3) + (q.map fun p => 2 + (1 + p.2.2)).sum + ex) ∧ ex ≤ 1 := by
      rcases hl with hl | hl
      · exact ⟨0, by omega, by omega⟩
      · exact ⟨1, by omega, by omega⟩
    obtain ⟨a, qs, f1, f2, f3, f4⟩ := pieces_run (i := 5) (c := 6) rfl (m := 18) (by norm_num) (by norm_num)
      (by decide +kernel) (by decide +kernel)
      (T := fun (z : Bytes × JTree × Nat) x => ∃ y, JText z.2.1 y ∧ x = quoted z.1 ++ str ": " ++ y)
      (room := fun z => 1 + z.2.2) hn (fun z hz => by have := hge z hz; omega)
      (hs.imp id fun hs z hz => by have := hs z hz; omega)
      (fun z hz l hl => by
        have := hbd z hz
        obtain ⟨p, s, g1, g2, g3⟩ := ih z hz (by omega) (l - 1) (.inr ⟨hc z hz, by omega⟩)
        obtain ⟨o, ho⟩ := member_run (hw z hz) g3
        exact ⟨o :: p, _, by rw [List.length_cons, g1]; omega, ⟨s, g2, rfl⟩, ho⟩)
      hex1 rfl (by omega) (by omega)
    have hq1 : 20 ≤ (q.map fun p => 2 + (1 + p.2.2)).sum := by
      obtain ⟨z, hz⟩ := List.exists_mem_of_ne_nil q hn
      have := hbd z hz
      have := hge z hz
      omega
    refine ⟨0 :: 128 :: a, _, ?_, ?_, hash_pick_wide ?_ ?_ f4⟩
    · simp only [List.length_cons, f1]; omega
    · obtain ⟨r, rfl, hr⟩ := annotate f3
      rw [enumJoin_ne (fun x hx => by
        obtain ⟨z, hz, rfl⟩ := List.mem_map.1 hx
        obtain ⟨y, hy, rfl⟩ := List.mem_map.1 hz
        rw [(hr y hy).2]
        simp [quoted])]
      have := JText.obj (l := r.map fun z => (z.1.1.1, z.1.1.2.1, z.2)) (fun p hp => by
        obtain ⟨z, hz, rfl⟩ := List.mem_map.1 hp
        exact (hr z hz).1)
      rw [← f2]
      simp only [List.map_map, Function.comp_def] at this ⊢
      rw [List.map_congr_left (g := fun z => quoted z.1.1.1 ++ str ": " ++ z.2) fun z hz => (hr z hz).2]
      exact this
    · rw [f1]; omega
    · rw [f1]; omega

/-- **C62**, large values: a value that has its room (`JSpace`) within 786434 bytes is what `StampJSON` returns
on a blob of that many bytes. Missing: scalar members of objects, which are never made; empty arrays and objects inside;
elements of 32 KiB and more beside others. -/
theorem C62_large_partial {t : JTree} {n : Nat} (h : JSpace t n) (hn : n ≤ 786434) :
    ∃ p s, p.length = n ∧ JText t s ∧ Gives jsonGraph Flags.init 0 p s := by
  obtain ⟨h1, h2⟩ := h.ge
  obtain ⟨p, s, e1, e2, m, left, e3⟩ := tree_wide h hn n (by
    cases hc : t.container
    · have := h1 hc; exact .inl ⟨rfl, by omega, by omega⟩
    · exact .inr ⟨rfl, .inl rfl⟩)
  exact ⟨p, s, e1, e2, Gives.intro e3⟩

/-- 1000 arrays of 24 integers each, beside each other: 295005 bytes. -/
example : ∃ p s, p.length = 295005 ∧
    JText (.arr (List.replicate 1000 (.arr (List.replicate 24 (.int (-7)))))) s ∧ Gives jsonGraph Flags.init 0 p s := by
  have h1 : JSpace (.arr (List.replicate 24 (.int (-7)))) 293 := by
    have := JSpace.arr (l := List.replicate 24 (.int (-7), 10)) (by simp) (.inr (by simp)) (fun p hp => by
      rw [List.eq_of_mem_replicate hp]; exact .int (by norm_num) (by norm_num))
    simpa using this
  have h2 := JSpace.arr (l := List.replicate 1000 (.arr (List.replicate 24 (.int (-7))), 293))
      (List.ne_nil_of_length_pos (by rw [List.length_replicate]; norm_num)) (.inr (fun p hp => by
      rw [List.eq_of_mem_replicate hp]; norm_num)) (fun p hp => by rw [List.eq_of_mem_replicate hp]; exact h1)
  simp only [List.length_replicate, List.map_replicate, List.sum_replicate] at h2
  exact C62_large_partial (n := 295005) h2 (by norm_num)

/-- **C62** for arrays of integers: exactly those of at most 65535 elements are made by some blob below 2 GiB. -/
theorem C62_integers {l : List Int} (hl : ∀ i ∈ l, -2 ^ 63 ≤ i ∧ i < 2 ^ 63) :
    (∃ b bs s left, Reachable b ∧ Holds b bs ∧ bs.length < 2 ^ 31 ∧ JText (.arr (l.map .int)) s ∧
      Returns jsonGraph Flags.init 0 b s left) ↔ l.length ≤ 65535 := by
  constructor
  · rintro ⟨b, bs, s, left, hr, hh, hb, hs, h⟩
    by_contra hc
    exact C62_violated_long hl (by omega) hs ⟨b, bs, left, hr, hh, hb, h⟩
  · intro hk
    by_cases he : l = []
    · subst he
      obtain ⟨rest, hlen⟩ : ∃ rest : Bytes, rest.length = 786420 := ⟨List.replicate _ 0, List.length_replicate⟩
      obtain ⟨b, hr, hh⟩ := exists_blob (bs := 0 :: 0 :: 255 :: 255 :: rest) (by simp only [List.length_cons]; omega)
      refine ⟨b, _, _, _, hr, hh, by simp only [List.length_cons]; omega, ?_, C61_empty hr hh (by omega) (by omega)⟩
      have := JText.arr (l := []) (by simp)
      rwa [show str "[]" = 91 :: ((str ", ").intercalate (([] : List (JTree × Bytes)).map Prod.snd) ++ [93]) by decide]
    · have h : JSpace (.arr (l.map .int)) (max 17 ((if l.length = 1 then 4 else 5) + 12 * l.length)) := by
        have := JSpace.arr (l := l.map fun i => (JTree.int i, 10)) (by simpa using he) (.inr (by simp)) (fun p hp => by
          obtain ⟨i, hi, rfl⟩ := List.mem_map.1 hp
          exact .int (hl i hi).1 (hl i hi).2)
        simp only [List.length_map, List.map_map, Function.comp_def, List.map_const', List.sum_replicate, smul_eq_mul] at this
        rwa [show 12 * l.length = l.length * (2 + 10) by ring]
      obtain ⟨p, s, e1, e2, e3⟩ := C62_large_partial h (by split <;> omega)
      obtain ⟨b, hr, hh⟩ := exists_blob (bs := p) (by rw [e1]; split <;> omega)
      obtain ⟨left, e3⟩ := e3
      exact ⟨b, p, s, left, hr, hh, by rw [e1]; split <;> omega, e2, e3 b hr hh⟩

/-- 65535 zeros are made, 65536 are not. -/
example : (∃ b bs s left, Reachable b ∧ Holds b bs ∧ bs.length < 2 ^ 31 ∧
      JText (.arr ((List.replicate 65535 (0 : Int)).map .int)) s ∧ Returns jsonGraph Flags.init 0 b s left) ∧
    ¬ (∃ b bs s left, Reachable b ∧ Holds b bs ∧ bs.length < 2 ^ 31 ∧
      JText (.arr ((List.replicate 65536 (0 : Int)).map .int)) s ∧ Returns jsonGraph Flags.init 0 b s left) := by
  have hz : ∀ n, ∀ i ∈ List.replicate n (0 : Int), -2 ^ 63 ≤ i ∧ i < 2 ^ 63 := by
    intro n i hi
    rw [List.eq_of_mem_replicate hi]
    norm_num
  refine ⟨(C62_integers (hz _)).2 (by rw [List.length_replicate]), fun h => ?_⟩
  have := (C62_integers (hz _)).1 h
  rw [List.length_replicate] at this
  omega

end BS
