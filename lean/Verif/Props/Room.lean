import Verif.Lemmas.Room
import Verif.Props.Ample
import Verif.Props.Record

/-!
# Every text for which there is room can be made (C97)
-/

namespace BS
open BlobLike

/-- **C97.** Whatever the stamps and however they are made of each other: if `n` bytes give room for the text `s` (`Room`),
then some `n` bytes make it. With `C74_composed`, which says that every text made is put together in such a way, this
describes what a grammar can make, up to the sizes. -/
theorem C97_room {G : Graph} {fl : Flags} {mn mx : Id → Int} (hf : Fresh G fl) (hk : KnownSizes G fl mn mx) {i : Id} {n : Nat}
    {s : Bytes} (h : Room G fl mn mx i n s) (hn : n ≤ 1500000) : ∃ left, Makes G fl i n s left :=
  (room_makes hf hk h hn).makes (by omega)

theorem ampleGraph_known : KnownSizes ampleGraph Flags.init (fun i => [2, 1, 8, 7, 6].getD i 0)
    (fun i => [-1, 1, -1, -1, -1].getD i 0) := by
  have h := ampleGraph_ample
  refine ⟨h.closed, fun i hi => ?_⟩
  obtain ⟨h1, h2, h3, h4, h5, h6⟩ := h.sizes i hi
  refine ⟨h1, h2, h3, by omega, ?_⟩
  rcases i with _ | _ | _ | _ | _ | i
  · decide
  · decide
  · decide
  · decide
  · decide
  · exact absurd rfl hi

theorem ampleGraph_fresh : Fresh ampleGraph Flags.init := fun _ _ _ => rfl

/-- The room a text needs in `ampleGraph`. -/
abbrev AmpleRoom := Room ampleGraph Flags.init (fun i => [2, 1, 8, 7, 6].getD i 0) (fun i => [-1, 1, -1, -1, -1].getD i 0)

/-- A number has room in one byte and in more. -/
theorem ample_number (v : UInt8) {n : Nat} (h1 : 1 ≤ n) (hn : n ≤ 1500000) : AmpleRoom 1 n (intDec (v.toNat : Int)) := by
  obtain ⟨k, rfl⟩ : ∃ k, n = k + 1 := ⟨n - 1, by omega⟩
  obtain ⟨x, e1, e2⟩ := arith_run (G := ampleGraph) (fl := Flags.init) (j := 1) (t := .u8) rfl (by unfold PlainInt; decide)
    (a := v :: List.replicate k 0) (by rw [List.length_cons]; exact Nat.le_add_left ..)
  have hx : x = (v.toNat : Int) := by
    have : decode .u8 [v] = .int (v.toNat : Int) := by
      show AVal.int ((leNat [v] : Nat) : Int) = _
      rw [show leNat [v] = v.toNat by simp [leNat]]
    have e3 : decode .u8 [v] = .int x := e1
    rw [this] at e3
    cases e3; rfl
  subst hx
  obtain ⟨left, this⟩ := AMakes.makes (n := k + 1) ⟨_, _, by rw [List.length_cons, List.length_replicate], e2⟩ (by omega)
  exact Room.single (nd := .arith .u8) rfl rfl this

/-- A number as the winner of the lottery, in two bytes or three. -/
theorem ample_leaf (v : UInt8) {n : Nat} (h1 : n = 2 ∨ n = 3) : AmpleRoom 0 n (intDec (v.toNat : Int)) := by
  obtain ⟨k, rfl⟩ : ∃ k, n = 1 + k := ⟨n - 1, by omega⟩
  refine Room.lottery (j := 1) rfl rfl (by decide) (by decide) (ample_number v (n := k) (by omega) (by omega)) ?_ ?_
  · show (1 : Int) ≤ k; omega
  · rcases (by omega : k = 1 ∨ k = 2) with rfl | rfl <;> decide

/-- Sums, and numbers beside a list of one thing. -/
inductive AmpleTree where
  | number (v : UInt8)
  | sum (a b : AmpleTree)
  | beside (v : UInt8) (t : AmpleTree)

/-- How they are written. -/
def AmpleTree.text : AmpleTree → Bytes
  | .number v => intDec (v.toNat : Int)
  | .sum a b => str "(" ++ a.text ++ str " + " ++ b.text ++ str ")"
  | .beside v t => str "(" ++ intDec (v.toNat : Int) ++ str " : (" ++ t.text ++ str "))"

/-- The number of bytes they need. -/
def AmpleTree.needs : AmpleTree → Nat
  | .number _ => 2
  | .sum a b => 5 + a.needs + b.needs
  | .beside _ t => 6 + t.needs

theorem AmpleTree.two_le (t : AmpleTree) : 2 ≤ t.needs := by
  cases t <;> simp only [AmpleTree.needs] <;> omega

theorem AmpleTree.room : ∀ t : AmpleTree, t.needs ≤ 65536 → AmpleRoom 0 t.needs t.text
  | .number v, _ => ample_leaf v (.inl rfl)
  | .sum a b, h => by
    have ha := a.two_le
    have hb := b.two_le
    simp only [AmpleTree.needs] at h
    have key := Room.set (G := ampleGraph) (fl := Flags.init) (mn := fun i => [2, 1, 8, 7, 6].getD i 0)
      (mx := fun i => [-1, 1, -1, -1, -1].getD i 0) (i := 2) (join := binaryText [43]) (unb := true)
      [(0, a.needs, a.text), (0, b.needs, b.text)] rfl (by
        intro x hx
        simp only [List.mem_cons, List.not_mem_nil, or_false] at hx
        rcases hx with rfl | rfl
        · exact a.room (by omega)
        · exact b.room (by omega)) (by
        intro x hx
        simp only [List.mem_cons, List.not_mem_nil, or_false] at hx
        rcases hx with rfl | rfl
        · exact .inr ⟨rfl, by show (2 : Int) ≤ a.needs; omega, by show (a.needs : Int) ≤ 2 + 65535; omega⟩
        · exact .inr ⟨rfl, by show (2 : Int) ≤ b.needs; omega, by show (b.needs : Int) ≤ 2 + 65535; omega⟩) (by
        rw [List.length_cons, List.length_singleton]; decide)
    have := Room.lottery (i := 0) (j := 2) (l := [1, 2, 3]) rfl rfl (by decide) (by decide) key
      (by
        show (8 : Int) ≤ ((a.needs + (b.needs + 0) + 4 : Nat) : Int)
        omega) (fun _ _ => .inl rfl)
    have e1 : (AmpleTree.sum a b).needs = 1 + (a.needs + (b.needs + 0) + 4) := by
      simp only [AmpleTree.needs]; omega
    have e2 : (AmpleTree.sum a b).text = binaryText [43] [a.text, b.text] := by
      simp only [AmpleTree.text, binaryText]
      rw [show str " + " = [32] ++ [43] ++ [32] from by decide +kernel, show str "(" = [40] from by decide +kernel,
        show str ")" = [41] from by decide +kernel]
      simp only [List.append_assoc]
    rw [e1, e2]
    exact this
  | .beside v t, h => by
    have ht := t.two_le
    simp only [AmpleTree.needs] at h
    have one := Room.listOfOne (G := ampleGraph) (fl := Flags.init) (mn := fun i => [2, 1, 8, 7, 6].getD i 0)
      (mx := fun i => [-1, 1, -1, -1, -1].getD i 0) (i := 4) (c := 0) (join := enumJoin [44] [40] [41]) rfl rfl
      (t.room (by omega)) (by show (2 : Int) ≤ t.needs; omega) (by show (2 + (t.needs : Int)) / (2 + 2) ≤ 65535; omega)
    have key := Room.set (G := ampleGraph) (fl := Flags.init) (mn := fun i => [2, 1, 8, 7, 6].getD i 0)
      (mx := fun i => [-1, 1, -1, -1, -1].getD i 0) (i := 3) (join := binaryText [58]) (unb := true)
      [(1, 1, intDec (v.toNat : Int)), (4, 4 + t.needs, enumJoin [44] [40] [41] [t.text])] rfl (by
        intro x hx
        simp only [List.mem_cons, List.not_mem_nil, or_false] at hx
        rcases hx with rfl | rfl
        · exact ample_number v le_rfl (by show 1 ≤ 1500000; decide)
        · exact one) (by
        intro x hx
        simp only [List.mem_cons, List.not_mem_nil, or_false] at hx
        rcases hx with rfl | rfl
        · exact .inl ⟨rfl, rfl⟩
        · refine .inr ⟨rfl, ?_, ?_⟩
          · show (6 : Int) ≤ ((4 + t.needs : Nat) : Int); omega
          · show ((4 + t.needs : Nat) : Int) ≤ 6 + 65535; omega) (by
        rw [List.length_cons, List.length_singleton]; decide)
    have := Room.lottery (i := 0) (j := 3) (l := [1, 2, 3]) rfl rfl (by decide) (by decide) key
      (by
        show (7 : Int) ≤ ((1 + (4 + t.needs + 0) + 0 : Nat) : Int)
        omega) (fun _ _ => .inl rfl)
    have e1 : (AmpleTree.beside v t).needs = 1 + (1 + (4 + t.needs + 0) + 0) := by
      simp only [AmpleTree.needs]; omega
    have e2 : (AmpleTree.beside v t).text = binaryText [58] [intDec (v.toNat : Int), enumJoin [44] [40] [41] [t.text]] := by
      simp only [AmpleTree.text, binaryText, enumJoin, joinLoop, List.isEmpty_nil, if_true]
      rw [show str " : (" = [32] ++ [58] ++ [32] ++ [40] from by decide +kernel, show str "(" = [40] from by decide +kernel,
        show str "))" = [41] ++ [41] from by decide +kernel]
      simp only [List.append_assoc, List.nil_append]
    rw [e1, e2]
    exact this

/-- **C97**, a grammar that refers to itself through a lottery: every tree of sums and of numbers beside lists of one thing
that needs at most 65536 bytes is made of exactly so many. -/
theorem C97_trees (t : AmpleTree) (h : t.needs ≤ 65536) : ∃ left, Makes ampleGraph Flags.init 0 t.needs t.text left :=
  C97_room ampleGraph_fresh ampleGraph_known (t.room h) (by omega)

/-- `((7 : (255)) + (1 + 2))`: 22 bytes. -/
example : ∃ left, Makes ampleGraph Flags.init 0 22 (str "((7 : (255)) + (1 + 2))") left := by
  have := C97_trees (.sum (.beside 7 (.number 255)) (.sum (.number 1) (.number 2))) (by decide)
  rwa [show AmpleTree.text _ = str "((7 : (255)) + (1 + 2))" from by decide +kernel] at this

/-- A list of several: `(1,255,0)` beside 255. The byte that may be lost is reckoned with. -/
example : ∃ left, Makes ampleGraph Flags.init 0 17 (str "(255 : (1,255,0))") left := by
  have l := Room.list (G := ampleGraph) (fl := Flags.init) (mn := fun i => [2, 1, 8, 7, 6].getD i 0)
    (mx := fun i => [-1, 1, -1, -1, -1].getD i 0) (i := 4) (c := 0) (join := enumJoin [44] [40] [41])
    [(2, intDec ((1 : UInt8).toNat : Int)), (2, intDec ((255 : UInt8).toNat : Int))] rfl rfl (by simp) (by
      intro x hx
      simp only [List.mem_cons, List.not_mem_nil, or_false] at hx
      rcases hx with rfl | rfl <;> exact ample_leaf _ (.inl rfl)) (by decide)
    (ample_leaf 0 (.inl rfl)) (ample_leaf 0 (.inr rfl)) (by decide) (by decide) (by decide)
  have key := Room.set (G := ampleGraph) (fl := Flags.init) (mn := fun i => [2, 1, 8, 7, 6].getD i 0)
    (mx := fun i => [-1, 1, -1, -1, -1].getD i 0) (i := 3) (join := binaryText [58]) (unb := true)
    [(1, 1, intDec ((255 : UInt8).toNat : Int)), (4, _, _)] rfl (by
      intro x hx
      simp only [List.mem_cons, List.not_mem_nil, or_false] at hx
      rcases hx with rfl | rfl
      · exact ample_number 255 le_rfl (by decide)
      · exact l) (by decide) (by decide)
  have := Room.lottery (i := 0) (j := 3) (l := [1, 2, 3]) rfl rfl (by decide) (by decide) key (by decide) (fun _ _ => .inl rfl)
  obtain ⟨left, h⟩ := C97_room ampleGraph_fresh ampleGraph_known this (by decide)
  refine ⟨left, ?_⟩
  rw [show str "(255 : (1,255,0))" = binaryText [58] [intDec ((255 : UInt8).toNat : Int), enumJoin [44] [40] [41]
    [intDec ((1 : UInt8).toNat : Int), intDec ((255 : UInt8).toNat : Int), intDec ((0 : UInt8).toNat : Int)]] from by decide +kernel]
  exact h

end BS
