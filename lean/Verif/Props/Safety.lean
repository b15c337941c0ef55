import Verif.Lemmas.Terminate
import Verif.Props.Recursion
import Verif.Lemmas.Stays

/-!
# Extraction as a whole: it ends, it takes a prefix, and only the remaining bytes matter (C36–C38)
-/

namespace BS
open BlobLike

/-! ## C36: extraction ends -/

/-- **C36, partial.** For every finite graph of stamps whose cycles pass through pickers or lotteries,
without vectors over stamps of fixed size 0, `ExtractStr` ends on every blob: neither the recursion
nor any of the loops goes on for ever. The end may still be `abort()` (see `C31_violated`) or
undefined behaviour (see `C33_violated`) instead of a string or `OutOfData`. -/
theorem C36_ends_partial {G : Graph} {fl : Flags} (h : Ending G fl) (i : Id) {b : Blob} (hr : Reachable b) :
    ∃ o fl' b', o ≠ .fuel ∧ Extracts G fl i b o fl' b' := by
  obtain ⟨N, o, ⟨fl', a'⟩, ho, hN, _⟩ := ends_extract h b.abs.length i b.abs (le_refl _)
  obtain ⟨b', h1, _, _⟩ := Extracts.conc hr.valid ho ⟨N, hN⟩
  exact ⟨o, fl', b', ho, h1⟩

/-- The recursive JSON grammar is covered. -/
theorem jsonGraph_ending : Ending jsonGraph Flags.init where
  guarded := jsonGraph_guarded
  vec := by
    intro i c join hG
    have hc : c = 0 ∨ c = 6 := by
      rcases i with _ | _ | _ | _ | _ | _ | _ | _ | i <;> cases hG
      · exact Or.inl rfl
      · exact Or.inr rfl
    rintro ⟨_, N, h2⟩
    have e := h2 (max N 9) (le_max_left _ _)
    have e9 : ∀ c, c = 0 ∨ c = 6 → (sizeQ jsonGraph 9 .max c Flags.init).1 = .ok (-1) := by
      rintro c (rfl | rfl) <;> decide +kernel
    have e9 := e9 c hc
    rw [sizeQ_stable (le_max_right N 9) (by rw [e9]; simp)] at e
    rw [e] at e9
    cases e9
  ints := by
    intro i u hG
    rcases i with _ | _ | _ | _ | _ | _ | _ | _ | i <;> cases hG
  user := by
    intro i u hG
    rcases i with _ | _ | _ | _ | _ | _ | _ | _ | i <;> cases hG

example {b : Blob} (hr : Reachable b) : ∃ o fl' b', o ≠ .fuel ∧ Extracts jsonGraph Flags.init 0 b o fl' b' :=
  C36_ends_partial jsonGraph_ending 0 hr

/-- A text join over a user stamp that takes no data. -/
def idleGraph : Graph
  | 0 => some (.text 1)
  | 1 => some (.user ⟨0, 0, false, fun _ => (.ok [120], 0)⟩)
  | _ => none

theorem idleGraph_guarded : Guarded idleGraph where
  finite := ⟨2, fun i hi => by
    obtain ⟨j, rfl⟩ : ∃ j, i = j + 2 := ⟨i - 2, (Nat.sub_add_cancel hi).symm⟩
    rfl⟩
  acyclic := by
    have key : ∀ i j : Nat, PlainEdge idleGraph i j → i = 0 ∧ j = 1 := by
      rintro i j ⟨nd, hG, hj⟩
      rcases i with _ | _ | i
      · cases hG; exact ⟨rfl, List.mem_singleton.1 hj⟩
      · cases hG; cases hj
      · cases hG
    intro i hc
    have hz : ∀ i j : Nat, Relation.TransGen (PlainEdge idleGraph) i j → i = 0 ∧ j = 1 := by
      intro i j h
      induction h with
      | single h => exact key _ _ h
      | tail _ h ih => exact ⟨ih.1, (key _ _ h).2⟩
    have := hz i i hc
    omega

/-- **C36 is violated** by a vector over a stamp of fixed size 0, although that graph has no cycle at
all: `ExtractStr` never ends, on every blob. -/
theorem C36_violated : Guarded idleGraph ∧ ∀ b, Reachable b → Diverges idleGraph Flags.init 0 b := by
  refine ⟨idleGraph_guarded, fun b hr n => ?_⟩
  have hd := C17_violated hr
  rcases n with _ | _ | n
  · rfl
  · rfl
  · have e1 : sizeQ idleGraph (n + 1) .min 1 Flags.init = (.ok 0, Flags.init) := rfl
    have e2 : sizeQ idleGraph (n + 1) .max 1 Flags.init = (.ok 0, Flags.init) := rfl
    unfold extract
    show (((liftF (sizeQ idleGraph (n + 1) .min 1) : XM Blob Int) >>= _) (Flags.init, b)).1 = _
    rw [M.bind_ok (s' := (Flags.init, b)) (a := (0 : Int)) (by unfold liftF; rw [e1])]
    rw [M.bind_ok (s' := (Flags.init, b)) (a := (0 : Int)) (by unfold liftF; rw [e2])]
    rw [M.bind_fuel (s' := (Flags.init, (vecSplit (n + 1) 0 0 b).2))]
    show ((vecSplit (n + 1) 0 0 b).1, (Flags.init, (vecSplit (n + 1) 0 0 b).2)) = _
    rw [hd (n + 1)]

/-! ## C37: a prefix is consumed -/

/-- **C37 (rest).** Whatever the stamps and the outcome, what the blob holds afterwards is a suffix of
what it held before. -/
theorem C37_rest_is_suffix {G : Graph} {fl fl' : Flags} {i : Id} {b b' : Blob} {bs : Bytes} {o : Out Bytes}
    (hr : Reachable b) (hh : Holds b bs) (h : Extracts G fl i b o fl' b') :
    ∃ rest, Holds b' rest ∧ rest <:+ bs := by
  obtain ⟨hv, N, hN⟩ := Extracts.abs hr.valid h
  rw [holds_iff hr.valid] at hh
  subst hh
  refine ⟨b'.abs, by rw [holds_iff hv], ?_⟩
  have := suf_extract G N i (fl, b.abs)
  rw [hN N (le_refl _)] at this
  exact this

/-- **C37 (bounds).** Over stamps that are well built no call reads outside the blob's memory, nor
outside any word list or pool, and no pointer leaves the buffer. -/
theorem C37_stays_inside {G : Graph} (hg : WellBuilt G) {fl fl' : Flags} {i : Id} {b b' : Blob} {o : Out Bytes}
    (hr : Reachable b) (h : Extracts G fl i b o fl' b') : o ≠ .ub .oob ∧ o ≠ .ub .ptrArith := by
  obtain ⟨hv, N, hN⟩ := Extracts.abs hr.valid h
  have := (tri_extract hg N i (fl, b.abs)).2.1
  rw [hN N (le_refl _)] at this
  exact this

theorem stays_place (d : Ptr) (f g k : Nat) :
    Stays (fun b => b.Valid ∧ b.data = d ∧ b.fin = f ∧ g ≤ b.beg) (BlobLike.chop k : M Blob Blob) := by
  intro b hb
  obtain ⟨hv, hd, hf, hg⟩ := hb
  have hm : Blob.chop k b = (BlobLike.chop k : M Blob Blob) b := rfl
  rw [← hm]
  by_cases hk : b.size < k
  · unfold Blob.chop; rw [if_pos hk]; exact ⟨hv, hd, hf, hg⟩
  obtain ⟨c, b', e, -, vb, -⟩ := Blob.chop_ok hv (n := k) (by omega)
  have h1 := hv.size_eq
  have h2 := hv.beg_le
  have h3 := hv.stop_lt
  have e' : b' = { b with beg := toSz ((b.beg : Int) + k) } := by
    unfold Blob.chop at e
    rw [if_neg hk] at e
    split at e
    · exact (Prod.mk.inj e).2.symm
    · cases (Prod.mk.inj e).1
    · cases (Prod.mk.inj e).1
  rw [e]
  refine ⟨vb, by rw [e']; exact hd, by rw [e']; exact hf, ?_⟩
  rw [e']
  dsimp only
  unfold toSz
  omega

/-- **C37**, in memory: however the extraction ends, also when it ends the program or is undefined or still running, the blob is about
the same memory and has the same end as before, and its beginning has not gone back. -/
theorem C37_same_end (G : Graph) (n : Nat) (fl : Flags) (i : Id) {b : Blob} (hr : Reachable b) :
    let b' := (extract G n i (fl, b)).2.2
    b'.data = b.data ∧ b'.fin = b.fin ∧ b.beg ≤ b'.beg :=
  (stays_extract (stays_place b.data b.fin b.beg) G n i (fl, b) ⟨hr.valid, rfl, rfl, le_refl _⟩).2

/-- Three bytes of a buffer of five, and a stamp that wants two and then two more: it throws, and one byte is left. -/
example : let b : Blob := ⟨.at [1, 2, 3, 4, 5] 1, 1, 3⟩
    (extract (fun i => some (if i = 0 then .seq [1, 1] List.flatten false else .arith .u16)) 2 0 (Flags.init, b)).1 = .outOfData ∧
    (extract (fun i => some (if i = 0 then .seq [1, 1] List.flatten false else .arith .u16)) 2 0 (Flags.init, b)).2.2
      = ⟨.at [1, 2, 3, 4, 5] 1, 3, 3⟩ := by decide +kernel

theorem jsonGraph_wellBuilt : WellBuilt jsonGraph where
  dict := by
    intro i ws hG
    rcases i with _ | _ | _ | _ | _ | _ | _ | _ | i <;> cases hG
  lottery := by
    intro i r l w a b hG
    rcases i with _ | _ | _ | _ | _ | _ | _ | _ | i <;> cases hG
  picker := by
    intro i l hG
    rcases i with _ | _ | _ | _ | _ | _ | _ | _ | i <;> cases hG
    decide
  user := by
    intro i u hG
    rcases i with _ | _ | _ | _ | _ | _ | _ | _ | i <;> cases hG

/-- A stamp that takes 1 byte out of 5, and one that needs 8 and takes nothing. -/
example : (extract jsonGraph 3 7 (Flags.init, ([7, 1, 2, 3, 4] : ABlob))).2.2 = [1, 2, 3, 4] ∧
    (extract jsonGraph 3 1 (Flags.init, ([7, 1, 2, 3, 4] : ABlob))).1 = .outOfData ∧
    (extract jsonGraph 3 1 (Flags.init, ([7, 1, 2, 3, 4] : ABlob))).2.2 = [7, 1, 2, 3, 4] := by decide +kernel

/-! ## C38: only the remaining bytes matter -/

/-- **C38.** Two blobs holding the same bytes, whatever buffers they sit in and however they were cut,
give the same outcome, the same flags and the same remaining bytes. -/
theorem C38_bytes_decide {G : Graph} {fl fl' : Flags} {i : Id} {b1 b2 b1' : Blob} {bs : Bytes} {o : Out Bytes}
    (hr1 : Reachable b1) (hr2 : Reachable b2) (h1 : Holds b1 bs) (h2 : Holds b2 bs) (ho : o ≠ .fuel)
    (h : Extracts G fl i b1 o fl' b1') :
    ∃ b2', Extracts G fl i b2 o fl' b2' ∧ ∀ rest, Holds b1' rest ↔ Holds b2' rest := by
  obtain ⟨hv, he⟩ := Extracts.abs hr1.valid h
  rw [holds_iff hr1.valid] at h1
  rw [holds_iff hr2.valid] at h2
  rw [h1, ← h2] at he
  obtain ⟨b2', h3, h4, h5⟩ := Extracts.conc hr2.valid ho he
  refine ⟨b2', h3, fun rest => ?_⟩
  rw [holds_iff hv, holds_iff h4, h5]

/-- **C38 (no end).** Nor does it matter to whether the call ends. -/
theorem C38_divergence {G : Graph} {fl : Flags} {i : Id} {b1 b2 : Blob} {bs : Bytes}
    (hr1 : Reachable b1) (hr2 : Reachable b2) (h1 : Holds b1 bs) (h2 : Holds b2 bs)
    (h : Diverges G fl i b1) : Diverges G fl i b2 := by
  intro n
  rw [holds_iff hr1.valid] at h1
  rw [holds_iff hr2.valid] at h2
  rw [(extract_refines G n i fl hr2.valid).1, h2, ← h1, ← (extract_refines G n i fl hr1.valid).1]
  exact h n

/-- The same bytes at offset 1 of another buffer. -/
example : (extract jsonGraph 9 0 (Flags.init, Blob.mk' (.at [0, 0, 1, 2, 3, 4, 5, 6, 7, 8] 0) 10)).1 =
    (extract jsonGraph 9 0 (Flags.init, Blob.mk' (.at [99, 0, 0, 1, 2, 3, 4, 5, 6, 7, 8, 99] 1) 10)).1 ∧
    (extract jsonGraph 9 0 (Flags.init, Blob.mk' (.at [0, 0, 1, 2, 3, 4, 5, 6, 7, 8] 0) 10)).1 ≠ .outOfData := by
  decide +kernel

end BS
