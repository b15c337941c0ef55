import Verif.Lemmas.Total
import Verif.Props.Work
import Verif.Props.Asking
import Verif.Props.Calls
import Verif.Props.Safety

/-!
# C90: all calls of an extraction
-/

namespace BS
open BlobLike

theorem Priced.defined {G : Graph} {fl : Flags} {S : Nat} (h : Priced G fl S) : SizesDefined G fl := by
  refine sizesDefined_of fun j hj => ?_
  obtain ⟨v, _, _, hv, _⟩ := h j hj .min
  obtain ⟨x, _, _, hx, _⟩ := h j hj .max
  exact ⟨v, x, hv, hx⟩

/-- **C90**, for extractions that end: the calls of all kinds are at most `1 + 25·w·S + 10·S` for each call of `ExtractStr`,
and two size queries for each byte. -/
theorem C90_total {G : Graph} {fl : Flags} {S w : Nat} (hp : Priced G fl S) (hw : WithinWidth w G) {i : Id} {bs : Bytes} {c : Nat}
    (hc : Works G fl i bs c)
    (he : ∀ b : Blob, Reachable b → Holds b bs → ∃ o fl' b', o ≠ .fuel ∧ Extracts G fl i b o fl' b') :
    TotalAtMost G fl i bs ((1 + 25 * w * S + 10 * S) * c + 2 * S * bs.length) := by
  intro b hr hh
  obtain ⟨o, fl', b', ho, N, h⟩ := he b hr hh
  refine ⟨N, fun n hn => ?_⟩
  have e := h n hn
  have hk := hc b hr hh n
  rw [holds_iff hr.valid] at hh
  subst hh
  have r := work_refines G n i fl hr.valid
  have hs := C87_same G n i 0 (fl, b)
  rw [e] at hs
  rw [r.2] at hk
  have hne : (extractW G n i (0, (fl, (b.abs : ABlob)))).1 ≠ .fuel := by rw [← r.1, hs.1]; exact ho
  obtain ⟨k', x, h1, h2, h3, h4⟩ := pays_extract hp hp.defined hw n i b.abs 0 0 hne
  have hA := simA_extract G n i (0, (fl, b)) (0, (fl, b.abs)) ⟨rfl, rfl, hr.valid, rfl⟩
  rcases eA : extractA G n i (0, (fl, b)) with ⟨oA, kA, sA⟩
  rw [eA, h1] at hA
  have e1 : oA = (extractW G n i (0, (fl, (b.abs : ABlob)))).1 := hA.1.eq
  have e2 : kA = k' := hA.2.1
  refine ⟨oA, kA, sA, by rw [e1]; exact hne, ?_, rfl⟩
  have hx : x ≤ (2 * S * List.length b.abs : Nat) := by
    by_cases hv : ∃ v, (extractW G n i (0, (fl, (b.abs : ABlob)))).1 = .ok v
    · obtain ⟨v, hv⟩ := hv
      have := (h3 v hv).2.1
      omega
    · exact h4 fun v hv' => hv ⟨v, hv'⟩
  have e3 : stampCost S w = 1 + 25 * w * S + 10 * S := by unfold stampCost; ring
  rw [e3] at h2
  have := Nat.mul_le_mul_left (1 + 25 * w * S + 10 * S) hk
  rw [e2]
  omega

/-- **C90**, for grammars whose recursion goes through pickers and lotteries, without lists over stamps of size 0: proportional
to the data, with explicit factors. -/
theorem C90_weights {G : Graph} {fl : Flags} (he : Ending G fl) {S w : Nat} (hp : Priced G fl S) (hw : WithinWidth w G)
    {P : Id → Nat} {Q : Nat} (hP : ∀ i nd, G i = some nd → 1 + (nd.plainKids.map P).sum ≤ P i)
    (hQ : ∀ i, 1 ≤ P i ∧ P i ≤ Q) (i : Id) (bs : Bytes) :
    TotalAtMost G fl i bs ((1 + 25 * w * S + 10 * S) * (P i + 2 * Q * bs.length) + 2 * S * bs.length) :=
  C90_total hp hw (C87_weights hP hQ fl i bs) fun _ hr _ => C36_ends_partial he i hr

/-- No size query of the grammar makes more than 47 calls. -/
theorem json_priced : Priced jsonGraph Flags.init 47 := by
  have key : ∀ j : Fin 8, ∀ sel, (match (sizeQ jsonGraph 12 sel j Flags.init).1 with | .ok _ => true | _ => false) = true ∧
      (sizeC jsonGraph 12 sel j (Flags.init, 0)).2.2 ≤ 47 := by
    intro j sel
    cases sel <;> revert j <;> decide +kernel
  intro j hj sel
  have hn : jsonGraph j ≠ none := by
    rcases hj with hj | ⟨i, nd, e, hj⟩
    · exact hj
    · exact jsonGraph_grammar.closed i nd e j hj
  have hj : (j : Nat) < 8 := by
    by_contra h
    obtain ⟨k, rfl⟩ : ∃ k : Nat, j = k + 8 := ⟨j - 8, (Nat.sub_add_cancel (Nat.le_of_not_lt h)).symm⟩
    exact hn rfl
  obtain ⟨h1, h2⟩ := key ⟨j, hj⟩ sel
  have : ∃ v, (sizeQ jsonGraph 12 sel j Flags.init).1 = .ok v := by
    dsimp only at h1
    split at h1
    · exact ⟨_, by assumption⟩
    · cases h1
  obtain ⟨v, h1⟩ := this
  exact ⟨v, _, h2, hasSize_eval 12 h1, costs_eval 12 h1 rfl⟩

theorem json_width : WithinWidth 5 jsonGraph := by
  intro i nd hG
  rcases i with _ | _ | _ | _ | _ | _ | _ | _ | i <;> cases hG <;> first | exact trivial | exact le_refl 5

/-- `StampJSON`: at most 6440 calls of all kinds for each byte, and one more time that. -/
theorem C90_json (bs : Bytes) : TotalAtMost jsonGraph Flags.init 0 bs (6440 * (bs.length + 1)) := by
  intro b hr hh
  obtain ⟨N, h⟩ := C90_total json_priced json_width (C87_json bs) (fun _ hr _ => C36_ends_partial jsonGraph_ending 0 hr) b hr hh
  refine ⟨N, fun n hn => ?_⟩
  obtain ⟨o, k, s, ho, hk, e⟩ := h n hn
  exact ⟨o, k, s, ho, by omega, e⟩

/-- The 24 bytes that become `{"a": [0]}`: 510 calls of all kinds, of which eight of `ExtractStr`. -/
example : (extractA jsonGraph 14 0 (0, (Flags.init, (0 :: 128 :: List.replicate 22 0 : ABlob)))).2.1 = 510 ∧
    (extractW jsonGraph 14 0 (0, (Flags.init, (0 :: 128 :: List.replicate 22 0 : ABlob)))).2.1 = 8 := by
  constructor <;> decide +kernel

end BS
