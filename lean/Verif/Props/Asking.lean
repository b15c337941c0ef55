import Verif.Lemmas.Asking
import Verif.Props.Recursion

/-!
# C89: asking for a size again changes nothing
-/

namespace BS

/-- The sizes of all stamps that take part are told. -/
theorem sizesDefined_of {G : Graph} {fl : Flags}
    (h : ∀ j, (G j ≠ none ∨ ∃ i, Edge G i j) → ∃ v x, HasMin G fl j v ∧ HasMax G fl j x) : SizesDefined G fl := by
  intro j hj sel n r hu
  obtain ⟨v, x, hv, hx⟩ := h j hj
  have : ∃ N w fl', ∀ m ≥ N, sizeQ G m sel j fl = (.ok w, fl') := by
    cases sel
    · obtain ⟨N, h⟩ := hv; exact ⟨N, _, _, h⟩
    · obtain ⟨N, h⟩ := hx; exact ⟨N, _, _, h⟩
  obtain ⟨N, w, fl', h⟩ := this
  have e := sizeQ_stable (le_max_left n N) (by rw [hu]; simp : (sizeQ G n sel j fl).1 ≠ .fuel)
  rw [h _ (le_max_right n N)] at e
  rw [← e] at hu
  cases hu

/-- **C89**, the part that holds: an extraction that asks for sizes wherever the code does ends as one that asks each
stamp once: the same text or exception, flags and rest of the blob. Missing: where an extraction of the second kind is
undefined, the sizes of all stamps have to be defined (`C89_violated`). -/
theorem C89_asking_partial {β : Type} [BlobLike β] {G : Graph} {fl fl' : Flags} {i : Id} {b b' : β} {o : Out Bytes}
    (h : Extracts G fl i b o fl' b') (hf : o ≠ .fuel) (hu : ∀ u, o = .ub u → SizesDefined G fl) :
    ExtractsAsking G fl i b o fl' b' := by
  obtain ⟨N, h⟩ := h
  refine ⟨N, fun n hn => ?_⟩
  have e := h n hn
  obtain ⟨⟨k, hk⟩, _⟩ := echoes_extract G n i (fl := fl) b 0 (by rw [e]; exact hf) (by rw [e]; exact hu)
  rw [e] at hk
  exact ⟨k, hk⟩

/-- Both ways, for an extraction that ends. -/
theorem C89_same_partial {β : Type} [BlobLike β] {G : Graph} {fl fl' fl'' : Flags} {i : Id} {b b' b'' : β} {o o' : Out Bytes}
    (h : Extracts G fl i b o fl' b') (hf : o ≠ .fuel) (hu : ∀ u, o = .ub u → SizesDefined G fl)
    (h' : ExtractsAsking G fl i b o' fl'' b'') : o' = o ∧ fl'' = fl' ∧ b'' = b' := by
  obtain ⟨N, h1⟩ := C89_asking_partial h hf hu
  obtain ⟨N', h2⟩ := h'
  obtain ⟨k, e⟩ := h1 (max N N') (le_max_left _ _)
  obtain ⟨k', e'⟩ := h2 (max N N') (le_max_right _ _)
  rw [e] at e'
  cases e'
  exact ⟨rfl, rfl, rfl⟩

/-- Grammars of pickers: nothing more is asked for, any outcome is the same. -/
theorem C89_grammar {β : Type} [BlobLike β] {G : Graph} (hg : PickerGrammar G) {fl fl' : Flags} {i : Id} {b b' : β}
    {o : Out Bytes} (h : Extracts G fl i b o fl' b') (hf : o ≠ .fuel) : ExtractsAsking G fl i b o fl' b' := by
  refine C89_asking_partial h hf fun _ _ => sizesDefined_of fun j hj => ?_
  have : G j ≠ none := by
    rcases hj with hj | ⟨i, nd, e, hj⟩
    · exact hj
    · exact hg.closed i nd e j hj
  obtain ⟨v, x, hv, hx, _⟩ := hg.sizes fl j this
  exact ⟨v, x, hv, hx⟩

/-- `StampJSON`. -/
theorem C89_json {β : Type} [BlobLike β] {fl fl' : Flags} {i : Id} {b b' : β} {o : Out Bytes}
    (h : Extracts jsonGraph fl i b o fl' b') (hf : o ≠ .fuel) : ExtractsAsking jsonGraph fl i b o fl' b' :=
  C89_grammar jsonGraph_grammar h hf

/-- 24 bytes that become `{"a": [0]}`. -/
example : (extractA jsonGraph 14 0 (0, (Flags.init, (0 :: 128 :: List.replicate 22 0 : ABlob)))).1 =
      .ok (str "{\"a\": [0]}") ∧
    (extractA jsonGraph 14 0 (0, (Flags.init, (0 :: 128 :: List.replicate 22 0 : ABlob)))).2.1 = 510 := by
  constructor <;> decide +kernel

/-- A stamp of a client, of 4 to `INT_MAX` bytes. -/
def hugeStamp : UserStamp := ⟨4, 2147483647, false, fun _ => (.ok [], 0)⟩

/-- A list over a lottery with that one stamp. -/
def hugeGraph : Graph
  | 0 => some (.vec 1 textJoin)
  | 1 => some ((LotState.empty.append 2 (4, 2147483647)).node false)
  | 2 => some (.user hugeStamp)
  | _ => none

/-- **C89** fails where `maxSize()` overflows: asked on an empty blob, the list throws `OutOfData` after one `minSize()`;
with both sizes asked for at the start, the overflow comes first. -/
theorem C89_violated : Extracts hugeGraph Flags.init 0 ([] : ABlob) (.ub .intOverflow) Flags.init [] ∧
    ExtractsAsking hugeGraph Flags.init 0 ([] : ABlob) .outOfData Flags.init [] := by
  constructor
  · refine ⟨2, fun n hn => ?_⟩
    obtain ⟨m, rfl⟩ : ∃ m, n = m + 2 := ⟨n - 2, by omega⟩
    rfl
  · refine ⟨2, fun n hn => ⟨2, ?_⟩⟩
    obtain ⟨m, rfl⟩ : ∃ m, n = m + 2 := ⟨n - 2, by omega⟩
    rfl

end BS
