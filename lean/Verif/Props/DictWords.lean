import Verif.Props.Dict

/-!
# C58: the built-in dictionary
-/

namespace BS

/-- **C58.** The words of `DictLCAlphaSmall` are 254 different non-empty words of lower-case letters. -/
theorem C58_words : lcAlphaSmall.length = 254 ∧ lcAlphaSmall.Nodup ∧
    ∀ w ∈ lcAlphaSmall, w ≠ [] ∧ ∀ c ∈ w, 97 ≤ c.toNat ∧ c.toNat ≤ 122 := by
  refine ⟨by decide +kernel, by decide +kernel, by decide +kernel⟩

theorem scaledIndex_254 : ∀ x : Fin 256, scaledIndex x.val 255 254 = .ok ((min (x.val - 1) 253 : Nat) : Int) := by
  decide +kernel

/-- **C58**, the choice: byte `x` picks word `x - 1`. Only the first and the last word are picked by
two byte values: 0 and 1, 254 and 255. -/
theorem C58_choice {G : Graph} {i : Id} (hG : G i = some (.dict lcAlphaSmall)) (fl : Flags) (x : UInt8)
    {b : Blob} {rest : Bytes} (hr : Reachable b) (hh : Holds b (x :: rest)) :
    ∃ w, lcAlphaSmall[min (x.toNat - 1) 253]? = some w ∧ Returns G fl i b w rest := by
  have hn : lcAlphaSmall.length = 254 := C58_words.1
  have hc : chooseStampSize lcAlphaSmall.length = (1, 255) := by rw [hn]; decide +kernel
  obtain ⟨_, e2⟩ := extractDict_abs lcAlphaSmall (by omega) (by omega) (x :: rest)
  rw [hc] at e2
  obtain ⟨j, hj, e3, e4⟩ := e2 (by simp)
  have hle : leNat (List.take (1, 255).1 (x :: rest)) = x.toNat := by simp [leNat]
  rw [hle, hn] at e3
  have hi := scaledIndex_254 ⟨x.toNat, x.toNat_lt⟩
  have hj' : j = min (x.toNat - 1) 253 := by
    have h5 : (j : Int) = ((min (x.toNat - 1) 253 : Nat) : Int) := Out.ok.inj (e3.symm.trans hi)
    exact Int.ofNat_inj.1 h5
  refine ⟨lcAlphaSmall[j], by rw [← hj']; exact List.getElem?_eq_getElem hj, ?_⟩
  refine Returns.intro hr.valid hh (Extracts.intro (n := 1) ?_ (by simp))
  unfold extract; rw [hG]
  show liftB _ _ = _
  unfold liftB; rw [e4]; rfl

/-- The words stand in alphabetical order. -/
theorem lcAlphaSmall_sorted : lcAlphaSmall.Pairwise fun a b => List.lex a b = true := by decide +kernel

/-- **C58**, the order: a larger byte picks the same word or one that comes later in the alphabet. -/
theorem C58_order {G : Graph} {i : Id} (hG : G i = some (.dict lcAlphaSmall)) (fl : Flags) {x y : UInt8} (hxy : x ≤ y)
    {b b' : Blob} {rest rest' : Bytes} (hr : Reachable b) (hh : Holds b (x :: rest)) (hr' : Reachable b')
    (hh' : Holds b' (y :: rest')) :
    ∃ w w', Returns G fl i b w rest ∧ Returns G fl i b' w' rest' ∧ (w = w' ∨ List.lex w w' = true) := by
  obtain ⟨w, h1, h2⟩ := C58_choice hG fl x hr hh
  obtain ⟨w', h1', h2'⟩ := C58_choice hG fl y hr' hh'
  refine ⟨w, w', h2, h2', ?_⟩
  obtain ⟨hlt, rfl⟩ := List.getElem?_eq_some_iff.1 h1
  obtain ⟨hlt', rfl⟩ := List.getElem?_eq_some_iff.1 h1'
  have hle : x.toNat ≤ y.toNat := hxy
  rcases Nat.lt_or_ge (min (x.toNat - 1) 253) (min (y.toNat - 1) 253) with h | h
  · exact .inr (List.pairwise_iff_getElem.1 lcAlphaSmall_sorted _ _ hlt hlt' h)
  · left
    have e : min (x.toNat - 1) 253 = min (y.toNat - 1) 253 := by omega
    simp only [e]

/-- Byte 3 picks the third word; bytes 254 and 255 both pick the last. -/
example : (extractDict lcAlphaSmall ([3] : ABlob)).1 = .ok (lcAlphaSmall.getD 2 []) ∧
    (extractDict lcAlphaSmall ([254] : ABlob)).1 = (extractDict lcAlphaSmall ([255] : ABlob)).1 := by
  decide +kernel

end BS
