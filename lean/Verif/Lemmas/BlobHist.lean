import Verif.Spec.Blob
import Verif.Lemmas.Blob

/-!
# Lemmas about histories of chop calls
-/

namespace BS

namespace Blob

theorem chop2_ok {b : Blob} {mn mx : Nat} (hn : mn ≤ b.size) :
    chop2 mn mx b = chop (min mx b.size) b := by
  unfold chop2
  rw [if_neg (by omega)]
  split
  · rw [Nat.min_eq_left (by omega)]
  · rw [Nat.min_eq_right (by omega)]

theorem run_cases {b : Blob} (h : b.Valid) (c : ChopCall) :
    c.run b = (.outOfData, b) ∨ ∃ n p b', c.run b = (.ok p, b') ∧ p.Valid ∧ b'.Valid ∧
      p.abs = b.abs.take n ∧ b'.abs = b.abs.drop n := by
  cases c with
  | one n =>
    by_cases hn : n ≤ b.size
    · obtain ⟨p, b', e, h1, h2, h3, h4, _⟩ := chop_ok h hn
      exact Or.inr ⟨n, p, b', e, h1, h2, h3, h4⟩
    · exact Or.inl (chop_fail (by omega))
  | two mn mx =>
    by_cases hn : mn ≤ b.size
    · obtain ⟨p, b', e, h1, h2, h3, h4, _⟩ := chop_ok h (n := min mx b.size) (by omega)
      exact Or.inr ⟨_, p, b', (chop2_ok hn).trans e, h1, h2, h3, h4⟩
    · left
      show chop2 mn mx b = _
      unfold chop2
      rw [if_pos (by omega)]

end Blob

theorem Reachable.valid {b : Blob} (h : Reachable b) : b.Valid := by
  induction h with
  | new h hb => exact (Blob.mk'_valid h hb).1
  | null => exact Blob.mk'_null_valid.1
  | @rest b b' c o _ hr ih =>
    rcases Blob.run_cases ih c with h | ⟨n, p, b'', h, _, h2, _⟩
    · rw [h] at hr; obtain ⟨_, rfl⟩ := Prod.mk.inj hr; exact ih
    · rw [h] at hr; obtain ⟨_, rfl⟩ := Prod.mk.inj hr; exact h2
  | @piece b b' p c _ hr ih =>
    rcases Blob.run_cases ih c with h | ⟨n, p', b'', h, h1, _⟩
    · rw [h] at hr; simp at hr
    · rw [h] at hr
      obtain ⟨h3, _⟩ := Prod.mk.inj hr
      injection h3 with h3; rw [← h3]; exact h1

theorem holds_iff {b : Blob} (h : b.Valid) (bs : Bytes) : Holds b bs ↔ b.abs = bs := by
  unfold Holds; rw [Blob.asVector_eq h]; simp

theorem runHistory_spec (cs : List ChopCall) : ∀ b : Blob, b.Valid →
    ∃ ps r, runHistory cs b = .ok (ps, r) ∧ (∀ p ∈ ps, p.Valid) ∧ r.Valid ∧
      (ps.map Blob.abs).flatten ++ r.abs = b.abs := by
  induction cs with
  | nil => intro b h; exact ⟨[], b, rfl, by simp, h, by simp⟩
  | cons c cs ih =>
    intro b h
    rcases Blob.run_cases h c with e | ⟨n, p, b', e, h1, h2, h3, h4⟩
    · obtain ⟨ps, r, e1, e2, e3, e4⟩ := ih b h
      refine ⟨ps, r, ?_, e2, e3, e4⟩
      unfold runHistory; rw [e]; exact e1
    · obtain ⟨ps, r, e1, e2, e3, e4⟩ := ih b' h2
      refine ⟨p :: ps, r, ?_, ?_, e3, ?_⟩
      · unfold runHistory; rw [e]; simp only [e1]; rfl
      · intro q hq
        rcases List.mem_cons.1 hq with rfl | hq
        · exact h1
        · exact e2 q hq
      · rw [List.map_cons, List.flatten_cons, List.append_assoc, e4, h3, h4, List.take_append_drop]

end BS
