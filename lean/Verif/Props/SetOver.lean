import Verif.Props.GalleySet
import Verif.Props.Copy

/-!
# C25: exactly when too few bytes make the set galley throw
-/

namespace BS
open BlobLike

theorem ckInt_over {i : Int} (h : INT_MAX < i) : ckInt i = .ub .intOverflow := by
  unfold ckInt
  rw [if_neg]
  intro hf
  have := (fitsInt_iff.1 hf).2
  omega

/-- A total beyond `INT_MAX` stops the first loop. -/
theorem setTotals_over {ss : List SizePair} (h : ∀ s ∈ ss, s.Ok) (t : SetTotals) (h1 : 0 ≤ t.fixed) (h1' : t.fixed ≤ INT_MAX)
    (h3 : 0 ≤ t.maxVar) (h3' : t.maxVar ≤ INT_MAX)
    (h4 : INT_MAX < t.fixed + minSum ss ∨ INT_MAX < t.maxVar + dSum ss) :
    setTotals ss t = .ub .intOverflow := by
  induction ss generalizing t with
  | nil => simp [minSum, dSum] at h4; omega
  | cons s ss ih =>
    have hss : ∀ x ∈ ss, x.Ok := fun x hx => h x (by simp [hx])
    have hm : minSum (s :: ss) = s.1 + minSum ss := by simp [minSum]
    rw [hm] at h4
    unfold setTotals
    obtain ⟨hs1, hs2, hs3⟩ := h s (by simp)
    by_cases hb : t.fixed + s.1 ≤ INT_MAX
    swap
    · rw [ckInt_over (by omega)]; rfl
    rw [ckInt_ok (by omega) (by omega)]
    simp only [Out.bind_ok']
    rcases (h s (by simp)).cases with ⟨e1, e2, e3, _⟩ | ⟨e1, e2, e3, _⟩ | ⟨e1, e2, e3, h5, h6⟩
    · have hd : dSum (s :: ss) = dSum ss := by simp [dSum, e3]
      rw [hd] at h4
      rw [e3, e2, if_neg (by simp), if_neg (by simp)]
      exact ih hss _ (by dsimp only; omega) hb h3 h3' (by dsimp only; omega)
    · have hd : dSum (s :: ss) = dSum ss := by simp [dSum, e3]
      rw [hd] at h4
      rw [e3, e2, if_neg (by simp), if_pos rfl]
      exact ih hss _ (by dsimp only; omega) hb h3 h3' (by dsimp only; omega)
    · have hd : dSum (s :: ss) = s.2 - s.1 + dSum ss := by simp [dSum, e3]
      rw [hd] at h4
      rw [e3, if_pos rfl, ckInt_ok (by omega) (by omega)]
      simp only [Out.bind_ok']
      by_cases hv : t.maxVar + (s.2 - s.1) ≤ INT_MAX
      swap
      · rw [ckInt_over (by omega)]; rfl
      rw [ckInt_ok (by omega) (by omega)]
      simp only [Out.bind_ok']
      exact ih hss _ (by dsimp only; omega) hb (by dsimp only; omega) hv (by dsimp only; omega)

theorem setFixed_wrap {m d : Int} {u v : Nat} :
    setFixed ⟨m, d, u, v⟩ =
      wrap32 (m + 2 * v + (if 1 < u then 2 * (u : Int) else 0) + (if 0 < v ∧ 0 < u then 2 else 0)) := by
  unfold setFixed wrap32
  dsimp only
  by_cases h1 : 1 < u <;> by_cases h2 : 0 < v ∧ 0 < u <;>
    simp only [h1, h2, if_true, if_false, and_self] <;> omega

theorem setSplit_under {ss : List SizePair} {bs : Bytes} (hok : ∀ s ∈ ss, s.Ok) (hm : minSum ss ≤ INT_MAX)
    (hd : dSum ss ≤ INT_MAX) (hn : setNeed ss < 4294967296) (hlt : (bs.length : Int) < setNeed ss) :
    setSplit ss (bs : ABlob) = (.outOfData, bs) := by
  have m0 := minSum_nonneg hok
  have d0 := dSum_nonneg hok
  have htot := setTotals_ok hok ⟨0, 0, 0, 0⟩ (le_refl _) (by dsimp only; omega) (le_refl _)
    (by dsimp only; omega)
  simp only [zero_add] at htot
  have hfix : setFixed ⟨minSum ss, dSum ss, ss.countP SizePair.unb, ss.countP SizePair.var⟩ = wrap32 (setNeed ss) :=
    setFixed_wrap
  have u1 : (M.lift (setTotals ss ⟨0, 0, 0, 0⟩) : M ABlob SetTotals) bs
      = (.ok ⟨minSum ss, dSum ss, ss.countP SizePair.unb, ss.countP SizePair.var⟩, bs) := by rw [htot]; rfl
  unfold setSplit
  rw [M.bind_ok u1]
  dsimp only
  rw [hfix, M.bind_ok (M.get_apply _), size_abs, if_pos]
  · rfl
  · unfold wrap32 toSz
    omega

theorem setSplit_over {ss : List SizePair} {bs : Bytes} (hok : ∀ s ∈ ss, s.Ok)
    (h : INT_MAX < minSum ss ∨ INT_MAX < dSum ss) : setSplit ss (bs : ABlob) = (.ub .intOverflow, bs) := by
  have u1 : (M.lift (setTotals ss ⟨0, 0, 0, 0⟩) : M ABlob SetTotals) bs = (.ub .intOverflow, bs) := by
    rw [setTotals_over hok ⟨0, 0, 0, 0⟩ (le_refl _) (by decide) (le_refl _) (by decide) (by simpa using h)]; rfl
  unfold setSplit
  rw [M.bind_ub u1]

/-- **C25**, exactly: over stamps of sensible sizes that need fewer than 2^32 bytes together, a set galley with too few bytes
throws and leaves the blob as it was if the minima and the widths of the stamps add up to `int`s; otherwise the sums
overflow, whatever the blob. Where `minSize()` itself no longer is an `int`, the galley still throws. -/
theorem C25_exact {ss : List SizePair} {b : Blob} {bs : Bytes} (hr : Reachable b) (hh : Holds b bs)
    (hs : ∀ s ∈ ss, 0 ≤ s.1 ∧ s.1 ≤ INT_MAX ∧ (s.2 = -1 ∨ (s.1 ≤ s.2 ∧ s.2 ≤ INT_MAX))) :
    ((ss.map Prod.fst).sum ≤ INT_MAX ∧ (ss.map slack).sum ≤ INT_MAX →
      setNeeds ss < 4294967296 → (bs.length : Int) < setNeeds ss → SetThrows ss b bs) ∧
    (¬ ((ss.map Prod.fst).sum ≤ INT_MAX ∧ (ss.map slack).sum ≤ INT_MAX) → SetUndefined ss b) := by
  have hok : ∀ s ∈ ss, s.Ok := hs
  rw [slack_sum hok, setNeeds_eq]
  refine ⟨fun ⟨h1, h2⟩ hn hlt => SetThrows.intro hr.valid hh (setSplit_under hok h1 h2 hn hlt), fun h => ?_⟩
  refine SetUndefined.intro hr.valid hh (setSplit_over hok ?_)
  have e : minSum ss = (ss.map Prod.fst).sum := rfl
  omega

/-- Two stamps of 2147483647 and 0 to 1 bytes: `minSize()` no longer is an `int`, and an empty blob makes the galley throw. -/
example : ∃ b, Reachable b ∧ Holds b [] ∧ SetThrows [(2147483647, 2147483647), (0, 1)] b [] := by
  obtain ⟨b, hr, hh⟩ := exists_blob (bs := []) (by decide)
  exact ⟨b, hr, hh, (C25_exact hr hh (by decide)).1 (by decide) (by decide) (by decide)⟩

/-- Two stamps of 0 to 2147483647 bytes: their widths overflow. -/
example : ∃ b, Reachable b ∧ Holds b [] ∧ SetUndefined [(0, 2147483647), (0, 2147483647)] b := by
  obtain ⟨b, hr, hh⟩ := exists_blob (bs := []) (by decide)
  exact ⟨b, hr, hh, (C25_exact hr hh (by decide)).2 (by decide)⟩

end BS
