import Verif.Lemmas.Keep

/-!
# Between blobs and their bytes, for single extractions
-/

namespace BS

theorem Gives.intro {G : Graph} {fl : Flags} {i : Id} {p x : Bytes} {n : Nat} {left : ABlob}
    (h : extract G n i (fl, (p : ABlob)) = (.ok x, (fl, left))) : Gives G fl i p x :=
  ⟨left, fun _ hr hh => Returns.intro hr.valid hh (Extracts.intro h (by simp))⟩

/-- What is left of a reachable blob after an extraction, as bytes. -/
theorem Returns.inv {G : Graph} {fl : Flags} {i : Id} {b : Blob} {bs s left : Bytes}
    (hr : Reachable b) (hh : Holds b bs) (h : Returns G fl i b s left) :
    ∃ n, ∀ m ≥ n, extract G m i (fl, (bs : ABlob)) = (.ok s, (fl, (left : ABlob))) := by
  obtain ⟨b', h1, h2⟩ := h
  obtain ⟨hv, N, h3⟩ := Extracts.abs hr.valid h1
  rw [holds_iff hr.valid] at hh
  rw [holds_iff hv] at h2
  subst hh; subst h2
  exact ⟨N, h3⟩

/-- Evaluating an extraction: outcome and rest decide, the flags are as before. -/
theorem extract_eval {G : Graph} {fl : Flags} {i : Id} {n : Nat} {a left : ABlob} {s : Bytes}
    (h1 : (extract G n i (fl, a)).1 = .ok s) (h2 : (extract G n i (fl, a)).2.2 = left) :
    extract G n i (fl, a) = (.ok s, (fl, left)) :=
  Prod.ext h1 (Prod.ext (keeps_extract G n i (fl, a) (Or.inl ⟨s, h1⟩)) h2)

theorem Throws.inv {G : Graph} {fl : Flags} {i : Id} {b : Blob} {bs left : Bytes}
    (hr : Reachable b) (hh : Holds b bs) (h : Throws G fl i b left) :
    ∃ n, ∀ m ≥ n, extract G m i (fl, (bs : ABlob)) = (.outOfData, (fl, (left : ABlob))) := by
  obtain ⟨b', h1, h2⟩ := h
  obtain ⟨hv, N, h3⟩ := Extracts.abs hr.valid h1
  rw [holds_iff hr.valid] at hh
  rw [holds_iff hv] at h2
  subst hh; subst h2
  exact ⟨N, h3⟩

theorem Delegates.intro {G : Graph} {fl : Flags} {i j : Id} {bs rest : Bytes} {N : Nat}
    (h : ∀ n ≥ N, extract G (n + 1) i (fl, (bs : ABlob)) = extract G n j (fl, (rest : ABlob))) :
    Delegates G fl i bs j rest := by
  intro b b1 hr hh hr1 hh1
  refine ⟨fun s left => ⟨fun k => ?_, fun k => ?_⟩, fun left => ⟨fun k => ?_, fun k => ?_⟩⟩
  · obtain ⟨n, hn⟩ := Returns.inv hr hh k
    refine Returns.intro hr1.valid hh1 (Extracts.intro (n := max n N) ?_ (by simp))
    rw [← h _ (by omega)]; exact hn _ (by omega)
  · obtain ⟨n, hn⟩ := Returns.inv hr1 hh1 k
    refine Returns.intro hr.valid hh (Extracts.intro (n := max n N + 1) ?_ (by simp))
    rw [h _ (by omega)]; exact hn _ (by omega)
  · obtain ⟨n, hn⟩ := Throws.inv hr hh k
    refine Throws.intro hr1.valid hh1 (Extracts.intro (n := max n N) ?_ (by simp))
    rw [← h _ (by omega)]; exact hn _ (by omega)
  · obtain ⟨n, hn⟩ := Throws.inv hr1 hh1 k
    refine Throws.intro hr.valid hh (Extracts.intro (n := max n N + 1) ?_ (by simp))
    rw [h _ (by omega)]; exact hn _ (by omega)

/-- One budget for finitely many. -/
theorem exists_common {α : Type} {P : Nat → α → Prop} (l : List α)
    (h : ∀ a ∈ l, ∃ N, ∀ n ≥ N, P n a) : ∃ N, ∀ n ≥ N, ∀ a ∈ l, P n a := by
  induction l with
  | nil => exact ⟨0, fun n _ a ha => absurd ha (by simp)⟩
  | cons x l ih =>
    obtain ⟨N1, h1⟩ := h x (by simp)
    obtain ⟨N2, h2⟩ := ih fun a ha => h a (List.mem_cons_of_mem _ ha)
    refine ⟨max N1 N2, fun n hn a ha => ?_⟩
    rcases List.mem_cons.1 ha with rfl | ha
    · exact h1 n (by omega)
    · exact h2 n (by omega) a ha

end BS
