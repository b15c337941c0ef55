import Verif.Lemmas.Invert
import Verif.Lemmas.Returns
import Verif.Lemmas.Dict
import Verif.Props.Dict
import Verif.Lemmas.Surj

/-!
# C28-C30: lotteries
-/

namespace BS

/-! ## C28 -/

/-- A lottery constructed empty (`none`) or from a list (`some l`), then given further stamps with
`Append`, each stamp with its sizes. -/
def LotState.build (start : Option (List (Id × SizePair))) (apps : List (Id × SizePair)) : LotState :=
  apps.foldl (fun s p => s.append p.1 p.2)
    (match start with | none => LotState.empty | some l => LotState.ofList l)

/-- All stamps a lottery was given. -/
def lotAll (start : Option (List (Id × SizePair))) (apps : List (Id × SizePair)) :
    List (Id × SizePair) := start.getD [] ++ apps

/-- Least of 1, 2, 4 and 8 bytes whose largest number exceeds `n`. -/
def lotWidth (n : Nat) : Nat :=
  if n < 256 ^ 1 - 1 then 1 else if n < 256 ^ 2 - 1 then 2 else if n < 256 ^ 4 - 1 then 4 else 8

theorem initOracleSize_eq (n : Nat) : initOracleSize n = lotWidth n := by
  unfold initOracleSize lotWidth; norm_num

theorem lotWidth_le (n : Nat) : 1 ≤ lotWidth n ∧ lotWidth n ≤ 8 := by
  unfold lotWidth; split
  · omega
  split
  · omega
  split <;> omega

/-- Least minimum so far, `d` when there is none. -/
def minOf (d : Int) (l : List (Id × SizePair)) : Int := l.foldl (fun m p => min m p.2.1) d

/-- Greatest maximum so far, at least `d`. -/
def maxOf (d : Int) (l : List (Id × SizePair)) : Int := l.foldl (fun m p => max m p.2.2) d

theorem minOf_append (d : Int) (l : List (Id × SizePair)) (p : Id × SizePair) :
    minOf d (l ++ [p]) = min (minOf d l) p.2.1 := by
  unfold minOf; rw [List.foldl_append]; rfl

theorem maxOf_append (d : Int) (l : List (Id × SizePair)) (p : Id × SizePair) :
    maxOf d (l ++ [p]) = max (maxOf d l) p.2.2 := by
  unfold maxOf; rw [List.foldl_append]; rfl

theorem minOf_spec (d : Int) (l : List (Id × SizePair)) :
    minOf d l ≤ d ∧ (∀ p ∈ l, minOf d l ≤ p.2.1) ∧ (minOf d l = d ∨ ∃ p ∈ l, minOf d l = p.2.1) := by
  induction l using List.reverseRecOn with
  | nil => simp [minOf]
  | append_singleton l p ih =>
    rw [minOf_append]
    obtain ⟨h1, h2, h3⟩ := ih
    refine ⟨by omega, ?_, ?_⟩
    · intro q hq
      rcases List.mem_append.1 hq with hq | hq
      · have := h2 q hq; omega
      · rw [List.mem_singleton.1 hq]; omega
    · rcases le_total (minOf d l) p.2.1 with h | h
      · rw [min_eq_left h]
        rcases h3 with h3 | ⟨q, hq, h3⟩
        · exact Or.inl h3
        · exact Or.inr ⟨q, List.mem_append_left _ hq, h3⟩
      · rw [min_eq_right h]
        exact Or.inr ⟨p, by simp, rfl⟩

theorem maxOf_spec (d : Int) (l : List (Id × SizePair)) :
    d ≤ maxOf d l ∧ (∀ p ∈ l, p.2.2 ≤ maxOf d l) ∧ (maxOf d l = d ∨ ∃ p ∈ l, maxOf d l = p.2.2) := by
  induction l using List.reverseRecOn with
  | nil => simp [maxOf]
  | append_singleton l p ih =>
    rw [maxOf_append]
    obtain ⟨h1, h2, h3⟩ := ih
    refine ⟨by omega, ?_, ?_⟩
    · intro q hq
      rcases List.mem_append.1 hq with hq | hq
      · have := h2 q hq; omega
      · rw [List.mem_singleton.1 hq]; omega
    · rcases le_total p.2.2 (maxOf d l) with h | h
      · rw [max_eq_left h]
        rcases h3 with h3 | ⟨q, hq, h3⟩
        · exact Or.inl h3
        · exact Or.inr ⟨q, List.mem_append_left _ hq, h3⟩
      · rw [max_eq_right h]
        exact Or.inr ⟨p, by simp, rfl⟩

theorem initStoredMin_eq (l : List (Id × SizePair)) :
    initStoredMin (l.map Prod.snd) = minOf INT_MAX l := by
  unfold initStoredMin minOf
  rw [List.foldl_map]
  congr 1
  funext m p
  rcases lt_or_ge p.2.1 m with h | h
  · rw [if_pos h, min_eq_right h.le]
  · rw [if_neg (by omega), min_eq_left h]

theorem initStoredMax_unb {l : List SizePair} {d : Int} (h : ∃ p ∈ l, p.2 = -1) :
    initStoredMax l d = -1 := by
  induction l generalizing d with
  | nil => obtain ⟨p, hp, _⟩ := h; cases hp
  | cons s l ih =>
    unfold initStoredMax
    by_cases hs : s.2 = -1
    · rw [if_pos hs]
    · rw [if_neg hs]
      apply ih
      obtain ⟨p, hp, e⟩ := h
      rcases List.mem_cons.1 hp with rfl | hp
      · exact absurd e hs
      · exact ⟨p, hp, e⟩

theorem initStoredMax_bdd {l : List (Id × SizePair)} {d : Int} (h : ∀ p ∈ l, p.2.2 ≠ -1) :
    initStoredMax (l.map Prod.snd) d = maxOf d l := by
  induction l generalizing d with
  | nil => rfl
  | cons s l ih =>
    rw [List.map_cons]
    unfold initStoredMax
    rw [if_neg (h s (by simp)), ih fun p hp => h p (List.mem_cons_of_mem _ hp)]
    show _ = maxOf (max d s.2.2) l
    congr 1
    rcases lt_or_ge d s.2.2 with h' | h'
    · rw [if_pos h', max_eq_right h'.le]
    · rw [if_neg (by omega), max_eq_left h']

theorem build_append (start : Option (List (Id × SizePair))) (apps : List (Id × SizePair))
    (p : Id × SizePair) :
    LotState.build start (apps ++ [p]) = (LotState.build start apps).append p.1 p.2 := by
  unfold LotState.build; rw [List.foldl_append]; rfl

theorem lotAll_append (start : Option (List (Id × SizePair))) (apps : List (Id × SizePair))
    (p : Id × SizePair) : lotAll start (apps ++ [p]) = lotAll start apps ++ [p] := by
  unfold lotAll; rw [List.append_assoc]

/-- The stamps of a lottery are all those it was given, and its oracle has the width for them. -/
theorem build_stamps (start : Option (List (Id × SizePair))) (apps : List (Id × SizePair)) :
    (LotState.build start apps).stamps = (lotAll start apps).map Prod.fst ∧
    (LotState.build start apps).oracleSize = lotWidth (lotAll start apps).length := by
  induction apps using List.reverseRecOn with
  | nil =>
    cases start with
    | none => exact ⟨rfl, rfl⟩
    | some l =>
      unfold lotAll LotState.build
      simp only [Option.getD_some, List.append_nil, List.foldl_nil]
      exact ⟨rfl, initOracleSize_eq _⟩
  | append_singleton apps p ih =>
    obtain ⟨h1, h2⟩ := ih
    rw [build_append, lotAll_append, List.map_append]
    constructor
    · show (LotState.build start apps).stamps ++ [p.1] = _
      rw [h1]; rfl
    · show initOracleSize ((LotState.build start apps).stamps ++ [p.1]).length = _
      rw [initOracleSize_eq, h1]; simp

theorem build_storedMin (start : Option (List (Id × SizePair))) (apps : List (Id × SizePair))
    (h : ∀ p ∈ lotAll start apps, 0 ≤ p.2.1 ∧ p.2.1 ≤ INT_MAX) :
    (LotState.build start apps).storedMin =
      if lotAll start apps = [] ∧ start = none then -1 else minOf INT_MAX (lotAll start apps) := by
  induction apps using List.reverseRecOn with
  | nil =>
    cases start with
    | none => rfl
    | some l =>
      rw [if_neg (by simp)]
      show initStoredMin (l.map Prod.snd) = _
      rw [initStoredMin_eq]
      unfold lotAll
      simp
  | append_singleton apps p ih =>
    rw [lotAll_append] at h ⊢
    have hall := fun q hq => h q (List.mem_append_left _ hq)
    have hp := h p (by simp)
    have ih := ih hall
    rw [build_append, if_neg (by simp), minOf_append]
    have hm := minOf_spec INT_MAX (lotAll start apps)
    have hm0 : 0 ≤ minOf INT_MAX (lotAll start apps) := by
      rcases hm.2.2 with e | ⟨q, hq, e⟩
      · omega
      · have := hall q hq; omega
    show (if p.2.1 < (if (LotState.build start apps).storedMin = -1 then p.2.1
      else (LotState.build start apps).storedMin) then p.2.1 else
        (if (LotState.build start apps).storedMin = -1 then p.2.1
      else (LotState.build start apps).storedMin)) = _
    by_cases hc : lotAll start apps = [] ∧ start = none
    · rw [if_pos hc] at ih
      rw [ih, if_pos rfl, if_neg (by omega), hc.1]
      show p.2.1 = min INT_MAX p.2.1
      omega
    · rw [if_neg hc] at ih
      rw [ih, if_neg (show ¬ minOf INT_MAX (lotAll start apps) = -1 by omega)]
      rcases lt_or_ge p.2.1 (minOf INT_MAX (lotAll start apps)) with h' | h'
      · rw [if_pos h', min_eq_right h'.le]
      · rw [if_neg (by omega), min_eq_left h']

/-- **C28** (minimum). After any construction and any appends, `minSize()` is the least of the
stamps' minima plus the width of the oracle. -/
theorem C28_min {G : Graph} {i : Id} {rec4 : Bool} {start : Option (List (Id × SizePair))}
    {apps : List (Id × SizePair)} (hG : G i = some ((LotState.build start apps).node rec4))
    (hne : lotAll start apps ≠ []) (h : ∀ p ∈ lotAll start apps, 0 ≤ p.2.1 ∧ p.2.1 ≤ INT_MAX - 8)
    (fl : Flags) :
    ∃ m, IsLeast {v | ∃ p ∈ lotAll start apps, v = p.2.1} m ∧
      HasMin G fl i (m + lotWidth (lotAll start apps).length) := by
  have hs := build_storedMin start apps fun p hp => ⟨(h p hp).1, by have := (h p hp).2; omega⟩
  rw [if_neg fun hc => hne hc.1] at hs
  obtain ⟨h1, h2, h3⟩ := minOf_spec INT_MAX (lotAll start apps)
  have hex : ∃ p ∈ lotAll start apps, minOf INT_MAX (lotAll start apps) = p.2.1 := by
    rcases h3 with e | e
    · obtain ⟨p, hp⟩ := List.exists_mem_of_ne_nil _ hne
      exact ⟨p, hp, by have := h2 p hp; have := h p hp; omega⟩
    · exact e
  refine ⟨minOf INT_MAX (lotAll start apps), ⟨hex, ?_⟩, ?_⟩
  · rintro v ⟨p, hp, rfl⟩; exact h2 p hp
  · obtain ⟨p, hp, e⟩ := hex
    have hb := h p hp
    have hw := lotWidth_le (lotAll start apps).length
    refine SizeRuns.intro (n := 1) ?_
    unfold sizeQ
    rw [hG]
    show (ckInt ((LotState.build start apps).storedMin + (LotState.build start apps).oracleSize), fl) = _
    rw [hs, (build_stamps start apps).2, ckInt_ok (by omega) (by omega)]

theorem build_storedMax_bdd (start : Option (List (Id × SizePair))) (apps : List (Id × SizePair))
    (h : ∀ p ∈ lotAll start apps, 0 ≤ p.2.2) :
    (LotState.build start apps).storedMax =
      if lotAll start apps = [] ∧ start = none then -2 else maxOf 0 (lotAll start apps) := by
  induction apps using List.reverseRecOn with
  | nil =>
    cases start with
    | none => rfl
    | some l =>
      rw [if_neg (by simp)]
      show initStoredMax (l.map Prod.snd) 0 = _
      have e : lotAll (some l) [] = l := by unfold lotAll; simp
      rw [e] at h ⊢
      exact initStoredMax_bdd fun p hp => by have := h p hp; omega
  | append_singleton apps p ih =>
    rw [lotAll_append] at h ⊢
    have hall := fun q hq => h q (List.mem_append_left _ hq)
    have hp := h p (by simp)
    have ih := ih hall
    rw [build_append, if_neg (by simp), maxOf_append]
    have hm := maxOf_spec 0 (lotAll start apps)
    show (if p.2.2 = -1 then -1 else if (LotState.build start apps).storedMax < p.2.2 then p.2.2
      else (LotState.build start apps).storedMax) = _
    rw [if_neg (by omega), ih]
    by_cases hc : lotAll start apps = [] ∧ start = none
    · rw [if_pos hc, if_pos (by omega), hc.1]
      show p.2.2 = max 0 p.2.2
      omega
    · rw [if_neg hc]
      split <;> omega

theorem build_storedMax_unb (start : Option (List (Id × SizePair))) (apps : List (Id × SizePair))
    (h : ∃ p ∈ lotAll start apps, p.2.2 = -1)
    (hist : ∀ l p r, apps = l ++ p :: r → p.2.2 ≠ -1 → ∀ q ∈ lotAll start l, q.2.2 ≠ -1) :
    (LotState.build start apps).storedMax = -1 := by
  induction apps using List.reverseRecOn with
  | nil =>
    cases start with
    | none => obtain ⟨p, hp, _⟩ := h; cases hp
    | some l =>
      show initStoredMax (l.map Prod.snd) 0 = _
      apply initStoredMax_unb
      obtain ⟨p, hp, e⟩ := h
      unfold lotAll at hp
      simp only [Option.getD_some, List.append_nil] at hp
      exact ⟨p.2, List.mem_map_of_mem hp, e⟩
  | append_singleton apps p ih =>
    rw [build_append]
    show (if p.2.2 = -1 then -1 else if (LotState.build start apps).storedMax < p.2.2 then p.2.2
      else (LotState.build start apps).storedMax) = _
    by_cases hp : p.2.2 = -1
    · rw [if_pos hp]
    · exfalso
      obtain ⟨q, hq, e⟩ := h
      rw [lotAll_append] at hq
      rcases List.mem_append.1 hq with hq | hq
      · exact hist apps p [] rfl hp q hq e
      · rw [List.mem_singleton.1 hq] at e; exact hp e

/-- **C28** (maximum), for histories in which no bounded stamp is appended after an unbounded one:
`maxSize()` is -1 if some stamp is unbounded, otherwise the greatest of the stamps' maxima plus the
width of the oracle. -/
theorem C28_max_partial {G : Graph} {i : Id} {rec4 : Bool} {start : Option (List (Id × SizePair))}
    {apps : List (Id × SizePair)} (hG : G i = some ((LotState.build start apps).node rec4))
    (hne : lotAll start apps ≠ [])
    (h : ∀ p ∈ lotAll start apps, p.2.2 = -1 ∨ (0 ≤ p.2.2 ∧ p.2.2 ≤ INT_MAX - 8))
    (hist : ∀ l p r, apps = l ++ p :: r → p.2.2 ≠ -1 → ∀ q ∈ lotAll start l, q.2.2 ≠ -1)
    (fl : Flags) :
    ((∃ p ∈ lotAll start apps, p.2.2 = -1) → HasMax G fl i (-1)) ∧
    ((∀ p ∈ lotAll start apps, p.2.2 ≠ -1) →
      ∃ m, IsGreatest {v | ∃ p ∈ lotAll start apps, v = p.2.2} m ∧
        HasMax G fl i (m + lotWidth (lotAll start apps).length)) := by
  have hq : sizeQ G 1 .max i fl = (if (LotState.build start apps).storedMax = -1 then pure (-1)
      else M.lift (ckInt ((LotState.build start apps).storedMax +
        (LotState.build start apps).oracleSize)) : M Flags Int) fl := by
    unfold sizeQ; rw [hG]; rfl
  refine ⟨fun hu => ?_, fun hb => ?_⟩
  · refine SizeRuns.intro (n := 1) ?_
    rw [hq, build_storedMax_unb start apps hu hist, if_pos rfl]
    rfl
  · have h0 : ∀ p ∈ lotAll start apps, 0 ≤ p.2.2 := fun p hp => by
      have := hb p hp; have := h p hp; omega
    have hs := build_storedMax_bdd start apps h0
    rw [if_neg fun hc => hne hc.1] at hs
    obtain ⟨h1, h2, h3⟩ := maxOf_spec 0 (lotAll start apps)
    have hex : ∃ p ∈ lotAll start apps, maxOf 0 (lotAll start apps) = p.2.2 := by
      rcases h3 with e | e
      · obtain ⟨p, hp⟩ := List.exists_mem_of_ne_nil _ hne
        exact ⟨p, hp, by have := h2 p hp; have := h0 p hp; omega⟩
      · exact e
    refine ⟨maxOf 0 (lotAll start apps), ⟨hex, ?_⟩, ?_⟩
    · rintro v ⟨p, hp, rfl⟩; exact h2 p hp
    · obtain ⟨p, hp, e⟩ := hex
      have hb := h p hp
      have hw := lotWidth_le (lotAll start apps).length
      refine SizeRuns.intro (n := 1) ?_
      rw [hq, hs, if_neg (by omega), (build_stamps start apps).2]
      show (ckInt _, fl) = _
      rw [ckInt_ok (by omega) (by omega)]

theorem build_storedMax_after (start : Option (List (Id × SizePair))) (l r : List (Id × SizePair))
    (hl : (LotState.build start l).storedMax = -1) (hr : ∀ p ∈ r, 0 ≤ p.2.2) :
    (LotState.build start (l ++ r)).storedMax = if r = [] then -1 else maxOf 0 r := by
  induction r using List.reverseRecOn with
  | nil => rw [List.append_nil, if_pos rfl, hl]
  | append_singleton r p ih =>
    have hp := hr p (by simp)
    have ih := ih fun q hq => hr q (List.mem_append_left _ hq)
    rw [← List.append_assoc, build_append, if_neg (by simp), maxOf_append]
    have hm := maxOf_spec 0 r
    show (if p.2.2 = -1 then -1 else if (LotState.build start (l ++ r)).storedMax < p.2.2 then p.2.2
      else (LotState.build start (l ++ r)).storedMax) = _
    rw [if_neg (by omega), ih]
    by_cases hc : r = []
    · rw [if_pos hc, if_pos (by omega), hc]
      show p.2.2 = max 0 p.2.2
      omega
    · rw [if_neg hc]
      split <;> omega

/-- **C28** (maximum, the remaining histories). If the last unbounded stamp was appended last in `l`, or was in the
constructor's list, and then the bounded stamps `r` were appended, all that went before is forgotten: `maxSize()` is the greatest
maximum in `r` plus the width of the oracle, or -1 if `r` is empty. -/
theorem C28_max_after {G : Graph} {i : Id} {rec4 : Bool} {start : Option (List (Id × SizePair))}
    {l r : List (Id × SizePair)} (hG : G i = some ((LotState.build start (l ++ r)).node rec4))
    (hl : (∃ l' p, l = l' ++ [p] ∧ p.2.2 = -1) ∨ (l = [] ∧ ∃ p ∈ start.getD [], p.2.2 = -1))
    (hr : ∀ p ∈ r, 0 ≤ p.2.2 ∧ p.2.2 ≤ INT_MAX - 8) (fl : Flags) :
    (r = [] → HasMax G fl i (-1)) ∧
    (r ≠ [] → ∃ m, IsGreatest {v | ∃ p ∈ r, v = p.2.2} m ∧
      HasMax G fl i (m + lotWidth (lotAll start (l ++ r)).length)) := by
  have hq : sizeQ G 1 .max i fl = (if (LotState.build start (l ++ r)).storedMax = -1 then pure (-1)
      else M.lift (ckInt ((LotState.build start (l ++ r)).storedMax +
        (LotState.build start (l ++ r)).oracleSize)) : M Flags Int) fl := by
    unfold sizeQ; rw [hG]; rfl
  have hu : (LotState.build start l).storedMax = -1 := by
    rcases hl with ⟨l', p, rfl, e⟩ | ⟨rfl, p, hp, e⟩
    · rw [build_append]
      show (if p.2.2 = -1 then -1 else _) = _
      rw [if_pos e]
    · exact build_storedMax_unb start [] ⟨p, by unfold lotAll; simpa using hp, e⟩
        (fun l p r h => by simp at h)
  have hs := build_storedMax_after start l r hu fun p hp => (hr p hp).1
  refine ⟨fun hnil => ?_, fun hne => ?_⟩
  · refine SizeRuns.intro (n := 1) ?_
    rw [hq, hs, if_pos hnil, if_pos rfl]
    rfl
  · rw [if_neg hne] at hs
    obtain ⟨h1, h2, h3⟩ := maxOf_spec 0 r
    have hex : ∃ p ∈ r, maxOf 0 r = p.2.2 := by
      rcases h3 with e | e
      · obtain ⟨p, hp⟩ := List.exists_mem_of_ne_nil _ hne
        exact ⟨p, hp, by have := h2 p hp; have := (hr p hp).1; omega⟩
      · exact e
    refine ⟨maxOf 0 r, ⟨hex, ?_⟩, ?_⟩
    · rintro v ⟨p, hp, rfl⟩; exact h2 p hp
    · obtain ⟨p, hp, e⟩ := hex
      have hb := hr p hp
      have hw := lotWidth_le (lotAll start (l ++ r)).length
      refine SizeRuns.intro (n := 1) ?_
      rw [hq, hs, if_neg (by omega), (build_stamps start (l ++ r)).2]
      show (ckInt _, fl) = _
      rw [ckInt_ok (by omega) (by omega)]

/-- An unbounded stamp, then two of at most 5 and 3 bytes: at most 6 bytes, it is claimed. -/
example (fl : Flags) : HasMax (fun _ => some ((LotState.build none ([(1, (1, -1))] ++ [(2, (1, 5)), (3, (1, 3))])).node true)) fl 0 6 := by
  obtain ⟨m, hm, h⟩ := (C28_max_after (G := fun _ => some ((LotState.build none ([(1, (1, -1))] ++ [(2, (1, 5)), (3, (1, 3))])).node true))
    (i := 0) rfl (.inl ⟨[], (1, (1, -1)), rfl, rfl⟩) (by decide) fl).2 (by decide)
  have e : m = 5 := by
    refine le_antisymm ?_ (hm.2 ⟨(2, (1, 5)), by simp, rfl⟩)
    obtain ⟨p, hp, rfl⟩ := hm.1
    simp at hp
    rcases hp with rfl | rfl <;> decide
  rw [e] at h
  exact h

/-- **C28 is violated** otherwise: an unbounded stamp followed by a bounded one of at most 5 bytes
gives a lottery that claims to take at most 6 bytes. -/
theorem C28_violated_max :
    (LotState.build none [(1, (1, -1)), (2, (1, 5))]).maxSize = .ok 6 := by decide +kernel

/-- **C28 is violated** by the lottery built from an empty list: `minSize()` overflows. The one built
with the default constructor claims to need no data and to be unbounded. -/
theorem C28_violated_empty :
    (LotState.build (some []) []).minSize = .ub .intOverflow ∧
    (LotState.build none []).minSize = .ok 0 ∧ (LotState.build none []).maxSize = .ok (-1) := by
  decide +kernel

/-- **C28**: what a lottery with given members answers as an object among others is what its members say
(stamp_lottery.h 125-137). -/
theorem C28_members {G : Graph} {i : Id} {rec4 : Bool} {s : LotState} (hG : G i = some (s.node rec4)) (fl : Flags)
    (v : Int) : (HasMin G fl i v ↔ s.minSize = .ok v) ∧ (HasMax G fl i v ↔ s.maxSize = .ok v) := by
  have e1 : ∀ n, sizeQ G (n + 1) .min i fl = (s.minSize, fl) := fun n => by unfold sizeQ; rw [hG]; rfl
  have e2 : ∀ n, sizeQ G (n + 1) .max i fl = (s.maxSize, fl) := fun n => by
    unfold sizeQ; rw [hG]
    unfold LotState.node LotState.maxSize
    dsimp only
    split <;> rfl
  constructor
  · constructor
    · rintro ⟨N, h⟩
      have := h (N + 1) (by omega)
      rw [e1] at this
      exact (Prod.mk.inj this).1
    · intro h
      exact ⟨1, fun n hn => by obtain ⟨n, rfl⟩ : ∃ j, n = j + 1 := ⟨n - 1, by omega⟩; rw [e1, h]⟩
  · constructor
    · rintro ⟨N, h⟩
      have := h (N + 1) (by omega)
      rw [e2] at this
      exact (Prod.mk.inj this).1
    · intro h
      exact ⟨1, fun n hn => by obtain ⟨n, rfl⟩ : ∃ j, n = j + 1 := ⟨n - 1, by omega⟩; rw [e2, h]⟩

/-- A lottery to which a text stamp and then a byte were appended: 2 bytes at least, and, wrongly, 2 at most. -/
example (fl : Flags) : HasMin (fun _ => some ((LotState.build none [(1, (1, -1)), (2, (1, 1))]).node false)) fl 0 2 ∧
    HasMax (fun _ => some ((LotState.build none [(1, (1, -1)), (2, (1, 1))]).node false)) fl 0 2 :=
  ⟨(C28_members rfl fl _).1.2 (by decide +kernel), (C28_members rfl fl _).2.2 (by decide +kernel)⟩

/-- Two stamps in the constructor, one appended. -/
example : (LotState.build (some [(1, (4, 4)), (2, (2, 8))]) [(3, (3, 3))]).minSize = .ok 3 ∧
    (LotState.build (some [(1, (4, 4)), (2, (2, 8))]) [(3, (3, 3))]).maxSize = .ok 9 := by
  decide +kernel

/-! ## C29, C30 -/

/-- Sizes of the stamps of a lottery, called with flags `fl`: plain `int`s. -/
structure LotSizes (G : Graph) (fl : Flags) (stamps : List Id) (m mx : Id → Int) : Prop where
  min : ∀ j ∈ stamps, HasMin G fl j (m j) ∧ 0 ≤ m j ∧ m j ≤ INT_MAX
  max : ∀ j ∈ stamps, HasMax G fl j (mx j) ∧ (mx j = -1 ∨ (0 ≤ mx j ∧ m j + mx j ≤ INT_MAX))

/-- The stamps that may win with `L` bytes left: those whose minimum fits; for
`StampLottery4Recursion` those of them that are unbounded or for which less than minimum plus maximum
is left, unless there are none. -/
def lotCandidates (rec4 : Bool) (m mx : Id → Int) (L : Nat) (stamps : List Id) : List Id :=
  let fit := stamps.filter fun j => m j ≤ L
  let soft := fit.filter fun j => mx j = -1 ∨ (L : Int) < m j + mx j
  if rec4 ∧ soft ≠ [] then soft else fit

theorem lotFilter_run {rec4 : Bool} {qmin qmax : Id → M Flags Int} {fl : Flags} {m mx : Id → Int}
    {l : List Id} (hmin : ∀ j ∈ l, qmin j fl = (.ok (m j), fl) ∧ 0 ≤ m j ∧ m j ≤ INT_MAX)
    (hmax : ∀ j ∈ l, qmax j fl = (.ok (mx j), fl) ∧ (mx j = -1 ∨ (0 ≤ mx j ∧ m j + mx j ≤ INT_MAX)))
    {a : ABlob} (ha : rec4 = true → a.length < W31) :
    lotFilter rec4 qmin qmax l (fl, a) = (.ok ((l.filter fun j => m j ≤ a.length).filter fun j =>
      rec4 = false ∨ mx j = -1 ∨ (a.length : Int) < m j + mx j), (fl, a)) := by
  induction l with
  | nil => rfl
  | cons i l ih =>
    have ih := ih (fun j hj => hmin j (List.mem_cons_of_mem _ hj))
      (fun j hj => hmax j (List.mem_cons_of_mem _ hj))
    obtain ⟨h1, h2, h3⟩ := hmin i (by simp)
    obtain ⟨h4, h5⟩ := hmax i (by simp)
    unfold lotFilter
    have e1 : (liftF (qmin i) : XM ABlob Int) (fl, a) = (.ok (m i), (fl, a)) := by
      unfold liftF; rw [h1]
    have e2 : (curSize : XM ABlob Nat) (fl, a) = (.ok a.length, (fl, a)) := rfl
    rw [M.bind_ok e1, M.bind_ok e2]
    rw [toSz_of_nonneg h2 (by omega)]
    by_cases hc : m i ≤ a.length
    · rw [if_neg (by omega), List.filter_cons_of_pos (by simpa using hc)]
      have e3 : (liftF (softFilter rec4 qmin qmax i (wrap32 a.length)) : XM ABlob Bool) (fl, a) =
          (.ok (decide (rec4 = false ∨ mx i = -1 ∨ (a.length : Int) < m i + mx i)), (fl, a)) := by
        unfold liftF softFilter
        cases rec4 with
        | false => simp
        | true =>
          rw [wrap32_of_fits (by omega) (by have := ha rfl; omega)]
          rw [if_neg (by simp), M.bind_ok h4]
          by_cases hx : mx i = -1 ∨ (a.length : Int) < mx i
          · rw [if_pos hx]
            have : decide (true = false ∨ mx i = -1 ∨ (a.length : Int) < m i + mx i) = true := by
              rw [decide_eq_true_iff]; right; omega
            rw [this]; rfl
          · rw [if_neg hx, M.bind_ok h1]
            have e : (M.lift (ckInt (m i + mx i)) : M Flags Int) fl = (.ok (m i + mx i), fl) := by
              show (ckInt _, fl) = _
              rw [ckInt_ok (by omega) (by omega)]
            rw [M.bind_ok e]
            have : decide (true = false ∨ mx i = -1 ∨ (a.length : Int) < m i + mx i)
                = decide ((a.length : Int) < m i + mx i) := by
              rw [decide_eq_decide]; constructor
              · rintro (h | h | h)
                · cases h
                · exact absurd (Or.inl h) hx
                · exact h
              · intro h; exact Or.inr (Or.inr h)
            rw [this]; rfl
      rw [M.bind_ok e3, M.bind_ok ih]
      show (Out.ok _, _) = _
      congr 2
      rw [List.filter_cons]
    · rw [if_pos (by omega), ih, List.filter_cons_of_neg (by simpa using hc)]

theorem lotCandidates_mem {rec4 : Bool} {m mx : Id → Int} {L : Nat} {stamps : List Id} {j : Id}
    (h : j ∈ lotCandidates rec4 m mx L stamps) : j ∈ stamps ∧ m j ≤ L := by
  unfold lotCandidates at h
  dsimp only at h
  split at h
  · have := List.mem_of_mem_filter h
    rw [List.mem_filter] at this
    simpa using this
  · rw [List.mem_filter] at h
    simpa using h

theorem lotCandidates_ne {rec4 : Bool} {m mx : Id → Int} {L : Nat} {stamps : List Id} {j : Id}
    (hj : j ∈ stamps) (h : m j ≤ L) : lotCandidates rec4 m mx L stamps ≠ [] := by
  unfold lotCandidates
  dsimp only
  split
  · next h => exact h.2
  · intro e
    have : j ∈ stamps.filter fun j => m j ≤ L := by rw [List.mem_filter]; simpa using ⟨hj, h⟩
    rw [e] at this
    cases this

theorem lotCandidates_length (rec4 : Bool) (m mx : Id → Int) (L : Nat) (stamps : List Id) :
    (lotCandidates rec4 m mx L stamps).length ≤ stamps.length := by
  unfold lotCandidates
  dsimp only
  split
  · exact le_trans (List.length_filter_le _ _) (List.length_filter_le _ _)
  · exact List.length_filter_le _ _

theorem uOracleTy_width {w : Nat} (h : w = 1 ∨ w = 2 ∨ w = 4 ∨ w = 8) : ∃ ty, uOracleTy w = some ty := by
  rcases h with rfl | rfl | rfl | rfl <;> exact ⟨_, rfl⟩

theorem uMax_bounds {w : Nat} (h : w = 1 ∨ w = 2 ∨ w = 4 ∨ w = 8) : 1 ≤ uMax w ∧ uMax w < W64 := by
  unfold uMax
  rcases h with rfl | rfl | rfl | rfl <;> norm_num

/-- A lottery with enough data hands what follows its oracle to the candidate its index selects. -/
theorem lottery_core {G : Graph} {i : Id} {rec4 : Bool} {stamps : List Id} {w : Nat} {smin smax : Int}
    (hG : G i = some (.lottery rec4 stamps w smin smax)) (hw : w = 1 ∨ w = 2 ∨ w = 4 ∨ w = 8)
    {fl : Flags} {m mx : Id → Int} (hs : LotSizes G fl stamps m mx) {bs : Bytes} (hl : w ≤ bs.length)
    (hrec : rec4 = true → bs.length < W31)
    {k : Nat} (hk : k < (lotCandidates rec4 m mx (bs.length - w) stamps).length)
    (hidx : scaledIndex (leNat (bs.take w)) (uMax w)
      (lotCandidates rec4 m mx (bs.length - w) stamps).length = .ok (k : Int))
    (hlen : stamps.length ≤ 2 ^ 53) :
    Delegates G fl i bs (lotCandidates rec4 m mx (bs.length - w) stamps)[k] (bs.drop w) := by
  obtain ⟨N1, h1⟩ := exists_common stamps fun j hj => (hs.min j hj).1
  obtain ⟨N2, h2⟩ := exists_common stamps fun j hj => (hs.max j hj).1
  refine Delegates.intro (N := max N1 N2) fun n hn => ?_
  have hmin : ∀ j ∈ stamps, sizeQ G n .min j fl = (.ok (m j), fl) ∧ 0 ≤ m j ∧ m j ≤ INT_MAX :=
    fun j hj => ⟨h1 n (by omega) j hj, (hs.min j hj).2⟩
  have hmax : ∀ j ∈ stamps, sizeQ G n .max j fl = (.ok (mx j), fl) ∧
      (mx j = -1 ∨ (0 ≤ mx j ∧ m j + mx j ≤ INT_MAX)) :=
    fun j hj => ⟨h2 n (by omega) j hj, (hs.max j hj).2⟩
  obtain ⟨ty, hty⟩ := uOracleTy_width hw
  have hlr : (bs.drop w).length = bs.length - w := List.length_drop
  conv_lhs => unfold extract
  rw [hG]
  dsimp only
  have e1 : liftB (uOracle w) (fl, (bs : ABlob)) = (.ok (leNat (bs.take w)), (fl, bs.drop w)) := by
    unfold liftB
    dsimp only
    rw [uOracle_abs hty bs, if_neg (by omega)]
  rw [M.bind_ok e1]
  have e2 := fun r hr => lotFilter_run (rec4 := r) hmin hmax (a := bs.drop w) hr
  rw [hlr] at e2
  have e3 := e2 rec4 (fun h => by have := hrec h; omega)
  rw [M.bind_ok e3]
  have e4 : (if ((stamps.filter fun j => m j ≤ (bs.length - w : Nat)).filter fun j =>
      rec4 = false ∨ mx j = -1 ∨ ((bs.length - w : Nat) : Int) < m j + mx j).isEmpty = true
      then lotFilter false (sizeQ G n .min) (sizeQ G n .max) stamps
      else pure ((stamps.filter fun j => m j ≤ (bs.length - w : Nat)).filter fun j =>
      rec4 = false ∨ mx j = -1 ∨ ((bs.length - w : Nat) : Int) < m j + mx j) : XM ABlob _)
      (fl, bs.drop w) = (.ok (lotCandidates rec4 m mx (bs.length - w) stamps), (fl, bs.drop w)) := by
    unfold lotCandidates
    dsimp only
    cases rec4 with
    | false =>
      rw [if_neg (show ¬ ((false : Bool) = true ∧ _) by simp)]
      split
      · rw [e2 false (by simp)]; simp
      · simp
    | true =>
      simp only [Bool.true_eq_false, false_or, true_and, ne_eq, ite_not]
      split
      · next h =>
        rw [List.isEmpty_iff] at h
        rw [e2 false (by simp), if_pos h]
        simp
      · next h =>
        rw [List.isEmpty_iff] at h
        rw [if_neg h]; rfl
  rw [M.bind_ok e4]
  have hne : ¬ (lotCandidates rec4 m mx (bs.length - w) stamps).isEmpty = true := by
    rw [List.isEmpty_iff]
    intro e
    rw [e] at hk
    exact absurd hk (by simp)
  have hcl := lotCandidates_length rec4 m mx (bs.length - w) stamps
  rw [if_neg hne, M.bind_ok (show (M.lift (scaledIndex _ _ _) : XM ABlob Int) _ = (.ok (k : Int), _) from
    by show (scaledIndex _ _ _, _) = _; rw [hidx])]
  rw [M.bind_ok (show (M.lift (vecGet _ _) : XM ABlob Id) _ = (.ok _, _) from
    by show (vecGet _ _, _) = _; rw [vecGet_nat hk (by omega)])]

/-- **C29.** A lottery whose blob holds at least `minSize()` bytes hands what follows its oracle to
one of its stamps whose own minimum fits, whatever the oracle; so it does not throw itself. (The
stored minimum is at least some stamp's minimum: C28. A list of more than 2^53 pointers does not fit
an address space; `StampLottery4Recursion` keeps the size in an `int`.) -/
theorem C29_lottery_picks_fitting {G : Graph} {i : Id} {rec4 : Bool} {stamps : List Id} {w : Nat}
    {smin smax : Int} (hG : G i = some (.lottery rec4 stamps w smin smax))
    (hw : w = 1 ∨ w = 2 ∨ w = 4 ∨ w = 8) {fl : Flags} {m mx : Id → Int} (hs : LotSizes G fl stamps m mx)
    (hmin : ∃ j ∈ stamps, m j ≤ smin) (hlen : stamps.length ≤ 2 ^ 53) {bs : Bytes}
    (hl : smin + w ≤ bs.length) (hrec : rec4 = true → bs.length < W31) :
    ∃ j ∈ stamps, m j ≤ (bs.length - w : Nat) ∧ Delegates G fl i bs j (bs.drop w) := by
  obtain ⟨j0, hj0, hm0⟩ := hmin
  have h0 := (hs.min j0 hj0).2
  have hne : lotCandidates rec4 m mx (bs.length - w) stamps ≠ [] :=
    lotCandidates_ne hj0 (by omega)
  have hpos := List.length_pos_iff.2 hne
  have hcl := lotCandidates_length rec4 m mx (bs.length - w) stamps
  obtain ⟨u1, u2⟩ := uMax_bounds hw
  have ho : leNat (bs.take w) ≤ uMax w := by
    have := leNat_take_lt bs w
    unfold uMax; omega
  obtain ⟨k, e, hk⟩ := scaledIndex_lt u1 ho u2 hpos (by omega)
  have hmem := lotCandidates_mem (List.getElem_mem hk)
  exact ⟨_, hmem.1, hmem.2, lottery_core hG hw hs (by omega) hrec hk e hlen⟩

/-- **C30.** In a lottery, however it was put together, every candidate wins for some value of the
oracle, which is as wide as the number of stamps asks for. (For fewer than 2^30 stamps.) -/
theorem C30_every_candidate_wins {G : Graph} {i : Id} {rec4 : Bool}
    {start : Option (List (Id × SizePair))} {apps : List (Id × SizePair)}
    (hlen : (lotAll start apps).length < 2 ^ 30)
    (hG : G i = some ((LotState.build start apps).node rec4))
    {fl : Flags} {m mx : Id → Int} (hs : LotSizes G fl ((lotAll start apps).map Prod.fst) m mx) {rest : Bytes}
    (hrec : rec4 = true → rest.length < W31 - 8) {j : Id}
    (hj : j ∈ lotCandidates rec4 m mx rest.length ((lotAll start apps).map Prod.fst)) :
    ∃ p : Bytes, p.length = lotWidth (lotAll start apps).length ∧ Delegates G fl i (p ++ rest) j rest := by
  obtain ⟨hst, how⟩ := build_stamps start apps
  unfold LotState.node at hG
  rw [hst, how] at hG
  set stamps := (lotAll start apps).map Prod.fst with hstamps
  have hsl : stamps.length = (lotAll start apps).length := by rw [hstamps, List.length_map]
  rw [← hsl] at hlen hG ⊢
  set cs := lotCandidates rec4 m mx rest.length stamps with hcs
  have hcl : cs.length ≤ stamps.length := lotCandidates_length rec4 m mx rest.length stamps
  obtain ⟨k, hk, rfl⟩ := List.mem_iff_getElem.1 hj
  have hw : (lotWidth stamps.length = 1 ∧ stamps.length < 255) ∨ (lotWidth stamps.length = 2 ∧ stamps.length < 65535)
      ∨ lotWidth stamps.length = 4 := by
    rw [← initOracleSize_eq]
    unfold initOracleSize
    by_cases h1 : stamps.length < 255
    · left; rw [if_pos h1]; exact ⟨rfl, h1⟩
    by_cases h2 : stamps.length < 65535
    · right; left; rw [if_neg h1, if_pos h2]; exact ⟨rfl, h2⟩
    · right; right; rw [if_neg h1, if_neg h2, if_pos (by omega)]
  have hsurj : ∃ o, o ≤ uMax (lotWidth stamps.length) ∧
      scaledIndex o (uMax (lotWidth stamps.length)) cs.length = .ok (k : Int) := by
    rcases hw with ⟨h, h'⟩ | ⟨h, h'⟩ | h
    · rw [h]; exact scaledIndex_surj (by norm_num [uMax]) (by norm_num [uMax]; omega) hk
    · rw [h]; exact scaledIndex_surj (by norm_num [uMax]) (by norm_num [uMax]; omega) hk
    · rw [h]; exact scaledIndex_mid (by norm_num [uMax]) (by norm_num [uMax]; omega) (by omega) hk
  have hw' : lotWidth stamps.length = 1 ∨ lotWidth stamps.length = 2 ∨ lotWidth stamps.length = 4 ∨
      lotWidth stamps.length = 8 := by
    rcases hw with h | h | h
    · exact Or.inl h.1
    · exact Or.inr (Or.inl h.1)
    · exact Or.inr (Or.inr (Or.inl h))
  have hw8 := (lotWidth_le stamps.length).2
  generalize lotWidth stamps.length = w at *
  obtain ⟨o, ho, e⟩ := hsurj
  refine ⟨leBytes w o, leBytes_length w o, ?_⟩
  have ho' : o < 256 ^ w := by
    rw [pow256]
    have := Nat.pow_pos (n := 8 * w) (by norm_num : 0 < 2)
    unfold uMax at ho
    omega
  have hlr : (leBytes w o ++ rest).length - w = rest.length := by
    rw [List.length_append, leBytes_length]; omega
  have ht : (leBytes w o ++ rest).take w = leBytes w o := List.take_left' (leBytes_length w o)
  have hd : (leBytes w o ++ rest).drop w = rest := List.drop_left' (leBytes_length w o)
  have key := lottery_core hG hw' hs (bs := leBytes w o ++ rest)
    (by rw [List.length_append, leBytes_length]; omega)
    (fun h => by have := hrec h; rw [List.length_append, leBytes_length]; omega) (k := k)
    (by rw [hlr]; exact hk)
    (by rw [hlr, ht, leNat_leBytes w o ho']; exact e) (by omega)
  simpa only [hlr, hd] using key

/-- A lottery over an `int`, a `short` and a `char` stamp. -/
def lotExample : Graph
  | 0 => some ((LotState.build none [(1, (4, 4)), (2, (2, 2)), (3, (1, 1))]).node false)
  | 1 => some (.arith .i32)
  | 2 => some (.arith .i16)
  | 3 => some (.arith .u8)
  | _ => none

/-- With three bytes after the oracle the `int` stamp is not a candidate; oracle 0 picks the `short`,
oracle 255 the `char`. -/
example : lotCandidates false (fun j => [0, 4, 2, 1].getD j 0) (fun j => [0, 4, 2, 1].getD j 0) 3
      [1, 2, 3] = [2, 3] ∧
    (extract lotExample 3 0 (Flags.init, ([0, 1, 1, 9] : ABlob))).1 = .ok "257".toUTF8.toList ∧
    (extract lotExample 3 0 (Flags.init, ([255, 1, 1, 9] : ABlob))).1 = .ok "1".toUTF8.toList := by
  decide +kernel

end BS
