import Verif.Spec.Share
import Verif.Lemmas.Share
import Verif.Props.Dict
import Verif.Props.Lottery
import Verif.Props.JsonOut

/-!
# C72: choices are even
-/

namespace BS
open BlobLike

/-- Counting byte strings is counting numbers. -/
theorem tally_eq {w : Nat} {P : Bytes → Prop} {S : Finset Nat} (hS : ∀ o ∈ S, o < 256 ^ w)
    (h : ∀ p : Bytes, p.length = w → (P p ↔ leNat p ∈ S)) : tally w P = S.card := by
  unfold tally
  have e : {p : Bytes | p.length = w ∧ P p} = leBytes w '' (S : Set Nat) := by
    ext p
    simp only [Set.mem_ofPred_eq, Set.mem_image, Finset.mem_coe]
    constructor
    · rintro ⟨hl, hp⟩
      exact ⟨leNat p, (h p hl).1 hp, by rw [← hl]; exact leBytes_leNat p⟩
    · rintro ⟨o, ho, rfl⟩
      have hl := leBytes_length w o
      exact ⟨hl, (h _ hl).2 (by rw [leNat_leBytes w o (hS o ho)]; exact ho)⟩
  rw [e, Set.InjOn.ncard_image, Set.ncard_coe_finset]
  intro a ha b hb hab
  have := congrArg leNat hab
  simpa [leNat_leBytes w a (hS a ha), leNat_leBytes w b (hS b hb)] using this

/-- How far a share may be off, by the width of the oracle. -/
def shareSlack (w : Nat) : Nat := if w ≤ 2 then 1 else if w ≤ 4 then 2 else 32769

theorem hits_fair {w n k : Nat} (hw : w = 1 ∨ w = 2 ∨ w = 4 ∨ w = 8) (hn1 : 1 ≤ n) (hn : n ≤ 2 ^ 47)
    (hn2 : w ≤ 2 → n ≤ 65536) (hk : k < n) :
    Fair (256 ^ w - 1) n (shareSlack w) (hits (256 ^ w - 1) n k).card := by
  have hM : 1 ≤ 256 ^ w - 1 ∧ 256 ^ w - 1 < W64 := by
    rcases hw with rfl | rfl | rfl | rfl <;> norm_num
  obtain ⟨h1, h2⟩ := hits_card hM.1 hM.2 hn1 (by omega) hk
  generalize (hits (256 ^ w - 1) n k).card = c at *
  unfold Fair shareSlack
  rw [Nat.mul_add] at h2 ⊢
  generalize hx : n * c = x at *
  clear hx
  rcases hw with rfl | rfl | rfl | rfl
  · have := hn2 (by omega)
    norm_num at h1 h2 ⊢
    omega
  · have := hn2 (by omega)
    norm_num at h1 h2 ⊢
    omega
  · norm_num at h1 h2 ⊢
    omega
  · norm_num at h1 h2 ⊢
    omega

theorem hits_lt {w n k o : Nat} (h : o ∈ hits (256 ^ w - 1) n k) : o < 256 ^ w := by
  unfold hits at h
  rw [Finset.mem_filter, Finset.mem_range] at h
  have := Nat.pow_pos (n := w) (by norm_num : 0 < 256)
  omega

theorem mem_hits {w n k : Nat} {p : Bytes} (hl : p.length = w) :
    leNat p ∈ hits (256 ^ w - 1) n k ↔ scaledIndex (leNat p) (256 ^ w - 1) n = .ok (k : Int) := by
  unfold hits
  rw [Finset.mem_filter, Finset.mem_range]
  have := leNat_lt p
  rw [hl] at this
  constructor
  · exact fun h => h.2
  · exact fun h => ⟨by omega, h⟩

/-- **C72 (words).** Over all index bytes, every word of a dictionary comes out equally often: for at most 65536
words, the number of index byte strings that give a word differs from the even share by at most one. (Larger
dictionaries use eight index bytes; their shares are numbers above 2^16 and differ by at most 32769.) -/
theorem C72_words {G : Graph} {i : Id} {ws : List Bytes} (hG : G i = some (.dict ws)) (hnd : ws.Nodup)
    (hw : ws.length ≤ 2 ^ 47) (fl : Flags) {word : Bytes} (hword : word ∈ ws) {rest : Bytes}
    (hrest : rest.length < 2 ^ 62) :
    let w := if ws.length ≤ 256 then 1 else if ws.length ≤ 65536 then 2 else 8
    Fair (256 ^ w - 1) ws.length (if ws.length ≤ 65536 then 1 else 32769)
      (tally w fun p => Gives G fl i (p ++ rest) word) := by
  intro w
  obtain ⟨k, hk, rfl⟩ := List.mem_iff_getElem.1 hword
  have hw3 : (w = 1 ∧ ws.length ≤ 256) ∨ (w = 2 ∧ 256 < ws.length ∧ ws.length ≤ 65536) ∨ (w = 8 ∧ 65536 < ws.length) := by
    by_cases h1 : ws.length ≤ 256
    · left; exact ⟨if_pos h1, h1⟩
    · by_cases h2 : ws.length ≤ 65536
      · right; left; exact ⟨by show (if _ then _ else _) = _; rw [if_neg h1, if_pos h2], by omega, h2⟩
      · right; right; exact ⟨by show (if _ then _ else _) = _; rw [if_neg h1, if_neg h2], by omega⟩
  clear_value w
  have hwv : w = 1 ∨ w = 2 ∨ w = 4 ∨ w = 8 := by omega
  have hsmall : w ≤ 2 → ws.length ≤ 65536 := by omega
  have hc : chooseStampSize ws.length = (w, 256 ^ w - 1) := by
    unfold chooseStampSize
    rcases hw3 with ⟨rfl, h⟩ | ⟨rfl, h1, h2⟩ | ⟨rfl, h⟩
    · rw [if_pos h]; norm_num
    · rw [if_neg (by omega), if_pos h2]; norm_num
    · rw [if_neg (by omega), if_neg (by omega), if_neg (by omega)]; norm_num
  have hslack : (if ws.length ≤ 65536 then 1 else 32769) = shareSlack w := by
    unfold shareSlack
    rcases hw3 with ⟨rfl, h⟩ | ⟨rfl, h1, h2⟩ | ⟨rfl, h⟩
    · rw [if_pos (by omega)]; rfl
    · rw [if_pos h2]; rfl
    · rw [if_neg (by omega)]; rfl
  have h1 : 1 ≤ ws.length := by omega
  rw [hslack]
  have hxx : ∀ a : ABlob, extract G 1 i (fl, a) = liftB (extractDict ws) (fl, a) := by
    intro a; unfold extract; rw [hG]
  have hgive : ∀ (p : Bytes), p.length = w → ∃ (j : Nat) (hj : j < ws.length),
      scaledIndex (leNat p) (256 ^ w - 1) ws.length = .ok (j : Int) ∧
      ∀ b, Reachable b → Holds b (p ++ rest) → Returns G fl i b ws[j] rest := by
    intro p hl
    obtain ⟨_, e2⟩ := extractDict_abs ws h1 (by omega) (p ++ rest)
    rw [hc] at e2
    simp only at e2
    have ht : (p ++ rest).take w = p := List.take_left' hl
    have hd : (p ++ rest).drop w = rest := List.drop_left' hl
    obtain ⟨j, hj, e3, e4⟩ := e2 (by rw [List.length_append]; omega)
    rw [ht] at e3
    rw [hd] at e4
    refine ⟨j, hj, e3, fun b hr hh => ?_⟩
    refine Returns.intro hr.valid hh (Extracts.intro (n := 1) ?_ (by simp))
    rw [hxx]; unfold liftB; rw [e4]
  rw [tally_eq (S := hits (256 ^ w - 1) ws.length k) (fun o ho => hits_lt ho)]
  · exact hits_fair hwv h1 hw hsmall hk
  · intro p hl
    rw [mem_hits hl]
    obtain ⟨j, hj, e1, e2⟩ := hgive p hl
    constructor
    · rintro ⟨left, hg⟩
      obtain ⟨b, hr, hh⟩ := exists_blob (bs := p ++ rest) (by rw [List.length_append]; omega)
      obtain ⟨b1, r1, _⟩ := hg b hr hh
      obtain ⟨b2, r2, _⟩ := e2 b hr hh
      have e := (Extracts.unique r1 r2).1
      injection e with e
      have := (hnd.getElem_inj_iff).1 e
      subst this
      exact e1
    · intro e
      rw [e1] at e
      injection e with e
      have : j = k := by omega
      subst this
      exact ⟨rest, e2⟩

/-- **C72 (lottery).** Over all values of the oracle, a lottery takes each of its candidates equally often, up to one
for oracles of one or two bytes and up to two for four bytes. (`shareSlack`; an oracle of eight bytes, for which no
fewer than 2^32 - 1 stamps are needed, up to 32769.) -/
theorem C72_lottery {G : Graph} {i : Id} {rec4 : Bool} {stamps : List Id} {w : Nat} {smin smax : Int}
    (hG : G i = some (.lottery rec4 stamps w smin smax)) (hw : w = lotWidth stamps.length)
    {fl : Flags} {m mx : Id → Int} (hs : LotSizes G fl stamps m mx) {rest : Bytes}
    (hrec : rec4 = true → rest.length < W31 - 8) (hlen : stamps.length ≤ 2 ^ 47) :
    let cs := lotCandidates rec4 m mx rest.length stamps
    cs ≠ [] → ∃ choice : Bytes → Nat,
      (∀ p, p.length = w → ∃ j, cs[choice p]? = some j ∧ Delegates G fl i (p ++ rest) j rest) ∧
      ∀ k < cs.length, Fair (256 ^ w - 1) cs.length (shareSlack w) (tally w fun p => choice p = k) := by
  intro cs hne
  have hcl : cs.length ≤ stamps.length := lotCandidates_length rec4 m mx rest.length stamps
  have hwv : w = 1 ∨ w = 2 ∨ w = 4 ∨ w = 8 := by
    rw [hw]; unfold lotWidth
    split
    · omega
    · split
      · omega
      · split <;> omega
  have hsmall : w ≤ 2 → stamps.length ≤ 65536 := by
    rw [hw]; unfold lotWidth
    split
    · norm_num at *; omega
    · split
      · norm_num at *; omega
      · split <;> omega
  clear hw
  have hu : uMax w = 256 ^ w - 1 := by unfold uMax; rw [pow256]
  have hpos := List.length_pos_iff.2 hne
  have hidx : ∀ p : Bytes, p.length = w → ∃ j : Nat,
      scaledIndex (leNat p) (256 ^ w - 1) cs.length = .ok (j : Int) ∧ j < cs.length := by
    intro p hl
    obtain ⟨u1, u2⟩ := uMax_bounds hwv
    rw [hu] at u1 u2
    refine scaledIndex_lt u1 ?_ u2 hpos (by omega)
    have := leNat_lt p
    rw [hl] at this
    omega
  classical
  refine ⟨fun p => if h : p.length = w then (hidx p h).choose else 0, ?_, ?_⟩
  · intro p hl
    simp only [hl, dif_pos]
    obtain ⟨e, hk⟩ := (hidx p hl).choose_spec
    generalize (hidx p hl).choose = k at *
    refine ⟨_, List.getElem?_eq_getElem hk, ?_⟩
    have hlr : (p ++ rest).length - w = rest.length := by rw [List.length_append]; omega
    have ht : (p ++ rest).take w = p := List.take_left' hl
    have hd : (p ++ rest).drop w = rest := List.drop_left' hl
    have key := lottery_core hG hwv hs (bs := p ++ rest) (by rw [List.length_append]; omega)
      (fun h => by have := hrec h; rw [List.length_append]; omega) (k := k)
      (by rw [hlr]; exact hk) (by rw [hlr, ht, hu]; exact e) (by omega)
    rw [hd] at key
    simpa only [hlr] using key
  · intro k hk
    rw [tally_eq (S := hits (256 ^ w - 1) cs.length k) (fun o ho => hits_lt ho)]
    · exact hits_fair hwv hpos (by omega) (fun h => by have := hsmall h; omega) hk
    · intro p hl
      rw [mem_hits hl]
      simp only [hl, dif_pos]
      obtain ⟨e, _⟩ := (hidx p hl).choose_spec
      generalize (hidx p hl).choose = j at *
      rw [e]
      constructor
      · rintro rfl; rfl
      · intro h; injection h with h; omega

/-- **C72 (picker).** Over all values of the oracle, a pool picker takes each of its candidates equally often,
up to one. -/
theorem C72_picker {G : Graph} {i : Id} {pool : List Id} (hG : G i = some (.picker pool))
    {fl : Flags} {m mx : Id → Int} (hs : PoolSizes G fl pool m mx) (hlen : pool.length ≤ 256)
    {rest : Bytes} :
    let cs := pickCandidates m mx rest.length pool
    cs ≠ [] → ∃ choice : Bytes → Nat,
      (∀ p, p.length = 2 → ∃ j, cs[choice p]? = some j ∧ Delegates G fl i (p ++ rest) j rest) ∧
      ∀ k < cs.length, Fair 65536 cs.length 1 (tally 2 fun p => choice p = k) := by
  intro cs hne
  have hcl : cs.length ≤ pool.length := pickCandidates_length m mx rest.length pool
  have hpos := List.length_pos_iff.2 hne
  refine ⟨fun p => leNat p * cs.length / 65536, ?_, ?_⟩
  · intro p hl
    have hlt := leNat_lt p
    rw [hl] at hlt
    have hk : leNat p * cs.length / 65536 < cs.length := by
      rw [Nat.div_lt_iff_lt_mul (by norm_num), Nat.mul_comm]
      exact Nat.mul_lt_mul_of_pos_left (by omega) hpos
    refine ⟨_, List.getElem?_eq_getElem hk, ?_⟩
    have hidx := (C11_small_ranges_exact (mn := 0) (mx := cs.length - 1) (by omega) (by omega) (by omega)).1
      (leNat p) (by omega)
    rw [show cs.length - 1 - 0 + 1 = cs.length by omega, Nat.zero_add] at hidx
    have hlr : (p ++ rest).length - 2 = rest.length := by rw [List.length_append]; omega
    have ht : (p ++ rest).take 2 = p := List.take_left' hl
    have hd : (p ++ rest).drop 2 = rest := List.drop_left' hl
    have key := picker_core hG hs (bs := p ++ rest) (by rw [List.length_append]; omega) (by omega)
      (by rw [hlr]; exact hk) (by rw [hlr, ht]; exact hidx)
    rw [hd] at key
    simpa only [hlr] using key
  · intro k hk
    generalize cs.length = c at *
    -- o lies in [lo, hi)
    set lo := (k * 65536 + (c - 1)) / c with hlo
    set hi := ((k + 1) * 65536 + (c - 1)) / c with hhi
    have d1 := Nat.div_add_mod (k * 65536 + (c - 1)) c
    have m1 := Nat.mod_lt (k * 65536 + (c - 1)) hpos
    have d2 := Nat.div_add_mod ((k + 1) * 65536 + (c - 1)) c
    have m2 := Nat.mod_lt ((k + 1) * 65536 + (c - 1)) hpos
    rw [← hlo] at d1
    rw [← hhi] at d2
    have hmem : ∀ o, o ∈ Finset.Ico lo hi ↔ o * c / 65536 = k := by
      intro o
      rw [Finset.mem_Ico, hlo, hhi, Nat.div_le_iff_le_mul_add_pred hpos, Nat.lt_div_iff_mul_lt hpos, Nat.mul_comm c o]
      generalize o * c = x
      omega
    rw [tally_eq (S := Finset.Ico lo hi)]
    · rw [Nat.card_Ico]
      unfold Fair
      have hle : lo ≤ hi := Nat.div_le_div_right (Nat.add_le_add_right (Nat.mul_le_mul_right _ (Nat.le_succ k)) _)
      obtain ⟨d, hd⟩ : ∃ d, hi = lo + d := ⟨hi - lo, (Nat.add_sub_cancel' hle).symm⟩
      rw [hd] at d2 ⊢
      rw [Nat.add_sub_cancel_left]
      rw [Nat.mul_add] at d2 ⊢
      generalize c * lo = x at *
      generalize c * d = y at *
      omega
    · intro o ho
      have := (hmem o).1 ho
      by_contra hge
      have h2 : 65536 * c ≤ o * c := Nat.mul_le_mul_right _ (by omega)
      generalize o * c = x at *
      omega
    · intro p _
      rw [hmem]

/-- The ten digits as a dictionary: of the 256 index bytes, every digit gets 25 or 26. -/
example (G : Graph) (hG : G 0 = some (.dict (List.range 10 |>.map natDec))) :
    ∀ d < 10, 25 ≤ tally 1 (fun p => Gives G Flags.init 0 (p ++ [1, 2, 3]) (natDec d)) ∧
      tally 1 (fun p => Gives G Flags.init 0 (p ++ [1, 2, 3]) (natDec d)) ≤ 26 := by
  intro d hd
  have h := C72_words hG (by decide +kernel) (by decide +kernel) Flags.init (word := natDec d)
    (List.mem_map.2 ⟨d, List.mem_range.2 hd, rfl⟩) (rest := [1, 2, 3]) (by decide +kernel)
  rw [show (List.map natDec (List.range 10)).length = 10 from rfl] at h
  simp only [Fair] at h
  norm_num at h
  omega

/-- With enough data `StampJSON` chooses between an array and an object; each gets half of the 65536 values of the
oracle. -/
example {rest : Bytes} (hr : 22 ≤ rest.length) : ∃ choice : Bytes → Nat, ∀ k < 2,
    32767 ≤ tally 2 (fun p => choice p = k) ∧ tally 2 (fun p => choice p = k) ≤ 32769 ∧
    ∀ p, p.length = 2 → choice p = k → Delegates jsonGraph Flags.init 0 (p ++ rest) (k + 4) rest := by
  have hc : pickCandidates jsonKindMin jsonKindMax rest.length [1, 2, 3, 4, 5] = [4, 5] := by
    rw [jsonCandidates, if_neg (by omega), if_neg (by omega), if_neg (by omega)]
  obtain ⟨ch, h1, h2⟩ := C72_picker (G := jsonGraph) (i := 0) (pool := [1, 2, 3, 4, 5]) rfl jsonPool_sizes (by decide)
    (rest := rest) (by rw [hc]; simp)
  rw [hc] at h1 h2
  refine ⟨ch, fun k hk => ?_⟩
  obtain ⟨a, b⟩ := h2 k hk
  refine ⟨by simp at a b; omega, by simp at a b; omega, fun p hp hk' => ?_⟩
  obtain ⟨j, e, hd⟩ := h1 p hp
  rw [hk'] at e
  rcases (by omega : k = 0 ∨ k = 1) with rfl | rfl <;> (simp at e; subst e; exact hd)

/-- A lottery over an `int`, a `short` and a `char` stamp with three bytes after the oracle: the `short` and the
`char` stamp each get 126 to 129 of the 256 values of the oracle. -/
example : ∃ choice : Bytes → Nat, ∀ k < 2,
    126 ≤ tally 1 (fun p => choice p = k) ∧ tally 1 (fun p => choice p = k) ≤ 129 ∧
    ∀ p, p.length = 1 → choice p = k →
      Delegates lotExample Flags.init 0 (p ++ [1, 1, 9]) (k + 2) [1, 1, 9] := by
  have hc : lotCandidates false (fun j => [0, 4, 2, 1].getD j 0) (fun j => [0, 4, 2, 1].getD j 0)
      ([1, 1, 9] : Bytes).length [1, 2, 3] = [2, 3] := by decide +kernel
  have hG : lotExample 0 = some (.lottery false [1, 2, 3] 1 1 4) := rfl
  have run : ∀ (sel : Sel) (j : Id), j ∈ [1, 2, 3] →
      SizeRuns lotExample Flags.init sel j ([0, 4, 2, 1].getD j 0) Flags.init := by
    intro sel j hj
    refine ⟨1, fun n hn => ?_⟩
    obtain ⟨n, rfl⟩ : ∃ m, n = m + 1 := ⟨n - 1, by omega⟩
    simp only [List.mem_cons, List.not_mem_nil, or_false] at hj
    rcases hj with rfl | rfl | rfl <;> cases sel <;> rfl
  obtain ⟨ch, h1, h2⟩ := C72_lottery hG rfl
    (m := fun j => [0, 4, 2, 1].getD j 0) (mx := fun j => [0, 4, 2, 1].getD j 0)
    ⟨fun j hj => ⟨run .min j hj, by
        simp only [List.mem_cons, List.not_mem_nil, or_false] at hj
        rcases hj with rfl | rfl | rfl <;> decide⟩,
      fun j hj => ⟨run .max j hj, .inr (by
        simp only [List.mem_cons, List.not_mem_nil, or_false] at hj
        rcases hj with rfl | rfl | rfl <;> decide)⟩⟩
    (rest := [1, 1, 9]) (by simp) (by decide) (by rw [hc]; simp)
  rw [hc] at h1 h2
  refine ⟨ch, fun k hk => ?_⟩
  obtain ⟨a, b⟩ := h2 k hk
  refine ⟨by simp [shareSlack] at a b; omega, by simp [shareSlack] at a b; omega, fun p hp hk' => ?_⟩
  obtain ⟨j, e, hd⟩ := h1 p hp
  rw [hk'] at e
  rcases (by omega : k = 0 ∨ k = 1) with rfl | rfl <;> (simp at e; subst e; exact hd)

end BS
