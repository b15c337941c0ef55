import Verif.Props.GalleyVec

/-!
# C19: roundings that add up
-/

namespace BS
open BlobLike

theorem oracle_pair {x y : UInt8} {o : Nat} {rest : Bytes} (h : leNat [x, y] = o) :
    (oracle : M ABlob Nat) (x :: y :: rest : Bytes) = (.ok o, rest) := by
  rw [oracle_abs, if_neg (by simp), ← h]; rfl

theorem sizeOracles_step {n o : Nat} {t t' t'' : Int} {a a' a'' : ABlob} {os : List Nat}
    (h1 : (oracle : M ABlob Nat) a = (.ok o, a')) (h2 : ckInt (t + o) = .ok t')
    (h3 : sizeOracles n t' a' = (.ok (os, t''), a'')) : sizeOracles (n + 1) t a = (.ok (o :: os, t''), a'') := by
  unfold sizeOracles
  rw [M.bind_ok h1]
  have h4 : (M.lift (ckInt (t + o)) : M ABlob Int) a' = (.ok t', a') := by rw [h2]; rfl
  rw [M.bind_ok h4, M.bind_ok h3]
  rfl

theorem unbChop_ood {mn T var el : Int} {o : Nat} {os : List Nat} {rem : FV} {a left : ABlob}
    (h1 : FV.toCInt (FV.add f32 (FV.add f32 (FV.ofInt f32 mn)
      (FV.mul f32 (FV.div f32 (FV.ofInt f32 o) (FV.ofInt f32 T)) (FV.ofInt f32 var))) rem) = .ok el)
    (h : a.length < toSz el ∧ left = a ∨ toSz el ≤ a.length ∧ unbChopLoop mn T var os
      (FV.sub f32 (FV.add f32 (FV.add f32 (FV.ofInt f32 mn)
        (FV.mul f32 (FV.div f32 (FV.ofInt f32 o) (FV.ofInt f32 T)) (FV.ofInt f32 var))) rem) (FV.ofInt f32 el))
      (a.drop (toSz el)) = (.outOfData, left)) :
    unbChopLoop mn T var (o :: os) rem a = (.outOfData, left) := by
  unfold unbChopLoop
  dsimp only
  have h3 : (M.lift (FV.toCInt (FV.add f32 (FV.add f32 (FV.ofInt f32 mn)
      (FV.mul f32 (FV.div f32 (FV.ofInt f32 o) (FV.ofInt f32 T)) (FV.ofInt f32 var))) rem)) : M ABlob Int) a
      = (.ok el, a) := by rw [h1]; rfl
  rw [M.bind_ok h3]
  rcases h with ⟨h, rfl⟩ | ⟨h, h2⟩
  · exact M.bind_ood (by rw [chop_abs, if_pos h])
  · have h4 : (chop (toSz el) : M ABlob ABlob) a = (.ok (a.take (toSz el)), a.drop (toSz el)) := by
      rw [chop_abs, if_neg (by omega)]
    rw [M.bind_ok h4]
    exact M.bind_ood h2

/-- **C19 is violated**, third way again, on a smaller blob: every number in the calculation is exact in a `float`,
but the roundings of three products add up to one byte, and the galley throws `OutOfData` on the last of three
pieces of a blob 26 times as large as its minimum. -/
theorem C19_violated_three {b : Blob} {rest : Bytes} (hr : Reachable b)
    (hh : Holds b (80 :: 20 :: 183 :: 29 :: 24 :: 45 :: 218 :: 194 :: rest)) (hl : rest.length = 6276879) :
    vecNeeds 239237 (-1) = 239241 ∧ VecThrows 239237 (-1) b (rest.drop (851822 + 1168865)) := by
  refine ⟨by decide, VecThrows.intro hr.valid hh (n := 0) ?_⟩
  have hlen : (80 :: 20 :: 183 :: 29 :: 24 :: 45 :: 218 :: 194 :: rest : Bytes).length = 6276887 := by
    simp only [List.length_cons, hl]
  rw [vecSplit_enough (by decide) (by decide) (by rw [hlen]; norm_num), if_neg (by decide), if_pos rfl]
  unfold vecUnbounded
  rw [M.bind_ok (M.get_apply _)]
  dsimp only
  rw [size_abs, hlen, if_neg (by decide)]
  have ho : (oracle : M ABlob Nat) (80 :: 20 :: 183 :: 29 :: 24 :: 45 :: 218 :: 194 :: rest : Bytes)
      = (.ok 5200, 183 :: 29 :: 24 :: 45 :: 218 :: 194 :: rest) := by
    exact oracle_pair (by decide +kernel)
  rw [M.bind_ok ho, show countTarget (toSz (((6276887 : Nat) : Int) - 2) / toSz (((toSz 239237 : Nat) : Int) + 2))
    5200 = 3 by decide +kernel]
  have h0 : (sizeOracles 3 0 : M ABlob _) (183 :: 29 :: 24 :: 45 :: 218 :: 194 :: rest : Bytes)
      = (.ok ([7607, 11544, 49882], 69033), rest) := by
    have o1 : (oracle : M ABlob Nat) (183 :: 29 :: 24 :: 45 :: 218 :: 194 :: rest : Bytes)
        = (.ok 7607, 24 :: 45 :: 218 :: 194 :: rest) := oracle_pair (by decide +kernel)
    have o2 : (oracle : M ABlob Nat) (24 :: 45 :: 218 :: 194 :: rest : Bytes)
        = (.ok 11544, 218 :: 194 :: rest) := oracle_pair (by decide +kernel)
    have o3 : (oracle : M ABlob Nat) (218 :: 194 :: rest : Bytes) = (.ok 49882, rest) := 
      oracle_pair (by decide +kernel)
    exact sizeOracles_step o1 rfl (sizeOracles_step o2 rfl (sizeOracles_step o3 rfl rfl))
  rw [M.bind_ok h0, M.bind_ok (M.get_apply _)]
  dsimp only
  have h1 : (M.lift (ckInt ((239237 : Int) * ((3 : Nat) : Int))) : M ABlob Int) rest = (.ok 717711, rest) := by
    rw [ckInt_ok (by norm_num) (by norm_num)]; rfl
  rw [M.bind_ok h1]
  have h2 : (M.lift (ckInt (wrap32 ((size rest : Nat) : Int) - 717711)) : M ABlob Int) rest
      = (.ok 5559168, rest) := by
    rw [size_abs, hl, wrap32_of_fits (by norm_num) (by norm_num), ckInt_ok (by norm_num) (by norm_num)]; rfl
  rw [M.bind_ok h2, if_neg (by decide), if_neg (by decide)]
  have z1 : toSz 851822 = 851822 := by rw [toSz_of_nonneg (by norm_num) (by norm_num)]; rfl
  have z2 : toSz 1168865 = 1168865 := by rw [toSz_of_nonneg (by norm_num) (by norm_num)]; rfl
  have z3 : toSz 4256193 = 4256193 := by rw [toSz_of_nonneg (by norm_num) (by norm_num)]; rfl
  refine unbChop_ood (el := 851822) (by decide +kernel) (.inr ⟨by rw [hl, z1]; norm_num, ?_⟩)
  refine unbChop_ood (el := 1168865) (by decide +kernel) (.inr ⟨by rw [List.length_drop, hl, z1, z2]; norm_num, ?_⟩)
  refine unbChop_ood (el := 4256193) (by decide +kernel)
    (.inl ⟨by rw [List.length_drop, List.length_drop, hl, z1, z2, z3]; norm_num, ?_⟩)
  rw [List.drop_drop, z1, z2]

example : ∃ rest : Bytes, rest.length = 6276879 := ⟨List.replicate 6276879 7, List.length_replicate⟩

end BS
