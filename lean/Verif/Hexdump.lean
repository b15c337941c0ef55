import Verif.Blob

/-!
# `hexdump` (src/helpers.cpp 25-76) and `Blob::Dump` (src/blob.cpp 41-46)

The state of a run is what has been printed so far. `long` is 64 bits wide, and no `long` of these
loops gets anywhere near its limits before the line buffer is overrun.
-/

namespace BS

/-- `char szBuf[100]`; `none` is an indeterminate byte. [helpers.cpp 25-76] -/
abbrev LineBuf := List (Option UInt8)

/-- `szBuf[i] = c` (helpers.cpp 60, 63, 68, 69). -/
def poke (i : Int) (c : UInt8) (buf : LineBuf) : Out LineBuf :=
  if 0 ≤ i ∧ i < 100 then .ok (buf.set i.toNat (some c)) else .ub .oob

/-- Store bytes one after the other from `szBuf + i` on. [helpers.cpp 46-48, 58] -/
def pokes (i : Int) : Bytes → LineBuf → Out LineBuf
  | [], buf => .ok buf
  | c :: cs, buf => (poke i c buf).bind fun buf => pokes (i + 1) cs buf

/-- `sprintf(szBuf + i, …)` of a text (helpers.cpp 46-48, 58): a null byte ends it. -/
def sprintfAt (i : Int) (text : Bytes) (buf : LineBuf) : Out LineBuf := pokes i (text ++ [0]) buf

/-- The digits of a number in base 16, upper case; 16 digits are enough for `unsigned long`.
[C++ itself, not a function of the library; needed for `%X` in helpers.cpp 46-58] -/
def upperHex : Nat → Nat → Bytes
  | 0, _ => []
  | n + 1, v => if v < 16 then [hexDigit v] else upperHex n (v / 16) ++ [hexDigit (v % 16)]
where
  hexDigit (d : Nat) : UInt8 := UInt8.ofNat (if d < 10 then 48 + d else 55 + d)

/-- `%0wX` [C++ itself, not a function of the library; needed for helpers.cpp 46-58] -/
def fmtX (w v : Nat) : Bytes :=
  let s := upperHex 16 v
  List.replicate (w - s.length) 48 ++ s

/-- ctype.h `isprint` in the "C" locale. -/
def isPrint (c : UInt8) : Bool := decide (32 ≤ c.toNat) && decide (c.toNat < 127)

/-- `*pTmp` at distance `k` (helpers.cpp 56) -/
def Ptr.byteAt (p : Ptr) (k : Nat) : Out UInt8 :=
  (p.add k).bind fun q => (q.read 1).bind fun l =>
    match l with
    | c :: _ => .ok c
    | [] => .ub .oob

/-- helpers.cpp 56-63: one pass of the `for` body, for the byte `c`. It returns `lIndex` and `szBuf`;
`lRelPos` is given as it is after the increment. -/
def rowStep (c : UInt8) (ix ix2 rp : Int) (buf : LineBuf) : Out (Int × LineBuf) :=
  (sprintfAt ix (fmtX 2 c.toNat ++ [32]) buf).bind fun buf =>
  (poke ix2 (if isPrint c then c else 46) buf).bind fun buf =>
  if rp % 4 = 0 then (poke (ix + 1 + 2) 32 buf).bind fun buf => .ok (ix + 1, buf)
  else .ok (ix, buf)

/-- helpers.cpp 49-64: the `for` loop, `rem` being `lOutLen2` and `k` the distance from `pAddress` to
`pTmp`. It returns `lIndex`, `lRelPos` and `szBuf`. -/
def rowLoop (p : Ptr) : Nat → Nat → Int → Int → Int → Int → LineBuf → Out (Int × Int × LineBuf)
  | 0, _, _, _, _, _, _ => .fuel
  | n + 1, k, rem, ix, ix2, rp, buf =>
    if rem = 0 then .ok (ix, rp, buf)
    else
      (p.byteAt k).bind fun c =>
      (rowStep c ix ix2 (rp + 1) buf).bind fun r =>
      rowLoop p n (k + 1) (rem - 1) (r.1 + 2) (ix2 + 1) (rp + 1) r.2

/-- `%s` (helpers.cpp 71): the bytes up to the first null byte. -/
def cString : LineBuf → Out Bytes
  | [] => .ub .oob
  | none :: _ => .ub .oob
  | some c :: r => if c = 0 then .ok [] else (cString r).map (c :: ·)

/-- helpers.cpp 45-71: fill `szBuf` for `outLen` bytes at distance `off`, and read it. The `for` loop either ends
or leaves `szBuf` within 101 steps. -/
def dumpRow (p : Ptr) (off : Nat) (outLen : Int) (buf : LineBuf) : Out (Bytes × LineBuf) :=
  (sprintfAt 0 ([32, 62] ++ List.replicate 28 32 ++ List.replicate 22 32 ++ List.replicate 4 32 ++ fmtX 8 off) buf).bind
    fun buf =>
  (rowLoop p 101 off outLen 2 39 0 buf).bind fun r =>
  let ix := if r.2.1 % 4 = 0 then r.1 - 1 else r.1
  (poke ix 9 r.2.2).bind fun buf =>
  (poke (ix + 1) 9 buf).bind fun buf =>
  (cString buf).map fun s => (s, buf)

/-- helpers.cpp 71: `printf("%s\n", szBuf)`. -/
def emit (s : Bytes) : M Bytes Unit := fun out => (.ok (), out ++ s)

/-- helpers.cpp 41-43: `lOutLen`, which is `(int)buf.lSize` but at most 16. -/
def rowLen (size : Nat) : Int := if wrap32 size > 16 then 16 else wrap32 size

/-- helpers.cpp 38-75: the `while` loop. (A negative `lOutLen` never gets past the `for` loop.) -/
def dumpLoop (p : Ptr) : Nat → Nat → Nat → LineBuf → M Bytes Unit
  | 0, _, _, _ => M.out .fuel
  | n + 1, off, size, buf =>
    if size = 0 then pure ()
    else do
      let r ← M.lift (dumpRow p off (rowLen size) buf)
      emit (r.1 ++ [10])
      dumpLoop p n (off + (rowLen size).toNat) (toSz (size - rowLen size)) r.2

/-- blob.cpp 41-46 and helpers.cpp 25-36. `size_t` to `long` to `unsigned long` keeps the value. -/
def Blob.dump (n : Nat) (b : Blob) : M Bytes Unit :=
  match b.data.add b.beg with
  | .ok p => dumpLoop p n 0 (toSz ((b.fin : Int) - b.beg + 1)) (List.replicate 100 none)
  | .ub r => M.ub r
  | _ => M.out .abort

end BS
