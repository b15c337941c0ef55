import Verif.TestChars
import Verif.Record
import Verif.Owner

/-!
# The rest of t/100, t/110 and t/300 and of the examples, run on the model by the kernel

t/100 and t/300 use the stamps of t/test-chars-stamps.h. No theorem depends on this file.
-/

namespace BS.Conformance3
open BS

/-! ## t/100: the basic stamps -/

/-- tests 1-4. -/
example : twoCharsV (str "1234567" : ABlob) = (.ok (str "12"), str "34567") ∧
    twoCharsV (str "12" : ABlob) = (.ok (str "12"), []) := by decide +kernel
/-- tests 5-6: as much as it can, then what is left. -/
example : severalCharsV (str "1234567890" : ABlob) = (.ok (str "12345678"), str "90") ∧
    severalCharsV (str "90" : ABlob) = (.ok (str "90"), []) := by decide +kernel
/-- tests 7-8. -/
example : severalCharsV (str "123456789" : ABlob) = (.ok (str "12345678"), str "9") ∧
    severalCharsV (str "9" : ABlob) = (.outOfData, str "9") := by decide +kernel
/-- tests 9-10. -/
example : twoCharsV (str "1" : ABlob) = (.outOfData, str "1") ∧
    (extract twoCharsList 9 0 (Flags.init, (str "1" : ABlob))).1 = .outOfData := by decide +kernel

/-! ## t/110: arithmetic stamps, each test on what the tests before it left -/

/-- `size` bytes of a number, the lowest first. [the memory of the arrays in t/110-stamp-arithm.cpp] -/
def le (size : Nat) (i : Int) : Bytes := (List.range size).map fun k => UInt8.ofNat ((i / 256 ^ k) % 256).toNat

example : le 2 (-2) = [254, 255] := by decide +kernel

/-- tests 1-4. -/
example : (extractArithBin .i8 (str "Some string" : ABlob)).1 = .ok (str "S") ∧
    (extractArithStr .i8 (str "ome string" : ABlob)).1 = .ok (str "111") ∧
    (extractValue .i8 (str "me string" : ABlob)).1 = .ok (.int 109) ∧
    (extractPValue 0 .i8 (Mem.empty, (str "e string" : ABlob))).1 = .ok (.int 101) := by decide +kernel

/-- The array of `short int`s from its `k`th element on. [t/110-stamp-arithm.cpp] -/
def int16s (k : Nat) : ABlob := (([1, -2, -3, 4, 555, 66, 777, 8] : List Int).drop k).flatMap (le 2)
/-- tests 5-11. -/
example : extractArithBin .i16 (int16s 0) = (.ok (le 2 1), int16s 1) ∧
    extractArithStr .u16 (int16s 1) = (.ok (str "65534"), int16s 2) ∧
    extractArithStr .i16 (int16s 2) = (.ok (str "-3"), int16s 3) ∧
    extractValue .u16 (int16s 3) = (.ok (.int 4), int16s 4) ∧
    extractValue .i16 (int16s 4) = (.ok (.int 555), int16s 5) ∧
    (extractPValue 0 .u16 (Mem.empty, int16s 5)).1 = .ok (.int 66) ∧
    (extractPValue 0 .i16 (Mem.empty, int16s 6)).1 = .ok (.int 777) := by decide +kernel

/-- The array of `int`s. [t/110-stamp-arithm.cpp] -/
def int32s (k : Nat) : ABlob := (([10, -20, -30, 40, 500, 6, 77, 888] : List Int).drop k).flatMap (le 4)
/-- tests 12-18. -/
example : extractArithBin .i32 (int32s 0) = (.ok (le 4 10), int32s 1) ∧
    extractArithStr .u32 (int32s 1) = (.ok (str "4294967276"), int32s 2) ∧
    extractArithStr .i32 (int32s 2) = (.ok (str "-30"), int32s 3) ∧
    extractValue .u32 (int32s 3) = (.ok (.int 40), int32s 4) ∧
    extractValue .i32 (int32s 4) = (.ok (.int 500), int32s 5) ∧
    (extractPValue 0 .u32 (Mem.empty, int32s 5)).1 = .ok (.int 6) ∧
    (extractPValue 0 .i32 (Mem.empty, int32s 6)).1 = .ok (.int 77) := by decide +kernel

/-- The array of `long long`s. [t/110-stamp-arithm.cpp] -/
def int64s (k : Nat) : ABlob := (([100, -200, -300, 400, 5, 6, 7000, 808] : List Int).drop k).flatMap (le 8)
/-- tests 19-25. -/
example : extractArithBin .i64 (int64s 0) = (.ok (le 8 100), int64s 1) ∧
    extractArithStr .u64 (int64s 1) = (.ok (str "18446744073709551416"), int64s 2) ∧
    extractArithStr .i64 (int64s 2) = (.ok (str "-300"), int64s 3) ∧
    extractValue .u64 (int64s 3) = (.ok (.int 400), int64s 4) ∧
    extractValue .i64 (int64s 4) = (.ok (.int 5), int64s 5) ∧
    (extractPValue 0 .u64 (Mem.empty, int64s 5)).1 = .ok (.int 6) ∧
    (extractPValue 0 .i64 (Mem.empty, int64s 6)).1 = .ok (.int 7000) := by decide +kernel

/-- The array of `double`s 1.4142, 2, 3.1415, 42, 5, 6, 7, as bits. [t/110-stamp-arithm.cpp] -/
def doubles (k : Nat) : ABlob :=
  (([0x3FF6A0902DE00D1B, 0x4000000000000000, 0x400921CAC083126F, 0x4045000000000000, 0x4014000000000000,
    0x4018000000000000, 0x401C000000000000] : List Int).drop k).flatMap (le 8)
/-- tests 26-29. -/
example : extractArithBin .double (doubles 0) = (.ok (le 8 0x3FF6A0902DE00D1B), doubles 1) ∧
    extractArithStr .double (doubles 1) = (.ok (str "2"), doubles 2) ∧
    extractValue .double (doubles 2) = (.ok (.bits 0x400921CAC083126F), doubles 3) ∧
    (extractPValue 0 .double (Mem.empty, doubles 3)).1 = .ok (.bits 0x4045000000000000) := by decide +kernel
/-- The bits are those of the `double`s nearest the decimals in the test; `%.999g` writes them exactly. -/
example : (extractArithStr .double (doubles 0)).1 = .ok (str "1.4141999999999999015898310972261242568492889404296875") ∧
    (extractArithStr .double (doubles 2)).1 = .ok (str "3.141500000000000181188397618825547397136688232421875") ∧
    (extractArithStr .double (doubles 3)).1 = .ok (str "42") := by decide +kernel

/-! ## t/300: galleys, with the texts the stamps make -/

/-- Objects 1, 2 and 3: `StampTwoChars`, `StampSeveralChars` and `StampTwoCharsList`. Object 0: a galley of stamps,
whose strings are put together with a bar after each. Object 4: a vector of object `v`. [t/300-galley.cpp] -/
def galley (xs : List Id) (v : Id) : Graph
  | 0 => some (.set xs (fun ss => ss.flatMap (· ++ str "|")) false)
  | 1 => some (.user (charsStamp 2 2))
  | 2 => some (.user (charsStamp 2 8))
  | 3 => some (.enumerator 1 (str ", ") (str "(") (str ")"))
  | 4 => some (.vec v fun ss => ss.flatMap (· ++ str "|"))
  | _ => none

/-- [`ExtractStrSet` in t/300-galley.cpp] -/
def ofSet (xs : List Id) (b : Bytes) : Out Bytes × Bytes :=
  let r := extract (galley xs 1) 60 0 (Flags.init, (b : ABlob))
  (r.1, r.2.2)
/-- [`ExtractStrVector` in t/300-galley.cpp] -/
def ofVec (v : Id) (b : Bytes) : Out Bytes := (extract (galley [] v) 60 4 (Flags.init, (b : ABlob))).1
/-- [`minSize()`, `maxSize()` in t/300-galley.cpp] -/
def setSizes (xs : List Id) : Out Int × Out Int :=
  ((sizeQ (galley xs 1) 9 .min 0 Flags.init).1, (sizeQ (galley xs 1) 9 .max 0 Flags.init).1)

/-- [t/300-galley.cpp 36] -/
def longer : Bytes := str "z1234567*89abcde&fghijklmnopqrstuvwxyzAB%CDEFGHIJKLMNOPQRSTUVWXYZ!"
/-- [the first 25 bytes of the sample of t/300-galley.cpp 36] -/
def middle : Bytes := str "z1234567*89abcde&fghijklm"

/-- tests 1-4. -/
example : ofVec 1 (str "1234567") = .ok (str "12|34|56|") := by decide +kernel
/-- tests 5-9. -/
example : ofVec 3 longer = .ok (str "(9a, bc, de, &f, gh, ij)|(lm, no, pq, rs, tu, vw, xy)|(zA, B%, CD, EF, GH, IJ, KL)|(MN, OP, QR, ST, UV, WX, YZ)|") := by
  decide +kernel
/-- tests 10-13. -/
example : (vectorBin 9 (.arith .u16) (str "1234567" : ABlob)).1 = .ok [str "12", str "34", str "56"] := by decide +kernel
/-- test 14. -/
example : (vectorV 9 .i32 (([1, -2, -30, 40, -55, 6] : List Int).flatMap (le 4) : ABlob)).1 =
    .ok [.int 1, .int (-2), .int (-30), .int 40, .int (-55), .int 6] := by decide +kernel
/-- tests 15-19. -/
example : ofVec 2 middle = .ok (str "234|7*8|bcde|ghij|") := by decide +kernel
/-- tests 20-25. -/
example : ofSet [1, 1] middle = (.ok (str "z1|23|"), str "4567*89abcde&fghijklm") ∧ setSizes [1, 1] = (.ok 4, .ok 4) := by
  decide +kernel
/-- tests 26-31. -/
example : ofSet [2, 2] middle = (.ok (str "456|7*8|"), str "9abcde&fghijklm") ∧
    setSizes [2, 2] = (.ok (2 * 2 + 2 * 2), .ok (8 * 2 + 2 * 2)) := by decide +kernel
/-- tests 32-37. -/
example : ofSet [3, 3] middle = (.ok (str "(45, 67, *8, 9a, bc)|(de, &f, gh, ij, kl)|"), []) ∧
    setSizes [3, 3] = (.ok (2 * 2 + 2 * 2), .ok (-1)) := by decide +kernel
/-- tests 38-47. -/
example : ofSet [3, 2, 2, 1, 3, 1] longer = (.ok (str "(9a, bc, de, &f, gh, ij, kl, mn, op, qr, st)|uvw|xyzA|B%|(CD, EF, GH, IJ, KL, MN, OP, QR, ST, UV, WX)|Z!|"), []) ∧
    setSizes [3, 2, 2, 1, 3, 1] = (.ok ((2 + 2 + 2) * 2 + 2 * (2 + 2 + 1)), .ok (-1)) := by decide +kernel
/-- tests 48-54. -/
example : ofSet [1, 3, 1] longer = (.ok (str "z1|(23, 45, 67, *8, 9a, bc, de, &f, gh, ij, kl, mn, op, qr, st, uv, wx, yz, AB, %C, DE, FG, HI, JK, LM, NO, PQ, RS, TU, VW, XY)|Z!|"), []) ∧
    setSizes [1, 3, 1] = (.ok (2 * 2 + 2), .ok (-1)) := by decide +kernel
/-- tests 55-64. -/
example : ofSet [3, 2, 2, 1, 3, 1] (str "ooooooooooz123456789ab") = (.ok (str "(z1)|23|45|67|(89)|ab|"), []) := by
  decide +kernel
/-- tests 65-68. -/
example : ofSet [3, 2, 2, 1, 3, 1] (str "ooooooooooz123456789a") = (.outOfData, str "ooooooooooz123456789a") := by
  decide +kernel

/-! ## Examples -/

/-- examples/example03.cpp. -/
example : (extract polyLine3D 9 1 (Flags.init, (str "abcdef" : ABlob))).1 = .ok (str "(25185, 25699, 26213)") := by
  decide +kernel
/-- examples/example04.cpp: a text, then a value. -/
example : (extract polyLine3D 9 1 (Flags.init, (str "abcdefabcdef" : ABlob))).1 = .ok (str "(25185, 25699, 26213)") ∧
    (extract polyLine3D 9 1 (Flags.init, (str "abcdefabcdef" : ABlob))).2.2 = str "abcdef" ∧
    (recordV [.i16, .i16, .i16] (str "abcdef" : ABlob)).1 = .ok [.int 25185, .int 25699, .int 26213] := by decide +kernel
/-- examples/example06.cpp. -/
example : (vectorRecord 9 [.i16, .i16, .i16] (str "abcdefabcdefABCDEF012345" : ABlob)).1 =
    .ok [[.int 25185, .int 25699, .int 26213], [.int 25185, .int 25699, .int 26213], [.int 16961, .int 17475, .int 17989],
      [.int 12592, .int 13106, .int 13620]] := by decide +kernel
/-- examples/example07.cpp: a comma and a space between the points. -/
example : (extract (recordGraph [.i16, .i16, .i16] (str "(") (str ", ") (str ")") (str "(") (str ", ") (str ")")) 9 0
    (Flags.init, (str "abcdefabcdefABCDEF012345" : ABlob))).1 =
    .ok (str "((25185, 25699, 26213), (25185, 25699, 26213), (16961, 17475, 17989), (12592, 13106, 13620))") := by
  decide +kernel

end BS.Conformance3
