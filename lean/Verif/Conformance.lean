import Verif.Graph

/-!
# The repository's own test vectors, run on the model by the kernel

Each example repeats an expectation of a test in /repo/t. They check the transcription; no theorem
depends on them.
-/

namespace BS.Conformance
open BS

/-- Run `ExtractStr` of object `i` on an abstract blob with fresh flags; outcome and bytes left.
[t/120-321: `stamp.ExtractStr(blob)`] -/
def run (G : Graph) (fuel : Nat) (i : Id) (b : Bytes) : Out Bytes × Bytes :=
  let r := extract (β := ABlob) G fuel i (Flags.init, b)
  (r.1, r.2.2)

/-- t/321 line 34: `bin_sample` up to its NUL. -/
def binSample : Bytes := [
  49, 22, 152, 226, 89, 119, 247, 115, 43, 42, 243, 71, 234, 231, 91, 35, 78, 108, 115, 39,
  181, 248, 211, 52, 47, 94, 60, 237, 18, 39, 148, 62, 205, 214, 156, 184, 18, 201, 84, 183,
  74, 134, 94, 72, 14, 116, 145, 109, 1, 230, 17, 95, 154, 100, 60, 15, 12, 102, 20, 115, 35,
  183, 47, 176, 78, 176, 189, 113, 131, 93, 206, 62, 158, 166, 131, 95, 232, 217, 32, 171, 87,
  31, 172, 160, 66, 160, 222, 134, 253, 1, 7, 191, 91, 125, 81, 148, 41, 46, 38, 171, 83, 215,
  79, 34, 23, 215, 183, 118, 236, 191, 59, 160, 135, 58, 32, 199, 170, 183, 213, 53, 162, 138,
  178, 118, 23, 202, 133, 8, 192, 183, 195, 199, 250, 29, 230, 34, 159, 10, 145, 74, 121, 85,
  168, 204, 192, 25, 232, 88, 85, 76, 61, 168, 247, 128, 141, 176, 112, 113, 100, 201, 82, 183,
  219, 236, 226, 171, 85, 97, 160, 1, 50, 250, 161, 51, 61, 220, 167, 227, 195, 17, 164, 211,
  189, 130, 52, 167, 169, 42, 17, 29, 95, 15, 178, 165, 110, 87, 149, 214, 55, 12, 236, 138, 2,
  245, 158, 84, 140, 24, 225, 169, 115, 16, 130, 253, 237, 182, 95, 109, 4, 28, 249, 4, 254,
  166, 62, 107, 228, 113, 130, 127, 70, 79, 140, 41, 84, 218, 134, 146, 88, 65, 24, 174, 252,
  253, 226, 214, 22, 92, 248, 14, 29, 60, 180, 94, 30, 186]

/- t/321 test 1 (run by the interpreter, too long for the kernel). -/
#guard (run jsonGraph 300 0 binSample).1 = .ok (str
  "[6850509402014839822, 3438255817691106319, \"resulted\", -2.684757453484730872673776686700739040682020879678934003695336094670709694419006239953740106372555463816175000634871124431422513570790242370232656601974908085084433064181237341375458199532539671263821862377193715039215799333468172751725903574125176464661297323397544866180407166347114750393787405005704461598334438005517341732432719884411807209593715412099886215291366653445948031730949878692626953125e-151, \"lushes\", -5199661808640109653, \"denomination\", -3.06532686549173138956803086330182850360870361328125, \"sedating\", \"robots\", -3.3696970613711244822470283884492113423278459359891097388748050077510095184860700081976239055565263066452656899596451722800338757224380970001220703125e-42, \"preface\", 9.55422367779008699072920786882312943145717681740324270561686674939552239415695463827122863940711666092367434557202401330797838517640477979352142678948212051182053983211517333984375e-56, 6300155112918555921, \"dams\", 2.411323842459936645124797826433320804619144161893916130561265623523643502350374626190490408739886564139366504029821786107467040377895714047017891228899122281601579488797245463600235576598531485903332393648607370715931713232242018751523644727805408352870771308312443806176048554264200149458533769648133943422986030732712523236966445578809656378067940216124429747414289524093606877704785435824362397944294729373146388523502884316004124548536154374326842524560415029933595880452289294570895862703927051929788804023836835074268010108198185051300394774230223405817676130206688777308144339841912135245325959771275736867526109676372404347501558868228887456576678950716422841427035057837446885287135955877602100372314453125e-287, 9188031415654983422, -5901895462997796268, \"blazer\"]")

/-- t/321 test 2: ten bytes. -/
example : (run jsonGraph 20 0 (binSample.take 10)).1 = .ok (str "3038649880288027288") := by
  decide +kernel
/-- t/321 tests 3-5. -/
example : (run jsonGraph 20 0 (binSample.take 1)).1 = .outOfData := by decide +kernel
example : (run jsonGraph 20 0 (binSample.take 2)).1 = .outOfData := by decide +kernel
example : (run jsonGraph 20 0 (binSample.take 3)).1 = .outOfData := by decide +kernel

/-! ## t/060: OracleProportion -/
example : oracleProportion 0 0 255 = .ok 0 := by decide +kernel
example : oracleProportion 255 0 255 = .ok 0 := by decide +kernel
example : oracleProportion 256 0 255 = .ok 1 := by decide +kernel
example : oracleProportion 65535 0 255 = .ok 255 := by decide +kernel
example : oracleProportion (65535 - 255) 0 255 = .ok 255 := by decide +kernel
example : oracleProportion (65535 - 256) 0 255 = .ok 254 := by decide +kernel

/-! ## t/110: arithmetic stamps -/
example : (extractArithStr (β := ABlob) .i8 [111, 1]) = (.ok (str "111"), [1]) := by decide +kernel
example : (extractArithStr (β := ABlob) .u16 [254, 255]).1 = .ok (str "65534") := by decide +kernel
example : (extractArithStr (β := ABlob) .i16 [253, 255]).1 = .ok (str "-3") := by decide +kernel
example : (extractValue (β := ABlob) .i16 [0x2B, 2]).1 = .ok (.int 555) := by decide +kernel
example : (extractArithStr (β := ABlob) .u32 [236, 255, 255, 255]).1 = .ok (str "4294967276") := by
  decide +kernel
example : (extractArithStr (β := ABlob) .u64 [56, 255, 255, 255, 255, 255, 255, 255]).1 =
    .ok (str "18446744073709551416") := by decide +kernel
example : (extractArithStr (β := ABlob) .double [0, 0, 0, 0, 0, 0, 0, 64]).1 = .ok (str "2") := by
  decide +kernel

/-! ## t/120, t/130: dictionary and enumerator [t/120-stamp_dict.cpp 38] -/
def dict4 : List Bytes := [str "one", str "two", str "three", str "four"]
example : (extractDict (β := ABlob) dict4 [0, 63, 64, 255]) = (.ok (str "one"), [63, 64, 255]) := by
  decide +kernel
example : (extractDict (β := ABlob) dict4 [63, 64, 255]).1 = .ok (str "one") := by decide +kernel
example : (extractDict (β := ABlob) dict4 [64, 255]).1 = .ok (str "two") := by decide +kernel
example : (extractDict (β := ABlob) dict4 [255]).1 = .ok (str "four") := by decide +kernel

/-- [t/130-stamp_enumerator.cpp 41-42] -/
def enumG : Graph
  | 0 => some (.enumerator 1 (str "; ") (str "<") (str ">"))
  | 1 => some (.arith .u8)
  | _ => none
example : run enumG 20 0 [1, 63, 64, 255] = (.ok (str "<1; 63; 64; 255>"), []) := by decide +kernel

/-! ## t/140: lottery [t/140-stamp_lottery.cpp 45-48, 71-97] -/
def lotNode (rec4 : Bool) (s : LotState) : Graph
  | 0 => some (s.node rec4)
  | 1 => some (.arith .u16)
  | 2 => some (.arith .u8)
  | 3 => some (.arith .u32)
  | 4 => some (.arith .u64)
  | _ => none
/-- [t/140-stamp_lottery.cpp 48] -/
def lot1 : LotState := LotState.ofList [(1, (2, 2))]
/-- [t/140-stamp_lottery.cpp 53-54] -/
def lot2 : LotState := (lot1.append 2 (1, 1)).append 3 (4, 4)
example : (lot1.minSize, lot1.maxSize) = (.ok 3, .ok 3) := by decide +kernel
example : (lot2.minSize, lot2.maxSize) = (.ok 2, .ok 5) := by decide +kernel
example : (run (lotNode false lot2) 20 0 [1, 63, 64, 255, 1]).1 = .ok (str "16447") := by
  decide +kernel
example : (run (lotNode false lot2) 20 0 [255, 63, 64, 255, 1]).1 = .ok (str "33505343") := by
  decide +kernel
example : (run (lotNode false lot2) 20 0 [128, 63, 64, 255, 1]).1 = .ok (str "63") := by
  decide +kernel
/-- [t/140-stamp_lottery.cpp 97] -/
def lot3 : LotState := LotState.ofList [(1, (2, 2)), (4, (8, 8)), (2, (1, 1))]
example : (run (lotNode false lot3) 20 0 [1, 63]).1 = .ok (str "63") := by decide +kernel
/-- [t/140-stamp_lottery.cpp, tests 9 and 10] -/
def lot4 : LotState := LotState.ofList [(1, (2, 2)), (2, (1, 1)), (4, (8, 8))]
example : (run (lotNode true lot4) 20 0 [1, 63, 64, 255, 1, 63, 64, 255, 1]).1 =
    .ok (str "143904352459767871") := by decide +kernel
example : (run (lotNode true lot4) 20 0 [255, 63, 64, 255, 1, 63, 64, 255]).1 = .ok (str "63") := by
  decide +kernel

/-! ## t/150: text [t/150-stamp_text.cpp, tests 3 to 5] -/
def textG : Graph
  | 0 => some (.text 1)
  | 1 => some .latin1
  | 2 => some (.text 3)
  | 3 => some (.dict lcAlphaSmall)
  | _ => none
example : (run textG 60 0
    (str "dad\x00mam\x00granddad\x00grandmam\x00brother\x00sister")).1 =
    .ok (str "d dad gra n dmam broth er siste") := by decide +kernel
example : (run textG 60 2 (str "abcdefABCDEF012345")).1 =
    .ok (str "gleam godfather graffiti greened grouping gunshots dismally dissented divested doorstep dread drunks convertors corpulent counterparts cranking crippled crusades") := by
  decide +kernel

/-! ## t/300: galleys [t/300-galley.cpp 36] -/
def longSample : Bytes := str "z1234567*89abcde&fghijklmnopqrstuvwxyzAB%CDEFGHIJKLMNOPQRSTUVWXYZ!"
/-- [the first 25 bytes of the sample of t/300-galley.cpp 36] -/
def midSample : Bytes := str "z1234567*89abcde&fghijklm"
/-- test 1-4: stamp of two bytes. -/
example : (vecSplit (β := ABlob) 20 2 2 (str "1234567")) = (.ok [str "12", str "34", str "56"], str "7") := by
  decide +kernel
/-- tests 5-9: unbounded stamp of at least two bytes; pieces of 12 or 13, 14, 14, 14 bytes. -/
example : ((vecSplit (β := ABlob) 20 2 (-1) longSample).1) =
    .ok [str "9abcde&fghijk", str "lmnopqrstuvwxy", str "zAB%CDEFGHIJKL", str "MNOPQRSTUVWXYZ"] := by
  decide +kernel
/-- tests 15-19: variated stamp, 2 to 8 bytes. -/
example : ((vecSplit (β := ABlob) 20 2 8 midSample).1) =
    .ok [str "234", str "7*8", str "bcde", str "ghij"] := by decide +kernel
/-- tests 20-23: set of two fixed stamps. -/
example : ((setSplit (β := ABlob) [(2, 2), (2, 2)] midSample).1) = .ok [str "z1", str "23"] := by
  decide +kernel
/-- tests 26-31: two variated stamps. -/
example : ((setSplit (β := ABlob) [(2, 8), (2, 8)] midSample)) =
    (.ok [str "456", str "7*8"], str "9abcde&fghijklm") := by decide +kernel
example : (setMinSize [(2, 8), (2, 8)], setMaxSize [(2, 8), (2, 8)] 0) = (.ok 8, .ok 20) := by
  decide +kernel
/-- tests 32-37: two unbounded stamps. -/
example : ((setSplit (β := ABlob) [(2, -1), (2, -1)] midSample)) =
    (.ok [str "4567*89abc", str "de&fghijklm"], []) := by decide +kernel
/-- tests 38-47: mixed. -/
example : ((setSplit (β := ABlob) [(2, -1), (2, 8), (2, 8), (2, 2), (2, -1), (2, 2)] longSample)) =
    (.ok [str "9abcde&fghijklmnopqrst", str "uvw", str "xyzA", str "B%",
      str "CDEFGHIJKLMNOPQRSTUVWXY", str "Z!"], []) := by decide +kernel
/-- tests 48-54: one unbounded stamp needs no oracle. -/
example : ((setSplit (β := ABlob) [(2, 2), (2, -1), (2, 2)] longSample)).1 =
    .ok [str "z1", (longSample.drop 2).take 62, str "Z!"] := by decide +kernel
/-- tests 55-64: exactly minSize() bytes. -/
example : ((setSplit (β := ABlob) [(2, -1), (2, 8), (2, 8), (2, 2), (2, -1), (2, 2)]
    (str "ooooooooooz123456789ab"))).1 =
    .ok [str "z1", str "23", str "45", str "67", str "89", str "ab"] := by decide +kernel
/-- tests 65-68: one byte short, blob untouched. -/
example : ((setSplit (β := ABlob) [(2, -1), (2, 8), (2, 8), (2, 2), (2, -1), (2, 2)]
    (str "ooooooooooz123456789a"))) = (.outOfData, str "ooooooooooz123456789a") := by decide +kernel

end BS.Conformance
