import Verif.Hexdump
import Verif.Spec.Blob

/-!
# What a hex dump should look like
-/

namespace BS

/-- `Dump()` prints `text` and returns. -/
def Dumps (b : Blob) (text : Bytes) : Prop := ∃ N, ∀ n ≥ N, ∀ out, b.dump n out = (.ok (), out ++ text)

/-- `Dump()` has undefined behaviour. -/
def DumpUndefined (b : Blob) : Prop := ∃ N r, ∀ n ≥ N, ∀ out, (b.dump n out).1 = .ub r

/-- `Dump()` never returns. -/
def DumpDiverges (b : Blob) : Prop := ∀ n out, (b.dump n out).1 = .fuel

def hexTable : Bytes := [48, 49, 50, 51, 52, 53, 54, 55, 56, 57, 65, 66, 67, 68, 69, 70]

/-- A digit of base 16. -/
def hexChar (d : Nat) : UInt8 := hexTable.getD d 0

def hexPair (x : UInt8) : Bytes := [hexChar (x.toNat / 16), hexChar (x.toNat % 16)]

/-- Two digits per byte, a blank between groups of four bytes. -/
def hexColumn : Bytes → Bytes
  | a :: b :: c :: d :: e :: r => hexPair a ++ hexPair b ++ hexPair c ++ hexPair d ++ [32] ++ hexColumn (e :: r)
  | a :: r => hexPair a ++ hexColumn r
  | [] => []

/-- A byte in the text column. -/
def shownAs (x : UInt8) : UInt8 := if 32 ≤ x.toNat ∧ x.toNat ≤ 126 then x else 46

/-- The address in eight digits. -/
def addrText (a : Nat) : Bytes := (List.range 8).map fun i => hexChar (a / 16 ^ (7 - i) % 16)

/-- A line: " >", the hex digits from column 2 on, two tabs, the text from column 39 on, the address from
column 56 on. -/
def dumpLine (addr : Nat) (row : Bytes) : Bytes :=
  [32, 62] ++ hexColumn row ++ [9, 9] ++ List.replicate (35 - (hexColumn row).length) 32 ++ row.map shownAs ++
    List.replicate (17 - row.length) 32 ++ addrText addr

/-- Sixteen bytes per line. -/
def dumpText (bs : Bytes) : Bytes :=
  ((List.range ((bs.length + 15) / 16)).map fun k => dumpLine (16 * k) ((bs.drop (16 * k)).take 16) ++ [10]).flatten

end BS
