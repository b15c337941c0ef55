import Verif.Load
import Verif.Bin
import Verif.Owner

/-!
# More of the repository's tests and examples, run on the model by the kernel

t/001, t/050 and t/200 check blobs, owned buffers and dictionaries; the expectations of the examples are what the
programs print. No theorem depends on them.
-/

namespace BS.Conformance
open BS

/-! ## t/001: blobs -/

/-- The blob over a C string without its NUL. [examples/example01.cpp and the tests under t] -/
def cBlob (s : Bytes) : Blob := Blob.mk' (.at (s ++ [0]) 0) s.length

/-- t/001 33: 62 ASCII characters, eight Cyrillic letters, a full stop and three underscores. -/
def myData : Bytes := str "1234567890ABCDEFGHIGKLMNOPQRSTUVWXYZabcdefghigklmnopqrstuvwxyz" ++
  [208, 144, 208, 145, 208, 146, 208, 147, 208, 148, 208, 184, 209, 130, 208, 180] ++ str ".___"

/-- tests 1-2. -/
example : (cBlob myData).dataDup = .ok (myData, myData.length) := by decide +kernel
/-- tests 3-6. -/
example : ((Blob.chop 3 (cBlob (str "123456"))).2.dataDup, (Blob.chop 3 (cBlob (str "123456"))).1.bind Blob.dataDup) =
    (.ok (str "456", 3), .ok (str "123", 3)) := by decide +kernel
/-- test 7. -/
example : (Blob.chop 99999 (cBlob myData)).1 = .outOfData := by decide +kernel

/-! ## t/050: owned buffers -/

/-- tests 1-3: a buffer of five `long`s. -/
example : (runOwn [.newSized 0 40] Mem.empty).2.objs 0 = some (.sized (some 0) 40) ∧
    (runOwn [.newSized 0 40, .destroy 0] Mem.empty).2.freed = [0] := by decide +kernel
/-- tests 4-9: five `short int`s at offset 18, handed over to a `sized_ptr`. -/
example : ∃ m, runOwn [.newVlato 0 18 5 2, .convert 1 0] Mem.empty = (.ok (), m) ∧
    m.objs 0 = some (.vlato none 18 5 2) ∧ m.objs 1 = some (.sized (some 0) (18 + 2 * 5)) ∧ m.blocks = [18 + 2 * 5] :=
  ⟨_, rfl, by decide +kernel, by decide +kernel, by decide +kernel⟩

/-! ## t/200: dictionaries -/

example : ([str "one", str "two", str "three"].length, vecGet [str "one", str "two", str "three"] 1) = (3, .ok (str "two")) := by
  decide +kernel

/-! ## Examples -/

/-- examples/example01.cpp: two bytes of "abcde" as a `short int`. -/
example : (extractArithStr .i16 (cBlob (str "abcde"))).1 = .ok (str "25185") ∧
    (extractArithStr .i16 (cBlob (str "abcde"))).2.asString = .ok (str "cde") := by decide +kernel

/-- [examples/example01.cpp] -/
def shortGraph : Graph
  | 0 => some (.arith .i16)
  | _ => none

/-- examples/example01a.cpp: the same through `Load` and `UnloadStr`. -/
example : (load (β := ABlob) shortGraph 5 0 (fun _ => none, (Flags.init, str "abcde"))).2.2.2 = str "cde" ∧
    (unloadStr (β := ABlob) shortGraph 5 0
      ((load shortGraph 5 0 (fun _ => none, (Flags.init, str "abcde"))).2.1, Flags.init)).1 = .ok (str "25185") := by
  decide +kernel

/-- examples/example02.cpp: string, binary, value and pointer from one blob. -/
example : (extractArithStr (β := ABlob) .i16 (str "abcdefjhi")).1 = .ok (str "25185") ∧
    (extractArithBin (β := ABlob) .i16 (str "cdefjhi")).1 = .ok (str "cd") ∧
    (extractValue (β := ABlob) .i16 (str "efjhi")).1 = .ok (.int 26213) ∧
    (extractPValue (β := ABlob) 0 .i16 (Mem.empty, str "jhi")).1 = .ok (.int 26730) := by decide +kernel

/-- Four stamps. [examples/example02a.cpp 12-15] -/
def fourShorts : Graph := fun i => if i < 4 then some (.arith .i16) else none

/-- examples/example02a.cpp 17-20: each of the four stamps loaded, one after the other, from one blob. -/
def loadFour : M (Bitten ABlob × (Flags × ABlob)) Unit := do
  load fourShorts 5 0
  load fourShorts 5 1
  load fourShorts 5 2
  load fourShorts 5 3

/-- examples/example02a.cpp: the pieces are taken when the stamps are loaded, and each is unloaded in a way of its own.
What `UnloadPValue` points to is the value of the last. -/
example : (loadFour (fun _ => none, (Flags.init, str "abcdefjhi"))).1 = .ok () ∧
    (loadFour (fun _ => none, (Flags.init, str "abcdefjhi"))).2.2.2 = str "i" ∧
    (unloadStr fourShorts 5 0 ((loadFour (fun _ => none, (Flags.init, str "abcdefjhi"))).2.1, Flags.init)).1 =
      .ok (str "25185") ∧
    (unload (liftB (extractArithBin .i16)) 1 ((loadFour (fun _ => none, (Flags.init, str "abcdefjhi"))).2.1, Flags.init)).1 =
      .ok (str "cd") ∧
    (unload (liftB (extractValue .i16)) 2 ((loadFour (fun _ => none, (Flags.init, str "abcdefjhi"))).2.1, Flags.init)).1 =
      .ok (.int 26213) ∧
    (unload (liftB (extractValue .i16)) 3 ((loadFour (fun _ => none, (Flags.init, str "abcdefjhi"))).2.1, Flags.init)).1 =
      .ok (.int 26730) := by decide +kernel

/-- examples/example05.cpp: points of three `short int`s, in a list that prints each between quotes. -/
def pointGraph : Graph
  | 0 => some (.vec 1 fun xs => (xs.map fun x => [39] ++ x ++ [39, 10]).flatten)
  | 1 => some (.seq [2, 2, 2] (fun xs => str "(" ++ xs.getD 0 [] ++ str ", " ++ xs.getD 1 [] ++ str ", " ++ xs.getD 2 [] ++
      str ")") false)
  | 2 => some (.arith .i16)
  | _ => none

example : (sizeQ pointGraph 5 .min 1 Flags.init).1 = .ok 6 ∧ (sizeQ pointGraph 5 .max 1 Flags.init).1 = .ok 6 := by
  decide +kernel
example : (extract (β := ABlob) pointGraph 20 0 (Flags.init, str "abcdefabcdefABCDEF012345")).1 = .ok (str
    "'(25185, 25699, 26213)'\n'(25185, 25699, 26213)'\n'(16961, 17475, 17989)'\n'(12592, 13106, 13620)'\n") := by
  decide +kernel

end BS.Conformance
