import Verif.Graph

/-!
# The demo program console_demo/pulp2json.cpp
-/

namespace BS

/-- What the program meets when it runs: the number of its arguments (with its own name), whether the
file can be opened (lines 46-51; `std::fstream` opens for reading and writing), what `stat` says about its size
(lines 29-34; `none` if the call fails), and the bytes that are there to be read. [console_demo/pulp2json.cpp 29-51] -/
structure PulpRun where
  argc : Nat
  opened : Bool
  statSize : Option Nat
  content : Bytes

/-- How a program ends. [console_demo/pulp2json.cpp 36-64] -/
inductive ProgEnd where
  /-- exit status and standard output -/
  | exit (code : Nat) (out : Bytes)
  /-- `std::terminate`, after an exception that nobody catches -/
  | terminate
  /-- undefined behaviour -/
  | ub (r : UB)
  /-- `abort()` or `exit(1)` inside the library -/
  | abort
  /-- the step budget of the model ran out -/
  | fuel
deriving DecidableEq

/-- Lines 54-55: a buffer of zeros of the size that `stat` told, overwritten with what is read.
[console_demo/pulp2json.cpp] -/
def pulpBuffer (size : Nat) (content : Bytes) : Bytes :=
  content.take size ++ List.replicate (size - content.length) 0

/-- `printf("%s\n", s.c_str())` (line 62): the characters before the first NUL, and a newline. Simplification:
writing does not fail. [console_demo/pulp2json.cpp] -/
def printLine (s : Bytes) : Bytes := s.takeWhile (· ≠ 0) ++ [10]

/-- `main` (lines 36-64). The first argument is the step budget. `std::vector<char> buffer(-1, 0)` throws
`std::length_error`; `buffer[0]` of an empty vector is undefined. Simplification: memory does not run out.
[console_demo/pulp2json.cpp] -/
def pulp (n : Nat) (r : PulpRun) : ProgEnd :=
  if r.argc < 2 then .exit 1 []
  else if !r.opened then .exit 1 []
  else match r.statSize with
    | none => .terminate
    | some 0 => .ub .oob
    | some (k + 1) =>
      match (extract jsonGraph n 0 (Flags.init, Blob.mk' (.at (pulpBuffer (k + 1) r.content) 0) (k + 1))).1 with
      | .ok s => .exit 0 (printLine s)
      | .outOfData => .terminate
      | .ub u => .ub u
      | .abort => .abort
      | .fuel => .fuel

end BS
