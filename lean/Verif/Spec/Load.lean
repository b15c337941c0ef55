import Verif.Load
import Verif.Spec.Stamp

/-!
# Specification vocabulary for loading and unloading
-/

namespace BS

/-- `Load` of object `i` on blob `b`, with kept blobs `bt`, ends with outcome `o`, kept blobs `bt'` and
blob `b'`. -/
def Loads (G : Graph) (fl : Flags) (bt : Bitten Blob) (i : Id) (b : Blob) (o : Out Unit) (bt' : Bitten Blob)
    (b' : Blob) : Prop :=
  ∃ N, ∀ n ≥ N, load G n i (bt, (fl, b)) = (o, (bt', (fl, b')))

/-- `UnloadStr()` of object `i` with kept blobs `bt` ends with outcome `o` and kept blobs `bt'`. -/
def Unloads (G : Graph) (fl : Flags) (bt : Bitten Blob) (i : Id) (o : Out Bytes) (bt' : Bitten Blob) : Prop :=
  ∃ N, ∀ n ≥ N, unloadStr G n i (bt, fl) = (o, (bt', fl))

/-- `LoadAll` of a set over the stamps `cs`. -/
def LoadsAll (G : Graph) (fl : Flags) (bt : Bitten Blob) (cs : List Id) (b : Blob) (o : Out Unit)
    (bt' : Bitten Blob) (b' : Blob) : Prop :=
  ∃ N, ∀ n ≥ N, loadAll G n cs (bt, (fl, b)) = (o, (bt', (fl, b')))

/-- Object `i` keeps a blob that holds `p`. -/
def Keeps (bt : Bitten Blob) (i : Id) (p : Bytes) : Prop := ∃ c, bt i = some c ∧ Reachable c ∧ Holds c p

end BS
