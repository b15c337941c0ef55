import Verif.Shared
import Verif.Spec.Load

/-!
# Specification vocabulary for blobs and the client's memory
-/

namespace BS

/-- The bytes from `lo` up to `hi` of a buffer. -/
def bytesAt (buf : Bytes) (lo hi : Nat) : Bytes := (buf.take hi).drop lo

/-- The blob is about the bytes from `lo` up to `hi` of buffer `k`. -/
def Spans (v : View) (k lo hi : Nat) : Prop :=
  v.buf = k ∧ v.off + v.beg = lo ∧ lo ≤ hi ∧ v.fin < 2 ^ 64 ∧ v.off + (v.fin + 1) % 2 ^ 64 = hi

/-- `Load` of object `i` ends with outcome `o` in `w'`. -/
def WLoads (G : Graph) (i : Id) (w : World) (o : Out Unit) (w' : World) : Prop :=
  ∃ N, ∀ n ≥ N, w.load G n i = (o, w')

/-- `UnloadStr()` of object `i` ends with outcome `o`. -/
def WUnloads (G : Graph) (i : Id) (w : World) (o : Out Bytes) : Prop :=
  ∃ N, ∀ n ≥ N, (w.unload G n i).1 = o

/-- `ExtractStr` of object `i` on the client's blob ends with outcome `o`. -/
def WExtracts (G : Graph) (i : Id) (w : World) (o : Out Bytes) : Prop :=
  ∃ N, ∀ n ≥ N, (w.extract G n i).1 = o

/-- What `ExtractStr` of object `i` does with these bytes, in a blob of their own. -/
def TextOf (G : Graph) (fl : Flags) (i : Id) (bs : Bytes) (o : Out Bytes) : Prop :=
  ∃ N, ∀ n ≥ N, (extract G n i (fl, Blob.mk' (.at bs 0) bs.length)).1 = o

/-- The blob is about some bytes among those from `lo` up to `hi` of buffer `k`. -/
def SpansIn (v : View) (k lo hi : Nat) : Prop := ∃ p q, Spans v k p q ∧ lo ≤ p ∧ q ≤ hi

/-- The client knows its buffers, which have `L k` bytes each: it makes blobs of bytes that are there, and writes without changing a
buffer's length. -/
def ClientCall.Fair (L : Nat → Nat) : ClientCall → Prop
  | .blob k n => n ≤ L k
  | .write k bs => bs.length = L k
  | _ => True

/-- All buffers that are there have the lengths that are known. -/
def Heap.Fits (L : Nat → Nat) (H : Heap) : Prop := ∀ k buf, H k = some buf → buf.length = L k

end BS
