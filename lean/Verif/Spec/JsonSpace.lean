import Verif.Spec.JsonTree

/-!
# Specification: how much room a JSON value is given in large blobs
-/

namespace BS

/-- Values and a number of bytes for each. A scalar has 10; an array 4 or, if it has more than one element, 5,
two more for every element, and at least 17; an object likewise, with one more for every name. **The elements of
an array or object that has several are below 32 KiB each**; nothing is empty; the members of objects are arrays or
objects. -/
inductive JSpace : JTree → Nat → Prop where
  | int {i} (h1 : -2 ^ 63 ≤ i) (h2 : i < 2 ^ 63) : JSpace (.int i) 10
  | dbl {s e m} (hs : s < 2) (he : e < 2048) (hm : m < 2 ^ 52) : JSpace (.dbl s e m) 10
  | word {w} (h : w ∈ lcAlphaSmall) : JSpace (.word w) 10
  | arr {l : List (JTree × Nat)} (hn : l ≠ []) (hs : l.length = 1 ∨ ∀ p ∈ l, p.2 ≤ 32768)
      (h : ∀ p ∈ l, JSpace p.1 p.2) :
      JSpace (.arr (l.map Prod.fst)) (max 17 ((if l.length = 1 then 4 else 5) + (l.map fun p => 2 + p.2).sum))
  | obj {l : List (Bytes × JTree × Nat)} (hn : l ≠ []) (hs : l.length = 1 ∨ ∀ p ∈ l, p.2.2 ≤ 32768)
      (hw : ∀ p ∈ l, p.1 ∈ lcAlphaSmall) (hc : ∀ p ∈ l, p.2.1.container = true) (h : ∀ p ∈ l, JSpace p.2.1 p.2.2) :
      JSpace (.obj (l.map fun p => (p.1, p.2.1)))
        ((if l.length = 1 then 4 else 5) + (l.map fun p => 3 + p.2.2).sum)

end BS
