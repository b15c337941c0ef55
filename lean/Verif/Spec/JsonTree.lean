import Verif.Spec.Json
import Verif.DictData

/-!
# Specification: JSON values as trees, their texts, and which of them `StampJSON` can make
-/

namespace BS

/-- A JSON value made of what `StampJSON` has stamps for. A double is given by sign, exponent and
fraction field. -/
inductive JTree where
  | int (i : Int)
  | dbl (s e m : Nat)
  | word (w : Bytes)
  | arr (l : List JTree)
  | obj (l : List (Bytes × JTree))

/-- An array or an object. -/
def JTree.container : JTree → Bool
  | .arr _ => true
  | .obj _ => true
  | _ => false

/-- A name in quotes. -/
def quoted (w : Bytes) : Bytes := 34 :: (w ++ [34])

/-- The text `s` spells the value: integers and finite doubles exactly, elements and members separated
by a comma and a space. -/
inductive JText : JTree → Bytes → Prop where
  | int {i s} (h : DenotesInt s i) : JText (.int i) s
  | dbl {a e m s} (he : e < 2047) (h : DenotesQ s (doubleValue a e m)) : JText (.dbl a e m) s
  | inf {a m s} (h : s = (if a = 1 then [45] else []) ++ (if m = 0 then str "inf" else str "nan")) :
      JText (.dbl a 2047 m) s
  | word {w} : JText (.word w) (quoted w)
  | arr {l : List (JTree × Bytes)} (h : ∀ p ∈ l, JText p.1 p.2) :
      JText (.arr (l.map Prod.fst)) (91 :: ((str ", ").intercalate (l.map Prod.snd) ++ [93]))
  | obj {l : List (Bytes × JTree × Bytes)} (h : ∀ p ∈ l, JText p.2.1 p.2.2) :
      JText (.obj (l.map fun p => (p.1, p.2.1)))
        (123 :: ((str ", ").intercalate (l.map fun p => quoted p.1 ++ str ": " ++ p.2.2) ++ [125]))

/-- The values in question and the number of bytes each needs: 64-bit integers, doubles, words of the
dictionary; arrays; objects whose names are words of the dictionary and **whose values are arrays or
objects**; at most 65535 elements or members. With `full`, arrays and objects are not empty. -/
inductive JRoom (full : Prop) : JTree → Nat → Prop where
  | int {i} (h1 : -2 ^ 63 ≤ i) (h2 : i < 2 ^ 63) : JRoom full (.int i) 10
  | dbl {s e m} (hs : s < 2) (he : e < 2048) (hm : m < 2 ^ 52) : JRoom full (.dbl s e m) 10
  | word {w} (h : w ∈ lcAlphaSmall) : JRoom full (.word w) 10
  | arr {l : List (JTree × Nat)} (hn : full → l ≠ []) (hk : l.length ≤ 65535) (h : ∀ p ∈ l, JRoom full p.1 p.2) :
      JRoom full (.arr (l.map Prod.fst)) (4 + (l.map fun p => 2 + p.2).sum)
  | obj {l : List (Bytes × JTree × Nat)} (hn : full → l ≠ []) (hk : l.length ≤ 65535) (hw : ∀ p ∈ l, p.1 ∈ lcAlphaSmall)
      (hc : ∀ p ∈ l, p.2.1.container = true) (h : ∀ p ∈ l, JRoom full p.2.1 p.2.2) :
      JRoom full (.obj (l.map fun p => (p.1, p.2.1))) (4 + (l.map fun p => 2 + max 18 (1 + p.2.2)).sum)

end BS
