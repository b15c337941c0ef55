import Verif.Spec.Arith

/-!
# Specification: structures of arithmetic members
-/

namespace BS

/-- The bytes are those of the members' values, one after the other. -/
inductive RecordRepr : List ArithTy → List AVal → Bytes → Prop where
  | nil : RecordRepr [] [] []
  | cons {t : ArithTy} {ts : List ArithTy} {v : AVal} {vs : List AVal} {p r : Bytes} (hp : p.length = sizeofT t)
      (h : HasRepr t v p) (hr : RecordRepr ts vs r) : RecordRepr (t :: ts) (v :: vs) (p ++ r)

/-- Bytes the members take. -/
def structSize (ts : List ArithTy) : Nat := (ts.map sizeofT).sum

/-- The text is the numeral of the value. -/
def ShowsInt (v : AVal) (x : Bytes) : Prop := ∃ i, v = .int i ∧ DenotesInt x i

end BS
