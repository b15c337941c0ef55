import Verif.Spec.Numeral
import Verif.Spec.Arith

/-!
# Specification: JSON texts (RFC 8259), as bytes in UTF-8
-/

namespace BS

/-- Insignificant whitespace. -/
def JsonWs (w : Bytes) : Prop := ∀ c ∈ w, c = 32 ∨ c = 9 ∨ c = 10 ∨ c = 13

/-- A hexadecimal digit. -/
def IsHex (c : UInt8) : Prop :=
  IsDigit c ∨ (65 ≤ c.toNat ∧ c.toNat ≤ 70) ∨ (97 ≤ c.toNat ∧ c.toNat ≤ 102)

/-- The inside of a string. -/
inductive JsonChars : Bytes → Prop where
  | nil : JsonChars []
  | plain {cs} (ch : Char) (h1 : 32 ≤ ch.toNat) (h2 : ch ≠ '"') (h3 : ch ≠ '\\') (h : JsonChars cs) :
      JsonChars (String.utf8EncodeChar ch ++ cs)
  | esc {cs} {c : UInt8} (hc : c ∈ str "\"\\/bfnrt") (h : JsonChars cs) : JsonChars (92 :: c :: cs)
  | uni {cs} {a b c d : UInt8} (ha : IsHex a) (hb : IsHex b) (hc : IsHex c) (hd : IsHex d) (h : JsonChars cs) :
      JsonChars (92 :: 117 :: a :: b :: c :: d :: cs)

/-- A string with its quotes. -/
def JsonString (s : Bytes) : Prop := ∃ cs, JsonChars cs ∧ s = 34 :: (cs ++ [34])

/-- The fraction of a number. -/
def JsonFrac (s : Bytes) : Prop := s = [] ∨ ∃ ds, ds ≠ [] ∧ (∀ c ∈ ds, IsDigit c) ∧ s = 46 :: ds

/-- The exponent of a number. -/
def JsonExp (s : Bytes) : Prop :=
  s = [] ∨ ∃ e sg ds, (e = 101 ∨ e = 69) ∧ (sg = [] ∨ sg = [43] ∨ sg = [45]) ∧ ds ≠ [] ∧
    (∀ c ∈ ds, IsDigit c) ∧ s = e :: (sg ++ ds)

/-- A number. -/
def JsonNumber (s : Bytes) : Prop :=
  ∃ sg ip fp ep, (sg = [] ∨ sg = [45]) ∧ IsNumeral ip ∧ JsonFrac fp ∧ JsonExp ep ∧ s = sg ++ ip ++ fp ++ ep

/-- A member of an object: whitespace, name, whitespace, colon, whitespace, value, whitespace. -/
structure JsonMember where
  w1 : Bytes
  name : Bytes
  w2 : Bytes
  w3 : Bytes
  value : Bytes
  w4 : Bytes

/-- The text of a member. -/
def JsonMember.text (m : JsonMember) : Bytes := m.w1 ++ m.name ++ m.w2 ++ [58] ++ m.w3 ++ m.value ++ m.w4

/-- A value. With `lax`, also the spellings of the non-finite doubles, which are not JSON. -/
inductive JsonValue (lax : Bool) : Bytes → Prop where
  | lit {s} (h : s = str "true" ∨ s = str "false" ∨ s = str "null") : JsonValue lax s
  | num {s} (h : JsonNumber s) : JsonValue lax s
  | str {s} (h : JsonString s) : JsonValue lax s
  | nonfinite {s} (hl : lax = true) (h : s ∈ [BS.str "inf", BS.str "-inf", BS.str "nan", BS.str "-nan"]) : JsonValue lax s
  | emptyArray {w} (h : JsonWs w) : JsonValue lax (91 :: (w ++ [93]))
  | array {l : List (Bytes × Bytes × Bytes)} (hn : l ≠ []) (hw : ∀ t ∈ l, JsonWs t.1 ∧ JsonWs t.2.2)
      (hv : ∀ t ∈ l, JsonValue lax t.2.1) :
      JsonValue lax (91 :: ([44].intercalate (l.map fun t => t.1 ++ t.2.1 ++ t.2.2) ++ [93]))
  | emptyObject {w} (h : JsonWs w) : JsonValue lax (123 :: (w ++ [125]))
  | object {l : List JsonMember} (hn : l ≠ [])
      (hw : ∀ m ∈ l, JsonWs m.w1 ∧ JsonWs m.w2 ∧ JsonWs m.w3 ∧ JsonWs m.w4) (hs : ∀ m ∈ l, JsonString m.name)
      (hv : ∀ m ∈ l, JsonValue lax m.value) :
      JsonValue lax (123 :: ([44].intercalate (l.map JsonMember.text) ++ [125]))

/-- A JSON text. -/
def JsonText (s : Bytes) : Prop := ∃ w v w', JsonWs w ∧ JsonWs w' ∧ JsonValue false v ∧ s = w ++ v ++ w'

/-- A JSON text in which the non-finite doubles may be spelt as `printf` does. -/
def LaxJsonText (s : Bytes) : Prop := ∃ w v w', JsonWs w ∧ JsonWs w' ∧ JsonValue true v ∧ s = w ++ v ++ w'

/-- Eight bytes that are not an infinite `double` or a NaN. -/
def FiniteDouble (w : Bytes) : Prop := littleEndian w / 2 ^ 52 % 2 ^ 11 ≠ 2047

/-- No eight bytes in a row are an infinite `double` or a NaN. -/
def FiniteWindows (bs : Bytes) : Prop := ∀ w, w <:+: bs → w.length = 8 → FiniteDouble w

end BS
