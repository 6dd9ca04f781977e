import Verif.Spec.Csv
/-! What a line of a CSV file says (RFC 4180, without line breaks inside of fields). -/
namespace Appendable.Spec
open Appendable

/-- Every quote written twice. -/
def doubled (v : Bytes) : Bytes := v.flatMap fun b => if b = 34 then [34, 34] else [b]

/-- `text` is a way to write the field `v`: as it is, if there is no quote and no comma in it, or in quotes. -/
inductive WritesField : Bytes → Bytes → Prop
  | plain {v : Bytes} (hq : (34 : UInt8) ∉ v) (hc : (44 : UInt8) ∉ v) : WritesField v v
  | quoted (v : Bytes) : WritesField (34 :: (doubled v ++ [34])) v

/-- `text` is a way to write the fields, with commas between them. -/
inductive WritesFields : Bytes → List Bytes → Prop
  | one {t v : Bytes} (h : WritesField t v) : WritesFields t [v]
  | more {t v r : Bytes} {vs : List Bytes} (h : WritesField t v) (hr : WritesFields r vs) : WritesFields (t ++ 44 :: r) (v :: vs)

/-- `line` (without its line feed) is a record with the fields `fs`: not empty, and up to one carriage return at its end. -/
def WritesRecord (line : Bytes) (fs : List Bytes) : Prop :=
  ∃ r, r ≠ [] ∧ WritesFields r fs ∧ (line = r ++ [13] ∨ (line = r ∧ ∀ x, r ≠ x ++ [13]))

end Appendable.Spec
