import Verif.Model.TsValidation
/-! What a well-typed query is. -/
namespace Appendable.Spec

/-- The field `name` and its types: the first header with this name. -/
def FieldTypes (headers : List JsHeader) (name : Bytes) (types : List Nat) : Prop :=
  ∃ before after, headers = before ++ (name, types) :: after ∧ ∀ h ∈ before, h.1 ≠ name

/-- The field types that can hold a value: null is 7, numbers are 1, 2 or 3, strings 0, booleans 6. -/
def valueTypes : JsVal → List Nat
  | .null => [7]
  | .num _ => [1, 2, 3]
  | .str _ => [0]
  | .bool _ => [6]
  | .undefined => []
  | .other => []

/-- A where clause with a known operation, on a known field, with a value of a type that the field has. -/
def GoodWhere (headers : List JsHeader) (w : JsWhere) : Prop :=
  w.operation ∈ [[60], [60, 61], [61, 61], [62, 61], [62]] ∧
  ∃ name types, w.key = .str name ∧ FieldTypes headers name types ∧ ∃ t ∈ valueTypes w.value, t ∈ types

/-- An `orderBy` clause in a known direction, on the key `key`. -/
def GoodOrder (key : JsStr) (o : JsOrder) : Prop :=
  (o.direction = [65, 83, 67] ∨ o.direction = [68, 69, 83, 67]) ∧ o.key = key

/-- A `select` entry that is a field name. -/
def GoodSelect (headers : List JsHeader) (s : JsStr) : Prop := ∃ name types, s = .str name ∧ (name, types) ∈ headers

/-- A search on a field with indexes of all three gram lengths, with rational gram lengths 1 ≤ min ≤ max ≤ 3. -/
def GoodSearch (headers : List JsHeader) (s : JsSearch) : Prop :=
  (∃ types, FieldTypes headers s.key types ∧ 8 ∈ types ∧ 9 ∈ types ∧ 10 ∈ types) ∧
  (s.config = none ∨ ∃ lo hi : Rat, s.config = some (.fin lo, .fin hi) ∧ 1 ≤ lo ∧ lo ≤ hi ∧ hi ≤ 3)

/-- A well-typed query: a search part that is good, if there is one; at least one where clause; all of them good; all
`orderBy` clauses (at least one, if given) on the key of the first where clause; all `select` entries (at least one, if
given) fields. -/
def GoodQuery (headers : List JsHeader) (q : JsQuery) : Prop :=
  (∀ s, q.search = some s → GoodSearch headers s) ∧
  ((∃ w ws, q.where_ = .arr (w :: ws) ∧ (∀ x ∈ w :: ws, GoodWhere headers x) ∧
      (q.orderBy = .absent ∨ ∃ o os, q.orderBy = .arr (o :: os) ∧ ∀ x ∈ o :: os, GoodOrder w.key x)) ∨
    (q.where_ = .absent ∧ q.orderBy = .absent)) ∧
  (q.select = .absent ∨ ∃ s ss, q.select = .arr (s :: ss) ∧ ∀ x ∈ s :: ss, GoodSelect headers x)

end Appendable.Spec
