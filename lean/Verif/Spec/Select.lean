import Verif.Model.TsSelect
import Verif.Spec.QueryJsonl
/-! What `select` should return. -/
namespace Appendable.Spec

/-- The members of an object. -/
def Members.list : Members → List (Bytes × Doc)
  | .nil => []
  | .cons _ key _ _ v _ rest => (key.value, v) :: rest.list

/-- The value of a member of a record; of several with the same name it is the last. -/
def Rec.member (r : Rec) (k : Bytes) : Option Doc := r.members.list.reverse.lookup k

/-- The client's `JSON.parse` is right on the record: it gives the members of the record, each once, where `val` is the JavaScript value of a JSON
value. -/
def ReadsJson {V : Type} (env : JsEnv V) (val : Doc → V) (r : Rec) : Prop :=
  ∃ row, env.parse r.text = .ok row ∧ (row.map (·.1)).Nodup ∧ ∀ k, row.lookup k = (r.member k).map val

/-- The row is an ordinary object which has exactly the fields of the record that are selected. -/
def Projects {V : Type} (val : Doc → V) (r : Rec) (fields : List Bytes) (row : JsObject V) : Prop :=
  row.proto = none ∧ (row.own.map (·.1)).Nodup ∧ ∀ k, row.own.lookup k = if k ∈ fields then (r.member k).map val else none

/-- The names that every JavaScript object inherits from `Object.prototype`. -/
def inheritedNames : List Bytes :=
  ["constructor".toUTF8.toList, "__proto__".toUTF8.toList, "__defineGetter__".toUTF8.toList, "__defineSetter__".toUTF8.toList,
    "__lookupGetter__".toUTF8.toList, "__lookupSetter__".toUTF8.toList, "hasOwnProperty".toUTF8.toList, "isPrototypeOf".toUTF8.toList,
    "propertyIsEnumerable".toUTF8.toList, "toLocaleString".toUTF8.toList, "toString".toUTF8.toList, "valueOf".toUTF8.toList]

end Appendable.Spec
