import Verif.Model.Encoding
import Verif.Model.Res
/-! src/db/query-lang.ts: `handleSelect`. -/
namespace Appendable

/-- A JavaScript object: its own properties, and its prototype if that is not `Object.prototype`.  Simplification: the order of properties with
integer names, which JavaScript puts first, is not modelled.  Strings are kept as UTF-8. -/
structure JsObject (V : Type) where
  own : List (Bytes × V)
  proto : Option V
  deriving DecidableEq, Repr

/-- What `handleSelect` uses of JavaScript: `JSON.parse` (own properties; simplification: rows are objects), the values that objects inherit from
`Object.prototype`, and which values are objects. -/
structure JsEnv (V : Type) where
  parse : Bytes → Res (List (Bytes × V))
  inherited : Bytes → V
  isObject : V → Bool

/-- The property names of `Object.prototype` (ECMAScript, 20.1.3 and B.2.2): constructor, __proto__, __defineGetter__, __defineSetter__,
__lookupGetter__, __lookupSetter__, hasOwnProperty, isPrototypeOf, propertyIsEnumerable, toLocaleString, toString, valueOf. -/
def objectPrototype : List Bytes :=
  ["constructor", "__proto__", "__defineGetter__", "__defineSetter__", "__lookupGetter__", "__lookupSetter__", "hasOwnProperty", "isPrototypeOf",
    "propertyIsEnumerable", "toLocaleString", "toString", "valueOf"].map (fun s => s.toUTF8.toList)

/-- `__proto__` -/
def protoName : Bytes := [95, 95, 112, 114, 111, 116, 111, 95, 95]

/-- Assignment to an own property. -/
def setOwn {V : Type} : List (Bytes × V) → Bytes → V → List (Bytes × V)
  | [], k, v => [(k, v)]
  | (a, x) :: l, k, v => if a = k then (a, v) :: l else (a, x) :: setOwn l k v

/-- `acc[field] = v`: the inherited setter of `__proto__` changes the prototype if `v` is an object and does nothing otherwise. -/
def JsObject.assign {V : Type} (env : JsEnv V) (acc : JsObject V) (field : Bytes) (v : V) : JsObject V :=
  if field = protoName then (if env.isObject v then { acc with proto := some v } else acc)
  else { acc with own := setOwn acc.own field v }

/-- src/db/query-lang.ts:82-90: one step of `reduce`; `field in jData` also finds inherited properties. -/
def selectStep {V : Type} (env : JsEnv V) (row : List (Bytes × V)) (acc : JsObject V) (field : Bytes) : JsObject V :=
  match row.lookup field with
  | some v => acc.assign env field v
  | none => if field ∈ objectPrototype then acc.assign env field (env.inherited field) else acc

/-- src/db/query-lang.ts:79-94 `handleSelect` -/
def handleSelect {V : Type} (env : JsEnv V) (data : Bytes) (select : Option (List Bytes)) : Res (JsObject V) := do
  let row ← env.parse data
  match select with
  | none => return ⟨row, none⟩
  | some [] => return ⟨row, none⟩
  | some fs => return fs.foldl (selectStep env row) ⟨[], none⟩

end Appendable
