import Verif.Model.TsQuery
/-! src/db/query-builder.ts.  JavaScript arrays are shared by reference, so there is a heap. -/
namespace Appendable

/-- The object `queryObject` of a builder (src/db/query-builder.ts:8-13): references to arrays. -/
structure QueryObj where
  where_ : Nat
  orderBy : Option Nat
  select : Option Nat
  limit : Option Nat
  deriving DecidableEq, Repr, Inhabited

/-- The arrays of the program, by element type, and the `queryObject` of each builder. -/
structure JsHeap where
  clauses : List (List TsWhere)
  orders : List (List (Bytes × TsDir))
  keys : List (List Bytes)
  builders : List QueryObj
  deriving DecidableEq, Repr, Inhabited

namespace JsHeap

/-- `new QueryBuilder(database)` (src/db/query-builder.ts:8-15); the builder is returned as its number. -/
def newBuilder (h : JsHeap) : Nat × JsHeap :=
  (h.builders.length, { h with clauses := h.clauses ++ [[]], builders := h.builders ++ [⟨h.clauses.length, none, none, none⟩] })

/-- The `queryObject` of builder `b`. -/
def obj (h : JsHeap) (b : Nat) : QueryObj := h.builders.getD b default

/-- src/db/query-builder.ts:37-48 `where` -/
def whereCall (b : Nat) (w : TsWhere) (h : JsHeap) : Nat × JsHeap :=
  let (n, h1) := h.newBuilder
  let old := h1.obj b
  let arr := h1.clauses.getD old.where_ [] ++ [w]
  let h2 := { h1 with clauses := h1.clauses ++ [arr] }
  (n, { h2 with builders := h2.builders.set n { old with where_ := h1.clauses.length } })

/-- `this.queryObject.orderBy || []` -/
def orderList (h : JsHeap) (o : QueryObj) : List (Bytes × TsDir) := match o.orderBy with
  | some r => h.orders.getD r []
  | none => []

/-- src/db/query-builder.ts:50-57 `orderBy` -/
def orderByCall (b : Nat) (o : Bytes × TsDir) (h : JsHeap) : Nat × JsHeap :=
  let (n, h1) := h.newBuilder
  let old := h1.obj b
  let arr := h1.orderList old ++ [o]
  let h2 := { h1 with orders := h1.orders ++ [arr] }
  (n, { h2 with builders := h2.builders.set n { old with orderBy := some h1.orders.length } })

/-- src/db/query-builder.ts:59-66 `select`: the array of the caller itself is stored. -/
def selectCall (b : Nat) (keys : Nat) (h : JsHeap) : Nat × JsHeap :=
  let (n, h1) := h.newBuilder
  let old := h1.obj b
  (n, { h1 with builders := h1.builders.set n { old with select := some keys } })

/-- src/db/query-builder.ts:68-75 `limit` -/
def limitCall (b : Nat) (limit : Nat) (h : JsHeap) : Nat × JsHeap :=
  let (n, h1) := h.newBuilder
  let old := h1.obj b
  (n, { h1 with builders := h1.builders.set n { old with limit := some limit } })

/-- src/db/query-builder.ts:17-28 `toQuery`: an object with copies of the arrays. -/
def toQueryCall (b : Nat) (h : JsHeap) : QueryObj × JsHeap :=
  let old := h.obj b
  let h1 := { h with clauses := h.clauses ++ [h.clauses.getD old.where_ []] }
  let h2 := match old.orderBy with
    | some r => { h1 with orders := h1.orders ++ [h1.orders.getD r []] }
    | none => h1
  let h3 := match old.select with
    | some r => { h2 with keys := h2.keys ++ [h2.keys.getD r []] }
    | none => h2
  (⟨h.clauses.length, old.orderBy.map (fun _ => h.orders.length), old.select.map (fun _ => h.keys.length), old.limit⟩, h3)

/-- The query that an object with references stands for: what `database.query` reads (src/db/query-builder.ts:33-35 passes
the `queryObject` itself). -/
def read (h : JsHeap) (o : QueryObj) : TsQuery :=
  ⟨h.clauses.getD o.where_ [], o.orderBy.map (fun r => h.orders.getD r []), o.select.map (fun r => h.keys.getD r []), o.limit⟩

end JsHeap
end Appendable
