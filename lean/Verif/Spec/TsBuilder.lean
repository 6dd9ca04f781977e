import Verif.Model.TsBuilder
/-! Histories of builder calls. -/
namespace Appendable.Spec
open JsHeap

/-- The query of a fresh builder. -/
def emptyQuery : TsQuery := ⟨[], none, none, none⟩

/-- The arrays that the program may still modify, by element type. -/
structure Own where
  clauses : List Nat
  orders : List Nat
  keys : List Nat

/-- Histories of a program that uses query builders and creates and modifies arrays of its own, including those that
`toQuery` returned; an array given to `select` is not modified afterwards.  `qs` lists the queries that the builders
should have, as immutable values: each call adds a query that extends that of the builder it was called on. -/
inductive BuilderRun : JsHeap → List TsQuery → Own → Prop
  | start : BuilderRun ⟨[], [], [], []⟩ [] ⟨[], [], []⟩
  | new {h : JsHeap} {qs : List TsQuery} {own : Own} : BuilderRun h qs own → BuilderRun h.newBuilder.2 (qs ++ [emptyQuery]) own
  | where_ {h : JsHeap} {qs : List TsQuery} {own : Own} {b : Nat} {q : TsQuery} (w : TsWhere) : BuilderRun h qs own → qs[b]? = some q →
      BuilderRun (h.whereCall b w).2 (qs ++ [{ q with where_ := q.where_ ++ [w] }]) own
  | orderBy {h : JsHeap} {qs : List TsQuery} {own : Own} {b : Nat} {q : TsQuery} (o : Bytes × TsDir) : BuilderRun h qs own →
      qs[b]? = some q → BuilderRun (h.orderByCall b o).2 (qs ++ [{ q with orderBy := some (q.orderBy.getD [] ++ [o]) }]) own
  | select {h : JsHeap} {qs : List TsQuery} {own : Own} {b : Nat} {q : TsQuery} {r : Nat} {ks : List Bytes} : BuilderRun h qs own →
      qs[b]? = some q → h.keys[r]? = some ks →
      BuilderRun (h.selectCall b r).2 (qs ++ [{ q with select := some ks }]) { own with keys := own.keys.filter (fun x => decide (x ≠ r)) }
  | limit {h : JsHeap} {qs : List TsQuery} {own : Own} {b : Nat} {q : TsQuery} (n : Nat) : BuilderRun h qs own → qs[b]? = some q →
      BuilderRun (h.limitCall b n).2 (qs ++ [{ q with limit := some n }]) own
  | toQuery {h : JsHeap} {qs : List TsQuery} {own : Own} {b : Nat} {q : TsQuery} : BuilderRun h qs own → qs[b]? = some q →
      BuilderRun (h.toQueryCall b).2 qs ⟨(h.toQueryCall b).1.where_ :: own.clauses,
        (h.toQueryCall b).1.orderBy.toList ++ own.orders, (h.toQueryCall b).1.select.toList ++ own.keys⟩
  | alloc {h : JsHeap} {qs : List TsQuery} {own : Own} (ks : List Bytes) : BuilderRun h qs own →
      BuilderRun { h with keys := h.keys ++ [ks] } qs { own with keys := h.keys.length :: own.keys }
  | setClauses {h : JsHeap} {qs : List TsQuery} {own : Own} {r : Nat} (xs : List TsWhere) : BuilderRun h qs own → r ∈ own.clauses →
      BuilderRun { h with clauses := h.clauses.set r xs } qs own
  | setOrders {h : JsHeap} {qs : List TsQuery} {own : Own} {r : Nat} (xs : List (Bytes × TsDir)) : BuilderRun h qs own →
      r ∈ own.orders → BuilderRun { h with orders := h.orders.set r xs } qs own
  | setKeys {h : JsHeap} {qs : List TsQuery} {own : Own} {r : Nat} (xs : List Bytes) : BuilderRun h qs own → r ∈ own.keys →
      BuilderRun { h with keys := h.keys.set r xs } qs own

end Appendable.Spec
