import Verif.Model.TsSession
/-! Histories of calls of one client object. -/
namespace Appendable.Spec

/-- Both results are the same value, or neither is a value (the errors may differ). -/
def Agree {α : Type} (x y : Res α) : Prop := ∀ a, x = .ok a ↔ y = .ok a

/-- Both generators yield the same rows, and both throw after that or both return. -/
def AgreeRows {β : Type} (x y : TsRows β) : Prop := x.rows = y.rows ∧ (x.fail = none ↔ y.fail = none)

/-- The client `c` comes from the client `c0` by calls of its methods, one after the other; the files and servers `db` may be
others for each call, all of them among `P`. -/
inductive Session (P : TsDb → Prop) (fuel : Nat) (c0 : TsClient) : TsClient → Prop where
  | start : Session P fuel c0 c0
  | metadata {c : TsClient} (db : TsDb) : P db → Session P fuel c0 c → Session P fuel c0 (c.metadata db.idx).2
  | seek {c : TsClient} (db : TsDb) (name : Bytes) (ft : Nat) : P db → Session P fuel c0 c →
      Session P fuel c0 (c.seek db.idx fuel name ft).2
  | headers {c : TsClient} (db : TsDb) : P db → Session P fuel c0 c → Session P fuel c0 (c.indexHeaders db.idx fuel).2
  | fields {c : TsClient} (db : TsDb) : P db → Session P fuel c0 c → Session P fuel c0 (c.fields db.idx fuel).2
  | query {c : TsClient} {β : Type} (db : TsDb) (select : Bytes → Res β) (q : TsQuery) : P db → Session P fuel c0 c →
      Session P fuel c0 (c.query db fuel select q).2

/-- No call of this client returns a value, whatever the files and servers do. -/
def Dead (fuel : Nat) (c : TsClient) : Prop :=
  ∀ db : TsDb, (∀ m, (c.metadata db.idx).1 ≠ .ok m) ∧ (∀ hs, (c.indexHeaders db.idx fuel).1 ≠ .ok hs) ∧
    (∀ hs, (c.fields db.idx fuel).1 ≠ .ok hs) ∧ (∀ name ft r, (c.seek db.idx fuel name ft).1 ≠ .ok r) ∧
    (∀ (β : Type) (select : Bytes → Res β) (q : TsQuery), (c.query db fuel select q).1.rows = [] ∧ (c.query db fuel select q).1.fail ≠ none)

end Appendable.Spec
