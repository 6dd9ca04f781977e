import Verif.Model.TsFull
/-! Clients some of whose requests fail. -/
namespace Appendable.Spec

/-- `r'` answers every request as `r` does, or fails. -/
def Fails (r' r : Resolver) : Prop := ∀ ranges, r' ranges = r ranges ∨ ∃ e, r' ranges = .err e

/-- The same clients, but for requests of `db'` that fail. -/
structure FailsDb (db' db : TsDb) : Prop where
  idx : Fails db'.idx db.idx
  dat : Fails db'.dat db.dat
  parse : db'.parse = db.parse

/-- The result is the same, or an exception. -/
def SameOrThrows {α : Type} (x' x : Res α) : Prop := x' = x ∨ ∃ e, x' = .err e

/-- The rows are the same and end in the same way, or the first of them come and then an exception. -/
def SameOrCut {β : Type} (a' a : TsRows β) : Prop := a' = a ∨ (a'.rows <+: a.rows ∧ ∃ e, a'.fail = some e)

/-- The client whose server has only the first `n` bytes of the file, and refuses requests that go beyond. -/
def upTo (n : Nat) (r : Resolver) : Resolver := fun ranges =>
  if ranges.all (fun x => decide (x.2 < n)) then r ranges else .err (.msg "416")

/-- The client of files that are cut short: the first `n` bytes of the index file and the first `m` bytes of the data file. -/
def cutDb (n m : Nat) (db : TsDb) : TsDb := ⟨upTo n db.idx, upTo m db.dat, db.parse⟩

end Appendable.Spec
