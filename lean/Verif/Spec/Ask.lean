import Verif.Model.TsFull
/-! Queries as JavaScript objects. -/
namespace Appendable.Spec

/-- The texts `<`, `<=`, `==`, `>=`, `>`. -/
def opText : TsOp → Bytes
  | .lt => [60]
  | .le => [60, 61]
  | .eq => [61, 61]
  | .ge => [62, 61]
  | .gt => [62]

/-- The texts `ASC`, `DESC`. -/
def dirText : TsDir → Bytes
  | .asc => [65, 83, 67]
  | .desc => [68, 69, 83, 67]

/-- A query that TypeScript accepts, without search part. -/
def whereOnly (q : TsQuery) : JsAsk :=
  ⟨none, q.where_.map (fun w => ⟨w.key, opText w.op, w.value⟩), q.orderBy.map (fun l => l.map (fun x => (x.1, dirText x.2)))⟩

/-- A search with whole numbers for lengths, without where part. -/
def searchOnly (q : TsSearch) : JsAsk :=
  ⟨some ⟨q.key, q.like, q.config.map (fun x => (.fin x.1, .fin x.2))⟩, [], none⟩

/-- The numbers between 1 and 3 that `minGram` and `maxGram` have to be. -/
def Lengths (lo hi : JsNum) : Prop := ∃ a b : Rat, lo = .fin a ∧ hi = .fin b ∧ 1 ≤ a ∧ a ≤ b ∧ b ≤ 3

/-- A whole number. -/
def Whole (x : JsNum) : Prop := ∃ n : Nat, x = .fin n

end Appendable.Spec
