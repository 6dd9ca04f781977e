/-! src/ngram/table.ts. -/
namespace Appendable

/-- src/ngram/table.ts:3-4 `PriorityTable`: the `Map`, in insertion order.  Keys are compared with `==` of Lean, where
JavaScript compares numbers and strings by value and objects by identity.  Scores are of any type `S`. -/
abbrev PriorityTable (K S : Type) := List (K × S)

/-- The operations on scores: JavaScript's `0`, `+`, and whether `a - b ≤ 0`. -/
structure ScoreOps (S : Type) where
  zero : S
  add : S → S → S
  le : S → S → Bool

/-- `Map.prototype.get` -/
def tableGet {K S : Type} [BEq K] (t : PriorityTable K S) (key : K) : Option S := (t.find? (fun e => e.1 == key)).map (·.2)

/-- `Map.prototype.set`: an existing key keeps its position. -/
def tableSet {K S : Type} [BEq K] (key : K) (v : S) : PriorityTable K S → PriorityTable K S
  | [] => [(key, v)]
  | e :: t => if e.1 == key then (e.1, v) :: t else e :: tableSet key v t

/-- src/ngram/table.ts:6-9 `insert` -/
def tableInsert {K S : Type} [BEq K] (ops : ScoreOps S) (t : PriorityTable K S) (key : K) (score : S) : PriorityTable K S :=
  let prevScore := (tableGet t key).getD ops.zero
  tableSet key (ops.add prevScore score) t

/-- src/ngram/table.ts:11-15 `top`: `sort` is stable, and puts `m` before `n` when `n.score - m.score` is not positive. -/
def tableTop {K S : Type} (ops : ScoreOps S) (t : PriorityTable K S) : List (K × S) := t.mergeSort (fun m n => ops.le n.2 m.2)

/-- src/ngram/table.ts:16-18 `size` -/
def tableSize {K S : Type} (t : PriorityTable K S) : Nat := t.length

/-- src/ngram/table.ts:20-22 `clear` -/
def tableClear {K S : Type} (_ : PriorityTable K S) : PriorityTable K S := []

end Appendable
