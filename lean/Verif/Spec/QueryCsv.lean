import Verif.Spec.Csv
import Verif.Spec.QueryJsonl
/-! Querying a CSV file: which rows should be returned. -/
namespace Appendable.Spec

/-- The cells of the column `name` that are of the kind of `w`, each with the row it is in. -/
def cellsOf (num : Bytes → Option UInt64) (headers : List Bytes) (name : Bytes) (w : Tok) (rows : List (Bytes × List Bytes)) : List (Tok × Bytes) :=
  rows.flatMap (fun r =>
    ((headers.zip r.2).filter (fun x => decide (x.1 = name ∧ kindOf (cell num x.2) = kindOf w))).map (fun x => (cell num x.2, r.1)))

open Classical in
/-- `out` are the cells of the column `name` that meet the condition `op w`, each with its row, sorted. -/
def IsCsvAnswer (num : Bytes → Option UInt64) (headers : List Bytes) (name : Bytes) (op : TsOp) (w : Tok) (rows : List (Bytes × List Bytes))
    (d : TsDir) (out : List (Tok × Bytes)) : Prop :=
  out.Perm ((cellsOf num headers name w rows).filter (fun x => decide (Meets op x.1 w))) ∧ Sorted d out

/-- The bytes of the index of the texts in the column `name`, if it were one page; the first row starts at `off`. -/
def textIndexBytes (num : Bytes → Option UInt64) (headers : List Bytes) (name : Bytes) (off : Nat) (rows : List (Bytes × List Bytes)) : Nat :=
  leafBytes 0 (entriesOf (rowsJobs num headers off rows) name 0)

/-- The bytes that the client takes the index of the empty cells in the column `name` to have (with a value length behind each key), if it were
one page; the first row starts at `off`. -/
def nullIndexBytes (num : Bytes → Option UInt64) (headers : List Bytes) (name : Bytes) (off : Nat) (rows : List (Bytes × List Bytes)) : Nat :=
  leafBytes 1 (entriesOf (rowsJobs num headers off rows) name 7)

/-- A CSV file without quotes, indexed by `Synchronize` in any number of steps (of which none saw exactly the header line); the client has it
and its index before it.  The data file is below 1 GB, the index file not above 2 GB.  The client takes a cell as it is
(src/bptree/node.ts:233-234). -/
structure CsvFile (num : Bytes → Option UInt64) (data : Bytes) (seen : List Bytes) (i : IndexFile) (s : PF) (hline : Bytes) (headers : List Bytes)
    (rows : List (Bytes × List Bytes)) (tail : Bytes) (db : TsDb) : Prop where
  run : CsvRun num data seen i s
  table : PlainTable hline headers rows
  lines : IsLines data (hline :: rows.map (·.1)) tail
  seen : ∀ d ∈ seen, ∀ l t, ¬ IsLines d [l] t
  size : data.length < 2 ^ 30
  sees : Sees db data s.file.bytes
  cells : ∀ ty b, db.parse 1 ty b = .ok b

/-- A JSON text: a value with white space around it. -/
def IsJson (t : Bytes) : Prop := ∃ (pre : Bytes) (v : Doc) (post : Bytes), Ws pre ∧ v.WF (fun _ => some 0) ∧ Ws post ∧ t = pre ++ (v.text ++ post)

end Appendable.Spec
