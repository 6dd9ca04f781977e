import Verif.Spec.JsonText
import Verif.Spec.Ts
import Verif.Model.Json
/-! Querying a JSONL file: which lines should be returned. -/
namespace Appendable.Spec

/-- `Exact op dir n d`: with an index of `n` bytes (pages have 4096), the query `field op value` in the direction `dir` is answered exactly, in
the order `d`.  (In the other cases it is not: C46, C47.) -/
inductive Exact : TsOp → TsDir → Nat → TsDir → Prop
  | below {n : Nat} {op : TsOp} (h : op = .lt ∨ op = .le) : Exact op .desc n .desc
  | first {n : Nat} {op : TsOp} (h : op = .lt ∨ op = .le) (hn : 4096 < n) : Exact op .asc n .asc
  | eq {n : Nat} {d : TsDir} (hn : n ≤ 4096) : Exact .eq d n .asc
  | above {n : Nat} {op : TsOp} (h : op = .ge ∨ op = .gt) (hn : n ≤ 4096) : Exact op .asc n .asc

/-- The JSON value that a value in a query stands for. -/
def tokOf : JsVal → Option Tok
  | .null => some .null
  | .num bits => some (.num bits)
  | .bool b => some (.bool b)
  | .str s => some (.str s)
  | _ => none

/-- The order of values of one kind: that of their bytes. -/
def Before (a b : Tok) : Prop := List.Lex (· < ·) (valueBytes a) (valueBytes b)

/-- `a op w` -/
def Meets (op : TsOp) (a w : Tok) : Prop :=
  match op with
  | .lt => Before a w
  | .le => Before a w ∨ a = w
  | .eq => a = w
  | .ge => Before w a ∨ a = w
  | .gt => Before w a

/-- Sorted by value. -/
def Sorted : TsDir → List (Tok × Bytes) → Prop
  | .asc, l => l.Pairwise (fun x y => ¬ Before y.1 x.1)
  | .desc, l => l.Pairwise (fun x y => ¬ Before x.1 y.1)

/-- The values of the field `name` that are of the kind of `w`, each with the line it is in. -/
def valuesOf (num : Bytes → Option UInt64) (name : Bytes) (w : Tok) (recs : List Rec) : List (Tok × Bytes) :=
  recs.flatMap (fun r => ((r.fields num).filter (fun f => decide (f.name = name ∧ kindOf f.tok = kindOf w))).map (fun f => (f.tok, r.text)))

open Classical in
/-- `out` are the values of the field `name` that meet the condition `op w`, each with its line, sorted. -/
def IsAnswer (num : Bytes → Option UInt64) (name : Bytes) (op : TsOp) (w : Tok) (recs : List Rec) (d : TsDir) (out : List (Tok × Bytes)) : Prop :=
  out.Perm ((valuesOf num name w recs).filter (fun x => decide (Meets op x.1 w))) ∧ Sorted d out

/-- `select` of each line; an exception ends the rows. -/
def rowsFor {β : Type} (select : Bytes → Res β) : List Bytes → TsRows β
  | [] => ⟨[], none⟩
  | l :: ls =>
    match select l with
    | .panic => ⟨[], some (.msg "panic")⟩
    | .err e => ⟨[], some e⟩
    | .ok b => ⟨b :: (rowsFor select ls).rows, (rowsFor select ls).fail⟩

/-- The bytes of the index of the field `name` for values of the kind of `w`, if it were one page. -/
def indexBytes (num : Bytes → Option UInt64) (nfkd : Bytes → Bytes) (hs : List Bytes) (name : Bytes) (w : Tok) (recs : List Rec) : Nat :=
  leafBytes (determineTypeByte (kindOf w).code) (entriesOf (linesJobs nfkd hs 0 (recs.map (fun r => (r.text, r.fields num)))) name (kindOf w).code)

/-- A JSONL file with the lines `recs` (and perhaps an incomplete last one), indexed by `Synchronize` in any number of steps; the client has
it and its index before it.  Both are below 1 GB (the index file may have 2 GB).  The client's JSON parser reads string literals. -/
structure QueryFile (num : Bytes → Option UInt64) (nfkd : Bytes → Bytes) (hs : List Bytes) (data : Bytes) (i : IndexFile) (s : PF) (recs : List Rec)
    (tail : Bytes) (db : TsDb) : Prop where
  run : SyncRun ⟨goLex num, nfkd⟩ hs data i s
  lines : IsLines data (recs.map Rec.text) tail
  ok : ∀ r ∈ recs, r.OK num hs
  size : data.length < 2 ^ 30
  sees : Sees db data s.file.bytes
  json : ∀ (ws : Bytes) (l : Lit), Ws ws → l.WF → db.parse 0 0 (ws ++ l.text) = .ok l.value

end Appendable.Spec
