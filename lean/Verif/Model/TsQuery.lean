import Verif.Model.TsClient
/-! src/db/database.ts `query` (the `where` part), src/db/query-lang.ts, src/db/query-builder.ts,
src/db/query-validation.ts. -/
namespace Appendable

/-- src/db/query-lang.ts:7-11: the operations of a where clause. -/
inductive TsOp where
  | lt | le | eq | ge | gt
  deriving DecidableEq, Repr, Inhabited

/-- src/db/query-lang.ts:24-27: the directions of `orderBy`. -/
inductive TsDir where
  | asc | desc
  deriving DecidableEq, Repr, Inhabited

/-- A JavaScript value as a where clause may contain it.  A number is given by the 64 bits of the IEEE double (a
`bigint` is converted with `Number`), a string by its UTF-8 encoding; `other` is any other type. -/
inductive JsVal where
  | null
  | num (bits : UInt64)
  | bool (b : Bool)
  | str (utf8 : Bytes)
  | undefined
  | other
  deriving DecidableEq, Repr, Inhabited

/-- src/db/query-lang.ts:44-77 `processWhere`: field type and value bytes (`setFloat64` is big-endian). -/
def tsProcessWhere : JsVal → Option (Nat × Bytes)
  | .null => some (7, [])
  | .num bits => some (3, beBytes 8 bits.toNat)
  | .bool b => some (6, [if b then 1 else 0])
  | .str s => some (0, s)
  | .undefined => none
  | .other => none

/-- A generator: the rows it yields and, if it does not return, the exception it throws. -/
structure TsRows (β : Type) where
  rows : List β
  fail : Option Err

/-- The rows of one generator followed by those of the next one, unless the first throws. -/
def TsRows.andThen {β : Type} (a : TsRows β) (b : TsRows β) : TsRows β :=
  match a.fail with
  | some e => ⟨a.rows, some e⟩
  | none => ⟨a.rows ++ b.rows, b.fail⟩

/-- `const data = await this.dataFile.get(…); yield handleSelect(data, query.select)` (e.g. src/db/database.ts:236-241);
`select` is `handleSelect` (src/db/query-lang.ts:79-94) with the select clause of the query. -/
def tsRow {β : Type} (t : TsTree) (select : Bytes → Res β) (p : TsPtr) : Res β := do
  let data ← tsGet t.dat p.offset (p.offset + p.length - 1)
  select data

/-- The loops `while (await iter.next()) { … }` of src/db/database.ts:233-242 … 401-418; `stop` is the test of the current key
before the `break` (constantly false where there is none).  The loop and the recursions inside of it are bounded by
`fuel`. -/
def tsScan {β : Type} (t : TsTree) (depth : Nat) (row : TsPtr → Res β) (forward : Bool) (stop : Bytes → Bool) :
    Nat → TsIter → TsRows β
  | 0, _ => ⟨[], some (.msg "too long")⟩
  | fuel + 1, it =>
    match (if forward then it.next t depth else it.prev t depth) with
    | .panic => ⟨[], some (.msg "panic")⟩
    | .err e => ⟨[], some e⟩
    | .ok (false, _) => ⟨[], none⟩
    | .ok (true, it') =>
      match it'.getKey, it'.getPointer with
      | some k, some p =>
        if stop k.value then ⟨[], none⟩
        else match row p with
          | .panic => ⟨[], some (.msg "panic")⟩
          | .err e => ⟨[], some e⟩
          | .ok b =>
            let rest := tsScan t depth row forward stop fuel it'
            ⟨b :: rest.rows, rest.fail⟩
      | _, _ => ⟨[], some (.msg "TypeError")⟩

/-- A scan that starts at a key that has to be looked up first; if that throws, so does the generator. -/
def tsScanFrom {β : Type} (t : TsTree) (depth : Nat) (row : TsPtr → Res β) (forward : Bool) (stop : Bytes → Bool)
    (fuel : Nat) (key : Res TsRV) : TsRows β :=
  match key with
  | .panic => ⟨[], some (.msg "panic")⟩
  | .err e => ⟨[], some e⟩
  | .ok k => tsScan t depth row forward stop fuel (tsIter k)

/-- src/db/database.ts:225-420: one where clause.  The start key, the direction and the `break` test of each case. -/
def tsClause {β : Type} (t : TsTree) (depth fuel : Nat) (row : TsPtr → Res β) (op : TsOp) (ord : TsDir) (v : Bytes) :
    TsRows β :=
  match op, ord with
  | .gt, .asc => tsScanFrom t depth row true (fun _ => false) fuel (.ok ⟨⟨tsMaxUint64, 0⟩, v⟩)
  | .gt, .desc => tsScanFrom t depth row false (fun k => tsCompareBytes k v < 0) fuel (t.last depth)
  | .ge, .asc => tsScanFrom t depth row true (fun _ => false) fuel (.ok ⟨⟨0, 0⟩, v⟩)
  | .ge, .desc => tsScanFrom t depth row false (fun k => tsCompareBytes k v < 0) fuel (t.last depth)
  | .eq, _ => tsScanFrom t depth row true (fun k => tsCompareBytes k v ≠ 0) fuel (.ok ⟨⟨0, 0⟩, v⟩)
  | .le, .desc => tsScanFrom t depth row false (fun _ => false) fuel (.ok ⟨⟨tsMaxUint64, 0⟩, v⟩)
  | .le, .asc => tsScanFrom t depth row true (fun k => tsCompareBytes k v > 0) fuel (t.first depth)
  | .lt, .desc => tsScanFrom t depth row false (fun _ => false) fuel (.ok ⟨⟨0, 0⟩, v⟩)
  | .lt, .asc => tsScanFrom t depth row true (fun k => tsCompareBytes k v ≥ 0) fuel (t.first depth)

/-- src/db/query-lang.ts:7-11 `WhereNode` -/
structure TsWhere where
  key : Bytes
  op : TsOp
  value : JsVal
  deriving DecidableEq, Repr, Inhabited

/-- src/db/query-lang.ts:31-37 `Query` without `search`. -/
structure TsQuery where
  where_ : List TsWhere
  orderBy : Option (List (Bytes × TsDir))
  select : Option (List Bytes)
  limit : Option Nat
  deriving DecidableEq, Repr, Inhabited

/-- src/db/database.ts:210-213: the direction of the first `orderBy`. -/
def TsQuery.dir (q : TsQuery) : TsDir :=
  match q.orderBy with
  | some ((_, d) :: _) => d
  | _ => .asc

/-- An open database: the two files, and `parseValue` for a format and a field type (src/bptree/node.ts:202-241). -/
structure TsDb where
  idx : Resolver
  dat : Resolver
  parse : Nat → Nat → Bytes → Res Bytes

/-- src/db/database.ts:193-223: the tree of one where clause. -/
def TsDb.clauseTree (db : TsDb) (fuel : Nat) (fm : TsFileMeta) (headers : List (Bytes × List Nat)) (w : TsWhere) :
    Res (TsTree × Bytes) :=
  match headers.find? (fun h => h.1 == w.key) with
  | none => .err (.msg "field not found")
  | some _ =>
    match tsProcessWhere w.value with
    | none => .err (.msg "unable to process key")
    | some (ft, v) => do
      match ← tsSeek db.idx fuel w.key ft with
      | [] => .err (.msg "TypeError")
      | (p, m) :: _ => return (⟨db.idx, db.dat, db.parse fm.format m.fieldType, m.width, p.root db.idx⟩, v)

/-- The loop over the where clauses, src/db/database.ts:191-422. -/
def TsDb.clauses {β : Type} (db : TsDb) (fuel : Nat) (select : Bytes → Res β) (dir : TsDir) (fm : TsFileMeta)
    (headers : List (Bytes × List Nat)) : List TsWhere → TsRows β
  | [] => ⟨[], none⟩
  | w :: ws =>
    match db.clauseTree fuel fm headers w with
    | .panic => ⟨[], some (.msg "panic")⟩
    | .err e => ⟨[], some e⟩
    | .ok (t, v) =>
      (tsClause t fuel fuel (tsRow t select) w.op dir v).andThen (TsDb.clauses db fuel select dir fm headers ws)

/-- src/db/database.ts:102-423 `query` without `search`.  `new Set(keys).size > 1` is: not all keys equal the first.
`select` is `handleSelect` with the select clause of the query. -/
def TsDb.query {β : Type} (db : TsDb) (fuel : Nat) (select : Bytes → Res β) (q : TsQuery) : TsRows β :=
  match q.where_ with
  | w :: ws =>
    if ws.any (fun x => x.key != w.key) then ⟨[], some (.msg "composite indexes not supported")⟩
    else match tsFileMetadata db.idx, tsIndexHeaders db.idx fuel with
      | .ok fm, .ok headers => db.clauses fuel select q.dir fm headers (w :: ws)
      | .err e, _ => ⟨[], some e⟩
      | _, .err e => ⟨[], some e⟩
      | _, _ => ⟨[], some (.msg "panic")⟩
  | [] =>
    match tsFileMetadata db.idx, tsIndexHeaders db.idx fuel with
      | .ok _, .ok _ => ⟨[], none⟩
      | .err e, _ => ⟨[], some e⟩
      | _, .err e => ⟨[], some e⟩
      | _, _ => ⟨[], some (.msg "panic")⟩

end Appendable
