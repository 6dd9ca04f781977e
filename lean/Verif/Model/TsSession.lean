import Verif.Model.TsQuery
/-! What a client object keeps between calls: src/file/multi.ts `metaPageDataPromise`, src/file/index-file.ts `_tree` and
`linkedMetaPages`, src/db/database.ts `indexHeadersPromise`.  (Model/TsClient.lean leaves these out.)

The calls of this file are made one after the other.  `idx` is what the server of the index file does during one call; it
may fail, and it may be another one for the next call.  A promise that has been kept is settled by the time of the next
call: it is kept as its result. -/
namespace Appendable

/-- src/file/multi.ts:11-19 `LinkedMetaPage`: the page and slot, and the reply kept in `metaPageDataPromise`. -/
structure TsMp where
  page : TsPage
  kept : Option (Res (List Bytes))

/-- src/file/multi.ts:59-67: the request of `getMetaPage`, unless there is a kept reply. -/
def TsMp.reply (idx : Resolver) (mp : TsMp) : Res (List Bytes) :=
  match mp.kept with
  | some r => r
  | none => idx [(mp.page.offset, mp.page.offset + 4096 - 1)]

/-- The object after `getMetaPage` (src/file/multi.ts:60-67) has been called. -/
def TsMp.load (idx : Resolver) (mp : TsMp) : TsMp := ⟨mp.page, some (mp.reply idx)⟩

/-- src/file/multi.ts:21-45 `root`, on the reply. -/
def TsMp.root (idx : Resolver) (mp : TsMp) : Res TsPtr := mp.page.root (fun _ => mp.reply idx)

/-- src/file/multi.ts:47-57 `metadata`, on the reply. -/
def TsMp.metadata (idx : Resolver) (mp : TsMp) : Res Bytes := mp.page.metadata (fun _ => mp.reply idx)

/-- `readIndexMeta(await mp.metadata())` -/
def TsMp.indexMeta (idx : Resolver) (mp : TsMp) : Res TsIndexMeta := mp.page.indexMeta (fun _ => mp.reply idx)

/-- src/file/multi.ts:75-97 `next`: a slot of the same page gets the promise of this one (line 86), a slot of the next page
gets none (line 96).  A slot with a number other than 0 is one of the same page. -/
def TsMp.next (idx : Resolver) (mp : TsMp) : Res (Option TsMp) := do
  match ← mp.page.next (fun _ => mp.reply idx) with
  | none => return none
  | some q => return some ⟨q, if q.index = 0 then none else some (mp.reply idx)⟩

/-- The fields of `IndexFileV1` (src/file/index-file.ts:44-46) and `indexHeadersPromise` of `Database`
(src/db/database.ts:80). -/
structure TsClient where
  tree : Option TsMp
  linked : List TsMp
  headers : Option (Res (List (Bytes × List Nat)))

/-- src/index.ts:10-27 `init`: a new client. -/
def TsClient.new : TsClient := ⟨none, [], none⟩

/-- src/file/index-file.ts:54-63 `tree`: the object `_tree`. -/
def TsClient.filePage (c : TsClient) : TsMp := c.tree.getD ⟨tsFilePage, none⟩

/-- The client after a method of `_tree` has been called. -/
def TsClient.touch (idx : Resolver) (c : TsClient) : TsClient := { c with tree := some (c.filePage.load idx) }

/-- src/file/index-file.ts:65-70 `metadata` -/
def TsClient.metadata (idx : Resolver) (c : TsClient) : Res TsFileMeta × TsClient :=
  ((do
      let b ← c.filePage.metadata idx
      tsReadFileMeta b),
    c.touch idx)

/-- The loop of src/file/index-file.ts:82-106: the slots from `mp` on, with their metadata. -/
def tsSeekLoop (idx : Resolver) : Nat → TsMp → Res (List (TsMp × TsIndexMeta))
  | 0, _ => .err (.msg "too many")
  | fuel + 1, mp => do
    let m ← mp.indexMeta idx
    match ← mp.next idx with
    | none => return [(mp.load idx, m)]
    | some q => do
      let rest ← tsSeekLoop idx fuel q
      return (mp.load idx, m) :: rest

/-- src/file/index-file.ts:72-109 `seek` -/
def TsClient.seek (idx : Resolver) (fuel : Nat) (c : TsClient) (header : Bytes) (fieldType : Nat) :
    Res (List (TsMp × TsIndexMeta)) × TsClient :=
  ((do
      match ← c.filePage.next idx with
      | none => .err (.msg "failed to fetch meta pages")
      | some mp => do
        let all ← tsSeekLoop idx fuel mp
        return all.filter (fun x => tsSeekMatch header fieldType x.2)),
    c.touch idx)

/-- The loop of src/file/index-file.ts:119-127: whether it ends or throws, and what it pushes onto `linkedMetaPages`.  The
object is pushed before the request for its page is made; what counts is its state after that.  `none` if there are more
than `fuel` slots. -/
def tsFetchLoop (idx : Resolver) : Nat → TsMp → Option (Res Unit × List TsMp)
  | 0, _ => none
  | fuel + 1, mp =>
    match mp.next idx with
    | .panic => some (.panic, [mp.load idx])
    | .err e => some (.err e, [mp.load idx])
    | .ok none => some (.ok (), [mp.load idx])
    | .ok (some q) => (tsFetchLoop idx fuel q).map (fun x => (x.1, mp.load idx :: x.2))

/-- src/file/index-file.ts:111-128 `fetchMetaPages`.  Simplification: beyond the bound `fuel` on the number of slots it is an
error that leaves no trace. -/
def TsClient.fetchMetaPages (idx : Resolver) (fuel : Nat) (c : TsClient) : Res Unit × TsClient :=
  match c.filePage.next idx with
  | .panic => (.panic, c.touch idx)
  | .err e => (.err e, c.touch idx)
  | .ok none => (.err (.msg "failed to fetch meta pages"), c.touch idx)
  | .ok (some mp) =>
    match tsFetchLoop idx fuel mp with
    | none => (.err (.msg "too many"), c.touch idx)
    | some x => (x.1, { c.touch idx with linked := c.linked ++ x.2 })

/-- The loop of src/file/index-file.ts:136-144 over `linkedMetaPages`: the metadata up to the first slot without successor. -/
def tsHeaderLoop (idx : Resolver) : List TsMp → Res (List TsIndexMeta)
  | [] => .ok []
  | mp :: mps => do
    let m ← mp.indexMeta idx
    match ← mp.next idx with
    | none => return [m]
    | some _ => do
      let ms ← tsHeaderLoop idx mps
      return m :: ms

/-- src/file/index-file.ts:130-147 `indexHeaders` -/
def TsClient.indexHeaders (idx : Resolver) (fuel : Nat) (c : TsClient) : Res (List (Bytes × List Nat)) × TsClient :=
  match (if c.linked = [] then c.fetchMetaPages idx fuel else (.ok (), c)) with
  | (.panic, c') => (.panic, c')
  | (.err e, c') => (.err e, c')
  | (.ok _, c') =>
    ((do
        let ms ← tsHeaderLoop idx c'.linked
        return tsCollectMetas ms), c')

/-- src/db/database.ts:94-100 `fields` -/
def TsClient.fields (idx : Resolver) (fuel : Nat) (c : TsClient) : Res (List (Bytes × List Nat)) × TsClient :=
  match c.headers with
  | some h => (h, c)
  | none => ((c.indexHeaders idx fuel).1, { (c.indexHeaders idx fuel).2 with headers := some (c.indexHeaders idx fuel).1 })

/-- src/db/database.ts:193-223: the tree of one where clause (compare `TsDb.clauseTree`). -/
def TsClient.clauseTree (db : TsDb) (fuel : Nat) (c : TsClient) (fm : TsFileMeta) (headers : List (Bytes × List Nat)) (w : TsWhere) :
    Res (TsTree × Bytes) :=
  match headers.find? (fun h => h.1 == w.key) with
  | none => .err (.msg "field not found")
  | some _ =>
    match tsProcessWhere w.value with
    | none => .err (.msg "unable to process key")
    | some (ft, v) => do
      match ← (c.seek db.idx fuel w.key ft).1 with
      | [] => .err (.msg "TypeError")
      | (mp, m) :: _ => return (⟨db.idx, db.dat, db.parse fm.format m.fieldType, m.width, mp.root db.idx⟩, v)

/-- The loop over the where clauses, src/db/database.ts:191-422 (compare `TsDb.clauses`).  `_tree` has been touched when it
starts, so that `seek` changes nothing. -/
def TsClient.clauses {β : Type} (db : TsDb) (fuel : Nat) (select : Bytes → Res β) (dir : TsDir) (c : TsClient) (fm : TsFileMeta)
    (headers : List (Bytes × List Nat)) : List TsWhere → TsRows β
  | [] => ⟨[], none⟩
  | w :: ws =>
    match c.clauseTree db fuel fm headers w with
    | .panic => ⟨[], some (.msg "panic")⟩
    | .err e => ⟨[], some e⟩
    | .ok (t, v) =>
      (tsClause t fuel fuel (tsRow t select) w.op dir v).andThen (TsClient.clauses db fuel select dir c fm headers ws)

/-- src/db/database.ts:102-423 `query` without `search` (compare `TsDb.query`): the rows, and the client afterwards. -/
def TsClient.query {β : Type} (db : TsDb) (fuel : Nat) (select : Bytes → Res β) (c : TsClient) (q : TsQuery) : TsRows β × TsClient :=
  if q.where_.tail.any (fun x => x.key != (q.where_.headD default).key) then (⟨[], some (.msg "composite indexes not supported")⟩, c)
  else match c.metadata db.idx with
    | (.panic, c1) => (⟨[], some (.msg "panic")⟩, c1)
    | (.err e, c1) => (⟨[], some e⟩, c1)
    | (.ok fm, c1) =>
      match c1.fields db.idx fuel with
      | (.panic, c2) => (⟨[], some (.msg "panic")⟩, c2)
      | (.err e, c2) => (⟨[], some e⟩, c2)
      | (.ok headers, c2) => (c2.clauses db fuel select q.dir fm headers q.where_, c2)

end Appendable
