import Verif.Model.Res
import Verif.Model.TsOrder
/-! The TypeScript client: src/util/uvarint.ts, src/bptree/*.ts, src/file/multi.ts, src/file/meta.ts,
src/file/index-file.ts, src/file/data-file.ts.

An exception is `Res.err`.  Promises, and the caches that keep a promise of something read before, are left out: the
files do not change while a query runs.  (The caches are in Model/TsSession.lean, concurrent calls in Model/TsRace.lean.) -/
namespace Appendable

/-! ### src/util/uvarint.ts -/

/-- A JavaScript bitwise operation works on 32 bits; its result is a signed number. -/
def toInt32 (x : UInt32) : Int := if x.toNat < 2 ^ 31 then (x.toNat : Int) else (x.toNat : Int) - 2 ^ 32

/-- The loop of src/util/uvarint.ts:29-49.  `x` are the 32 bits of the number `x`; a shift by `s` bits shifts by
`s % 32` bits, in JavaScript as in Lean's `UInt32`. -/
def tsUvarintLoop : Bytes → Nat → UInt32 → UInt32 → Int × Int
  | [], _, _, _ => (0, 0)
  | b :: bs, idx, s, x =>
    if idx = 10 then (0, -((idx : Int) + 1))
    else if b < 0x80 then
      if idx = 9 ∧ b > 1 then (0, -((idx : Int) + 1))
      else (toInt32 (x ||| (b.toUInt32 <<< s)), (idx : Int) + 1)
    else tsUvarintLoop bs (idx + 1) (s + 7) (x ||| ((b &&& 0x7f).toUInt32 <<< s))

/-- src/util/uvarint.ts:23-50 `decodeUvarint`: value and number of bytes read. -/
def tsUvarint (buf : Bytes) : Int × Int := tsUvarintLoop buf 0 0 0

/-- The position meant by an argument of `ArrayBuffer.prototype.slice`: negative arguments count from the end. -/
def jsIndex (len : Nat) (i : Int) : Nat := if i < 0 then (len + i).toNat else min i.toNat len

/-- `buf.slice(a, b)` -/
def jsSlice (buf : Bytes) (a b : Int) : Bytes :=
  (buf.drop (jsIndex buf.length a)).take (jsIndex buf.length b - jsIndex buf.length a)

/-- `buf.slice(a)` -/
def jsSliceFrom (buf : Bytes) (a : Int) : Bytes := buf.drop (jsIndex buf.length a)

/-! ### src/resolver/resolver.ts -/

/-- src/resolver/resolver.ts:16-28 `RangeResolver`: the bytes of each of the inclusive ranges (start, end).  The total
lengths it also returns are not used by the client. -/
abbrev Resolver := List (Int × Int) → Res (List Bytes)

/-- `const { data } = (await resolver([{ start, end }]))[0]` -/
def Resolver.one (r : Resolver) (start stop : Int) : Res Bytes := do
  match ← r [(start, stop)] with
  | d :: _ => return d
  | [] => .err (.msg "TypeError")

/-! ### src/bptree/node.ts -/

/-- src/bptree/node.ts:16-25 `BPTreeNode` without the configuration and the cache. -/
structure TsNode where
  keys : List TsRV
  leafPtrs : List TsPtr
  intPtrs : List Int
  deriving DecidableEq, Repr, Inhabited

/-- src/bptree/node.ts:49-51 `leaf` -/
def TsNode.leaf (n : TsNode) : Bool := decide (0 < n.leafPtrs.length)

/-- src/bptree/node.ts:53-62 `pointer`; `none` is an undefined pointer (or one with undefined offset). -/
def TsNode.pointer (n : TsNode) (i : Int) : Option TsPtr :=
  if i < 0 then none
  else if n.leaf then n.leafPtrs[i.toNat]? else (n.intPtrs[i.toNat]?).map (fun o => ⟨o, 0⟩)

/-- src/bptree/node.ts:64-66 `numPointers` -/
def TsNode.numPointers (n : TsNode) : Nat := n.intPtrs.length + n.leafPtrs.length

/-- Two varints, as in src/bptree/node.ts:139-145 and 181-190: the pointer and the position behind it. -/
def tsReadPtr (buf : Bytes) (m : Int) : TsPtr × Int :=
  let o := tsUvarint (jsSliceFrom buf m)
  let l := tsUvarint (jsSliceFrom buf (m + o.2))
  (⟨o.1, l.1⟩, m + (o.2 + l.2))

/-- One round of the loop of src/bptree/node.ts:138-167: a key, with an empty value if the width is 0. -/
def tsReadKey (width : Nat) (buf : Bytes) (m : Int) : TsRV × Int :=
  let (dp, m) := tsReadPtr buf m
  if width = 0 then (⟨dp, []⟩, m)
  else
    let value := jsSlice buf m (m + width - 1)
    (⟨dp, value⟩, m + value.length)

/-- A loop over an array of known length that reads one element per round (src/bptree/node.ts:138-167, 180-191,
193-199). -/
def tsReadMany {α : Type} (read : Bytes → Int → α × Int) (buf : Bytes) : Nat → Int → List α × Int
  | 0, m => ([], m)
  | n + 1, m =>
    let (a, m) := read buf m
    let (as, m) := tsReadMany read buf n m
    (a :: as, m)

/-- `res.forEach(…)` of src/bptree/node.ts:171-177: the data of the ranges are parsed and stored in the keys.  More
results than ranges make `this.keys[dpIndex]` undefined; keys without a result keep their empty value. -/
def tsFill (parse : Bytes → Res Bytes) : List TsRV → List Bytes → Res (List TsRV)
  | ks, [] => .ok ks
  | [], _ :: _ => .err (.msg "TypeError")
  | k :: ks, d :: ds => do
    let v ← parse d
    let ks ← tsFill parse ks ds
    return ⟨k.dp, v⟩ :: ks

/-- src/bptree/node.ts:152-160 and 169-178: if the width is 0 the key values are fetched from the data file. -/
def tsFetch (dat : Resolver) (parse : Bytes → Res Bytes) (width : Nat) (keys : List TsRV) : Res (List TsRV) :=
  if width = 0 then do
    let res ← dat (keys.map (fun k => (k.dp.offset, k.dp.offset + k.dp.length - 1)))
    tsFill parse keys res
  else .ok keys

/-- src/bptree/node.ts:95-200 `unmarshalBinary`.  `parse` is `parseValue` (lines 202-241) for the format and the field
type of the tree. -/
def tsUnmarshal (dat : Resolver) (parse : Bytes → Res Bytes) (width : Nat) (buf : Bytes) : Res TsNode :=
  if buf.length < 4 then .err (.msg "RangeError")
  else
    let h := leNat (buf.take 4)
    if h = 0 then .err (.msg "empty node")
    else do
      let leaf := decide (h > 2147483647)
      let n := if leaf then 2 ^ 32 - h else h
      let (keys, m) := tsReadMany (tsReadKey width) buf n 4
      let keys ← tsFetch dat parse width keys
      if leaf then return ⟨keys, (tsReadMany tsReadPtr buf n m).1, []⟩
      else return ⟨keys, [], (tsReadMany (fun b m => ((tsUvarint (jsSliceFrom b m)).1, m + (tsUvarint (jsSliceFrom b m)).2)) buf (n + 1) m).1⟩

/-! ### src/bptree/bptree.ts -/

/-- src/bptree/bptree.ts:17-51 `BPTree`: the resolvers of the index file and of the data file, the parser, the width of
the field and the root pointer (`meta.root()`). -/
structure TsTree where
  idx : Resolver
  dat : Resolver
  parse : Bytes → Res Bytes
  width : Nat
  rootPtr : Res TsPtr

/-- src/bptree/bptree.ts:77-96 `readNode`, with src/bptree/node.ts:243-272 `fromMemoryPointer`; `none` is an undefined
pointer, on which `Number(mp.offset)` throws. -/
def TsTree.readNode (t : TsTree) (ptr : Option TsPtr) : Res TsNode :=
  match ptr with
  | none => .err (.msg "TypeError")
  | some p => do
    let buf ← t.idx.one p.offset (p.offset + 4096 - 1)
    tsUnmarshal t.dat t.parse t.width buf

/-- src/bptree/bptree.ts:53-75 `root` -/
def TsTree.root (t : TsTree) : Res TsNode := do
  let p ← t.rootPtr
  t.readNode (some p)

/-- src/bptree/traversal.ts:4-8 `TraversalRecord` without the pointer, which nobody reads. -/
structure TsRec where
  node : TsNode
  index : Int
  deriving DecidableEq, Repr

/-- src/bptree/bptree.ts:136-155 `traverse`.  A recursion deeper than `fuel` is reported as an error; in JavaScript it
would go on. -/
def TsTree.traverse (t : TsTree) (key : TsRV) : Nat → TsNode → Res (List TsRec)
  | 0, _ => .err (.msg "too deep")
  | fuel + 1, node =>
    let (index, found) := tsBinarySearch node.keys key
    if node.leaf then .ok [⟨node, index⟩]
    else do
      let index : Nat := if found then index + 1 else index
      let child ← t.readNode (node.pointer index)
      let path ← TsTree.traverse t key fuel child
      return path ++ [⟨node, index⟩]

/-- The descent of src/bptree/bptree.ts:102-134 `first` and `last`: `pick n` is the index of the child to enter.
The pointer of the root is followed even if the root is a leaf. -/
def TsTree.descend (t : TsTree) (pick : TsNode → Int) : Nat → TsNode → Res TsNode
  | 0, _ => .err (.msg "too deep")
  | fuel + 1, node => do
    let child ← t.readNode (node.pointer (pick node))
    if child.leaf then return child else TsTree.descend t pick fuel child

/-- src/bptree/bptree.ts:102-116 `first`; an undefined result makes the caller throw. -/
def TsTree.first (t : TsTree) (fuel : Nat) : Res TsRV := do
  let root ← t.root
  let n ← t.descend (fun _ => 0) fuel root
  match n.keys[0]? with
  | some k => return k
  | none => .err (.msg "TypeError")

/-- src/bptree/bptree.ts:118-134 `last` -/
def TsTree.last (t : TsTree) (fuel : Nat) : Res TsRV := do
  let root ← t.root
  let n ← t.descend (fun n => (n.numPointers : Int) - 1) fuel root
  match n.keys[n.keys.length - 1]? with
  | some k => return k
  | none => .err (.msg "TypeError")

/-! ### src/bptree/traversal.ts -/

/-- src/bptree/traversal.ts:10-19 `TraversalIterator` -/
structure TsIter where
  key : TsRV
  records : List TsRec
  deriving DecidableEq, Repr

/-- src/bptree/bptree.ts:98-100 `iter` -/
def tsIter (key : TsRV) : TsIter := ⟨key, []⟩

/-- src/bptree/traversal.ts:21-33 `init`: the records.  (The root is never null: `readNode` throws instead.) -/
def TsTree.initRecords (t : TsTree) (fuel : Nat) (key : TsRV) : Res (List TsRec) := do
  let root ← t.root
  t.traverse key fuel root

/-- src/bptree/traversal.ts:43-74 `increment` on the records from level `i` on. -/
def TsTree.incr (t : TsTree) (delta : Int) : List TsRec → Res (Bool × List TsRec)
  | [] => .ok (false, [])
  | r :: rs =>
    let index := r.index + delta
    let rolloverLeft := index < 0
    let rolloverRight := index ≥ r.node.numPointers
    if rolloverLeft ∨ rolloverRight then do
      let (ok, rs') ← TsTree.incr t delta rs
      if !ok then return (false, { r with index := index } :: rs')
      else match rs' with
        | [] => return (false, { r with index := index } :: rs')
        | p :: _ => do
          let node ← t.readNode (p.node.pointer p.index)
          return (true, ⟨node, if rolloverLeft then (node.numPointers : Int) - 1 else 0⟩ :: rs')
    else .ok (true, { r with index := index } :: rs)

/-- src/bptree/traversal.ts:76-86 `next` -/
def TsIter.next (t : TsTree) (fuel : Nat) (it : TsIter) : Res (Bool × TsIter) :=
  match it.records with
  | [] => do
    match ← t.initRecords fuel it.key with
    | [] => .err (.msg "TypeError")
    | r :: rs => return (decide (r.index ≠ r.node.numPointers), { it with records := r :: rs })
  | r :: rs => do
    let (ok, rs') ← t.incr 1 (r :: rs)
    return (ok, { it with records := rs' })

/-- src/bptree/traversal.ts:88-97 `prev` -/
def TsIter.prev (t : TsTree) (fuel : Nat) (it : TsIter) : Res (Bool × TsIter) :=
  match it.records with
  | [] => do
    let rs ← t.initRecords fuel it.key
    let (ok, rs') ← t.incr (-1) rs
    return (ok, { it with records := rs' })
  | r :: rs => do
    let (ok, rs') ← t.incr (-1) (r :: rs)
    return (ok, { it with records := rs' })

/-- src/bptree/traversal.ts:35-37 `getKey`; `none` is undefined. -/
def TsIter.getKey (it : TsIter) : Option TsRV :=
  match it.records with
  | [] => none
  | r :: _ => if r.index < 0 then none else r.node.keys[r.index.toNat]?

/-- src/bptree/traversal.ts:39-41 `getPointer` -/
def TsIter.getPointer (it : TsIter) : Option TsPtr :=
  match it.records with
  | [] => none
  | r :: _ => r.node.pointer r.index

/-! ### src/file/multi.ts -/

/-- src/file/multi.ts:11-19 `LinkedMetaPage`: offset of the page and index of the slot. -/
structure TsPage where
  offset : Int
  index : Nat
  deriving DecidableEq, Repr, Inhabited

/-- src/file/multi.ts:6 `maxUint64` -/
def tsMaxUint64 : Int := 2 ^ 64 - 1

/-- src/file/multi.ts:59-73 `getMetaPage` -/
def TsPage.page (idx : Resolver) (p : TsPage) : Res Bytes := idx.one p.offset (p.offset + 4096 - 1)

/-- src/file/multi.ts:99-105 `rootMemoryPointerPageOffset` -/
def TsPage.slotPos (p : TsPage) : Nat := 8 + 1 + p.index * (8 + 1 + 256)

/-- src/file/multi.ts:21-45 `root` -/
def TsPage.root (idx : Resolver) (p : TsPage) : Res TsPtr := do
  let page ← p.page idx
  let data := jsSlice page p.slotPos (p.slotPos + 8 + 4)
  if data.length ≠ 12 then .err (.msg "failed to properly fetch root node")
  else return ⟨leNat (data.take 8), leNat ((data.drop 8).take 4)⟩

/-- src/file/multi.ts:47-57 `metadata` -/
def TsPage.metadata (idx : Resolver) (p : TsPage) : Res Bytes := do
  let page ← p.page idx
  match jsSliceFrom page (p.slotPos + (8 + 4)) with
  | [] => .err (.msg "RangeError")
  | l :: rest => return rest.take l.toNat

/-- src/file/multi.ts:75-97 `next`; `none` is null. -/
def TsPage.next (idx : Resolver) (p : TsPage) : Res (Option TsPage) := do
  let page ← p.page idx
  match page[8]? with
  | none => .err (.msg "RangeError")
  | some count =>
    if (p.index : Int) < (count.toNat : Int) - 1 then return some ⟨p.offset, p.index + 1⟩
    else
      let nextOffset : Int := leNat (page.take 8)
      if nextOffset = tsMaxUint64 then return none else return some ⟨nextOffset, 0⟩

/-- src/file/multi.ts:108-114 `ReadMultiBPTree(resolver, 0)` -/
def tsFilePage : TsPage := ⟨4096, 0⟩

/-! ### src/file/meta.ts -/

/-- src/file/meta.ts:8-13 `FileMeta`; the format is 0 (JSONL) or 1 (CSV). -/
structure TsFileMeta where
  version : Nat
  format : Nat
  readOffset : Nat
  entries : Int
  deriving DecidableEq, Repr

/-- src/file/meta.ts:15-41 `readFileMeta`.  (`Object.values(FileFormat)` also contains the names, no number equals
them.) -/
def tsReadFileMeta (buf : Bytes) : Res TsFileMeta :=
  if buf.length ≤ 10 then .err (.msg "incorrect byte length")
  else match buf with
    | v :: f :: _ =>
      if f.toNat ≠ 0 ∧ f.toNat ≠ 1 then .err (.msg "unexpected file format")
      else .ok ⟨v.toNat, f.toNat, leNat ((buf.drop 2).take 8), (tsUvarint (jsSliceFrom buf 10)).1⟩
    | _ => .err (.msg "RangeError")

/-- src/file/meta.ts:43-48 `IndexMeta`.  Simplification: the name is kept as its bytes; `TextDecoder` is injective on
valid UTF-8, and on that comparing names is comparing bytes. -/
structure TsIndexMeta where
  fieldName : Bytes
  fieldType : Nat
  width : Nat
  totalLen : Int
  deriving DecidableEq, Repr, Inhabited

/-- src/file/meta.ts:55-82 `readIndexMeta` -/
def tsReadIndexMeta (buf : Bytes) : Res TsIndexMeta :=
  if buf.length < 6 then .err (.msg "invalid metadata size")
  else
    let nl := leNat ((buf.drop 4).take 2)
    if buf.length < 6 + nl then .err (.msg "invalid metadata size")
    else .ok ⟨jsSlice buf 6 (6 + nl), leNat (buf.take 2), leNat ((buf.drop 2).take 2), (tsUvarint (jsSliceFrom buf (6 + nl))).1⟩

/-- `headersMap.set(name, …)` of src/file/meta.ts:87-95: the types of a name in the order of the metas; the names in
the order of their first use (a JavaScript `Map` keeps insertion order). -/
def tsAddHeader : List (Bytes × List Nat) → Bytes → Nat → List (Bytes × List Nat)
  | [], name, ty => [(name, [ty])]
  | (n, ts) :: hs, name, ty => if n = name then (n, ts ++ [ty]) :: hs else (n, ts) :: tsAddHeader hs name ty

/-- src/file/meta.ts:84-103 `collectIndexMetas`: field names with their types. -/
def tsCollectMetas (ms : List TsIndexMeta) : List (Bytes × List Nat) :=
  ms.foldl (fun hs m => tsAddHeader hs m.fieldName m.fieldType) []

/-! ### src/file/index-file.ts -/

/-- The loop of src/file/index-file.ts:119-127 (and 82-106): the pages from `p` on.  `fuel` bounds their number. -/
def tsPagesFrom (idx : Resolver) : Nat → TsPage → Res (List TsPage)
  | 0, _ => .err (.msg "too many")
  | fuel + 1, p => do
    match ← p.next idx with
    | none => return [p]
    | some q => do
      let rest ← tsPagesFrom idx fuel q
      return p :: rest

/-- src/file/index-file.ts:111-128 `fetchMetaPages` -/
def tsMetaPages (idx : Resolver) (fuel : Nat) : Res (List TsPage) := do
  match ← tsFilePage.next idx with
  | none => .err (.msg "failed to fetch meta pages")
  | some p => tsPagesFrom idx fuel p

/-- `readIndexMeta(await mp.metadata())` -/
def TsPage.indexMeta (idx : Resolver) (p : TsPage) : Res TsIndexMeta := do
  let b ← p.metadata idx
  tsReadIndexMeta b

/-- A loop that maps a throwing function over a list. -/
def tsMapM {α β : Type} (f : α → Res β) : List α → Res (List β)
  | [] => .ok []
  | a :: as => do
    let b ← f a
    let bs ← tsMapM f as
    return b :: bs

/-- src/file/index-file.ts:130-147 `indexHeaders`.  (The inner test for a next page only ends the loop where the list
of pages ends, too.) -/
def tsIndexHeaders (idx : Resolver) (fuel : Nat) : Res (List (Bytes × List Nat)) := do
  let ps ← tsMetaPages idx fuel
  let ms ← tsMapM (fun p => p.indexMeta idx) ps
  return tsCollectMetas ms

/-- src/file/index-file.ts:65-70 `metadata` -/
def tsFileMetadata (idx : Resolver) : Res TsFileMeta := do
  let b ← tsFilePage.metadata idx
  tsReadFileMeta b

/-- The test of src/file/index-file.ts:84-99: `Float64` (3) also matches `Int64` (1) and `Uint64` (2). -/
def tsSeekMatch (header : Bytes) (fieldType : Nat) (m : TsIndexMeta) : Bool :=
  m.fieldName == header &&
    (if fieldType = 3 then m.fieldType == 3 || m.fieldType == 1 || m.fieldType == 2 else fieldType == m.fieldType)

/-- src/file/index-file.ts:72-109 `seek`.  Simplification: the pages are listed first and the metadata read after
that. -/
def tsSeek (idx : Resolver) (fuel : Nat) (header : Bytes) (fieldType : Nat) : Res (List (TsPage × TsIndexMeta)) := do
  let ps ← tsMetaPages idx fuel
  let ms ← tsMapM (fun p => p.indexMeta idx) ps
  return (ps.zip ms).filter (fun x => tsSeekMatch header fieldType x.2)

/-! ### src/file/data-file.ts -/

/-- src/file/data-file.ts:28-35 `get` (the text is kept as bytes) -/
def tsGet (dat : Resolver) (start stop : Int) : Res Bytes :=
  if stop ≤ start then .err (.msg "Invalid range") else dat.one start stop

end Appendable
