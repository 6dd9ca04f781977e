import Verif.Model.LinkedPage
import Verif.Model.Meta
import Verif.Model.BPTree
/-! pkg/appendable/index_file.go: the index file. -/
namespace Appendable

/-- pkg/appendable/index_file.go:14 `CurrentVersion` -/
def currentVersion : UInt8 := 1

/-- pkg/appendable/index_file.go:23-31 `IndexFile`: the handle `tree` of the first slot (with the file metadata) and
the search headers.  The page file is the state; the data handler is represented by its format. -/
structure IndexFile where
  tree : LP
  searchHeaders : List Bytes
  deriving DecidableEq, Repr

namespace IndexFile

/-- pkg/appendable/index_file.go:44-84: the rest of `NewIndexFile` with the head `tree` of the slot list.  `fmt` is
`dataHandler.Format()`. -/
def attachAt (fmt : Format) (headers : List Bytes) (tree : LP) : Act PF IndexFile := fun s =>
  match tree.next s with
  | (.err .eof, s1) => (do
      let created ← tree.addNext
      let buf ← Act.lift (FileMeta.marshal ⟨currentVersion, fmt, 0, 0⟩)
      created.setMetadata buf
      return ⟨created, headers⟩ : Act PF IndexFile) s1
  | (.err e, s1) => (.err e, s1)
  | (.panic, s1) => (.panic, s1)
  | (.ok node, s1) => (do
      let buf ← node.metadata
      let m ← Act.lift (FileMeta.unmarshal buf)
      if m.version ≠ currentVersion then Act.throw (.msg "unsupported version")
      else if m.format ≠ fmt then Act.throw (.msg "unsupported format")
      else return ⟨node, headers⟩ : Act PF IndexFile) s1

/-- pkg/appendable/index_file.go:39-84, i.e. `NewIndexFile` on an opened page file. -/
def attach (fmt : Format) (headers : List Bytes) : Act PF IndexFile := do
  let tree ← LP.newMulti
  attachAt fmt headers tree

/-- pkg/appendable/index_file.go:33-84 `NewIndexFile`: the index file and the opened page file. -/
def openIndex (fmt : Format) (headers : List Bytes) : Act File (IndexFile × PF) := fun f =>
  match PF.openFile f with
  | (.panic, f1) => (.panic, f1)
  | (.err e, f1) => (.err e, f1)
  | (.ok pf, _) =>
    match attach fmt headers pf with
    | (.panic, s) => (.panic, s.file)
    | (.err e, s) => (.err e, s.file)
    | (.ok i, s) => (.ok (i, s), s.file)

/-- pkg/appendable/index_file.go:86-94 `Metadata` -/
def metadata (i : IndexFile) : Act PF FileMeta := do
  let buf ← i.tree.metadata
  Act.lift (FileMeta.unmarshal buf)

/-- pkg/appendable/index_file.go:96-102 `SetMetadata` -/
def setMetadata (i : IndexFile) (m : FileMeta) : Act PF Unit := do
  let buf ← Act.lift m.marshal
  i.tree.setMetadata buf

/-- pkg/appendable/index_file.go:104-106 `Indexes` -/
def indexes (i : IndexFile) : Act PF LP := i.tree.next

/-- pkg/appendable/index_file.go:108-114 `IsEmpty` (true if there is a next slot) -/
def isEmpty (i : IndexFile) : Act PF Bool := fun s =>
  match i.tree.next s with
  | (.ok _, s1) => (.ok true, s1)
  | (.err .eof, s1) => (.ok false, s1)
  | (.err e, s1) => (.err e, s1)
  | (.panic, s1) => (.panic, s1)

/-- The loop of pkg/appendable/index_file.go:116-147 `IndexFieldNames` after the slot `mp`; `names` are the names
found so far.  `fuel` as in `LP.collectFrom`. -/
def namesFrom : Nat → LP → List Bytes → Act PF (List Bytes)
  | 0, _, _ => Act.crash
  | fuel + 1, mp, names => fun s =>
    match mp.next s with
    | (.err .eof, s1) => (.ok names, s1)
    | (.err e, s1) => (.err e, s1)
    | (.panic, s1) => (.panic, s1)
    | (.ok next, s1) => (do
        let buf ← next.metadata
        let m ← Act.lift (IndexMeta.unmarshal buf)
        namesFrom fuel next (if m.fieldName ∈ names then names else names ++ [m.fieldName])) s1

/-- pkg/appendable/index_file.go:116-147 `IndexFieldNames` -/
def indexFieldNames (i : IndexFile) : Act PF (List Bytes) := fun s => namesFrom (LP.listFuel s) i.tree [] s

/-- The end of pkg/appendable/index_file.go:172-186: a new index after the last slot `mp`. -/
def createIndex (mp : LP) (name : Bytes) (fieldType : UInt8) : Act PF (LP × IndexMeta) := do
  let next ← mp.addNext
  let m : IndexMeta := ⟨name, fieldType, determineTypeByte fieldType, 0⟩
  let buf ← Act.lift m.marshal
  next.setMetadata buf
  return (next, m)

/-- The loop of pkg/appendable/index_file.go:149-187 `FindOrCreateIndex` after the slot `mp`. -/
def findFrom (name : Bytes) (fieldType : UInt8) : Nat → LP → Act PF (LP × IndexMeta)
  | 0, _ => Act.crash
  | fuel + 1, mp => fun s =>
    match mp.next s with
    | (.err .eof, s1) => createIndex mp name fieldType s1
    | (.err e, s1) => (.err e, s1)
    | (.panic, s1) => (.panic, s1)
    | (.ok next, s1) => (do
        let buf ← next.metadata
        let m ← Act.lift (IndexMeta.unmarshal buf)
        if m.fieldName = name ∧ m.fieldType = fieldType then return (next, m)
        else findFrom name fieldType fuel next) s1

/-- pkg/appendable/index_file.go:149-187 `FindOrCreateIndex` -/
def findOrCreate (i : IndexFile) (name : Bytes) (fieldType : UInt8) : Act PF (LP × IndexMeta) := fun s =>
  findFrom name fieldType (LP.listFuel s) i.tree s

/-- pkg/appendable/index_file.go:205-213 `IsSearch` -/
def isSearch (i : IndexFile) (name : Bytes) : Bool := i.searchHeaders.contains name

end IndexFile
/-- pkg/linkedpage/linkedpage.go:110-114 `BPTree` as the handlers use it (pkg/handlers/jsonl.go:190): the tree of the index in
slot `p`, opened on the data file `data` with the given width. -/
def treeAt (data : Bytes) (parse : Bytes → Bytes) (w : UInt16) (p : LP) : Tree := ⟨⟨data, parse, w⟩, p.rootPos.toNat⟩

end Appendable
