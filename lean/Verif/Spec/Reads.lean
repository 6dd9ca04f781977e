import Verif.Model.Csv
import Verif.Model.VecTree
/-! Sequences of arbitrary calls on one open index file, look-ups and changes mixed. -/
namespace Appendable.Spec

/-- The calls of the API: first the look-ups, then those that change something. -/
inductive Call where
  /-- `BPTree.Find` -/
  | find (t : Tree) (key : RV)
  /-- `BPTree.Contains` -/
  | contains (t : Tree) (key : RV)
  /-- `Next` of an iterator -/
  | next (t : Tree) (it : Tree.Iter)
  /-- `Prev` of an iterator -/
  | prev (t : Tree) (it : Tree.Iter)
  /-- `LinkedPage.Root` -/
  | slotRoot (p : LP)
  /-- `LinkedPage.Metadata` -/
  | slotMetadata (p : LP)
  /-- `LinkedPage.Next` -/
  | nextSlot (p : LP)
  /-- `LinkedPage.Collect` -/
  | slots (p : LP)
  /-- `IndexFile.Metadata` -/
  | metadata (i : IndexFile)
  /-- `IndexFile.Indexes` -/
  | indexes (i : IndexFile)
  /-- `IndexFile.IsEmpty` -/
  | isEmpty (i : IndexFile)
  /-- `IndexFile.IndexFieldNames` -/
  | fieldNames (i : IndexFile)
  /-- `BTree.Find` of a vector tree -/
  | findVector (t : VTree) (id : RefId)
  /-- `BPTree.Insert` -/
  | insert (t : Tree) (key : RV) (value : MemPtr)
  /-- `BTree.Insert` of a vector tree -/
  | insertVector (t : VTree) (id : RefId) (v : Vec)
  /-- `PageFile.NewPage` -/
  | newPage (buf : Option Bytes)
  /-- `PageFile.FreePage` -/
  | freePage (offset : Int)
  /-- `LinkedPage.SetRoot` -/
  | setRoot (p : LP) (r : MemPtr)
  /-- `LinkedPage.SetMetadata` -/
  | setMetadata (p : LP) (d : Bytes)
  /-- `LinkedPage.AddNext` -/
  | addNext (p : LP)
  /-- `IndexFile.SetMetadata` -/
  | setFileMetadata (i : IndexFile) (m : FileMeta)
  /-- `IndexFile.FindOrCreateIndex` -/
  | findOrCreate (i : IndexFile) (name : Bytes) (ft : UInt8)
  /-- `JSONLHandler.Synchronize` -/
  | syncJsonl (env : JEnv) (i : IndexFile) (data : Bytes)
  /-- `CSVHandler.Synchronize` -/
  | syncCsv (num : Bytes → Option UInt64) (i : IndexFile) (data : Bytes)

/-- The call only asks. -/
def Call.looks : Call → Bool
  | .find _ _ | .contains _ _ | .next _ _ | .prev _ _ | .slotRoot _ | .slotMetadata _ | .nextSlot _ | .slots _
  | .metadata _ | .indexes _ | .isEmpty _ | .fieldNames _ | .findVector _ _ => true
  | _ => false

/-- What the call returns. -/
def Call.Out : Call → Type
  | .find _ _ => RV × MemPtr
  | .contains _ _ => Bool
  | .next _ _ => Bool × Tree.Iter
  | .prev _ _ => Bool × Tree.Iter
  | .slotRoot _ => MemPtr
  | .slotMetadata _ => Bytes
  | .nextSlot _ => LP
  | .slots _ => List LP
  | .metadata _ => FileMeta
  | .indexes _ => LP
  | .isEmpty _ => Bool
  | .fieldNames _ => List Bytes
  | .findVector _ _ => Option (RefId × Vec)
  | .insert _ _ _ => Unit
  | .insertVector _ _ _ => Unit
  | .newPage _ => Int
  | .freePage _ => Unit
  | .setRoot _ _ => Unit
  | .setMetadata _ _ => Unit
  | .addNext _ => LP
  | .setFileMetadata _ _ => Unit
  | .findOrCreate _ _ _ => LP × IndexMeta
  | .syncJsonl _ _ _ => Unit
  | .syncCsv _ _ _ => Unit

/-- The call itself. -/
def Call.run : (c : Call) → Act PF c.Out
  | .find t k => t.find k
  | .contains t k => t.contains k
  | .next t it => it.next t
  | .prev t it => it.prev t
  | .slotRoot p => p.root
  | .slotMetadata p => p.metadata
  | .nextSlot p => p.next
  | .slots p => p.collect
  | .metadata i => i.metadata
  | .indexes i => i.indexes
  | .isEmpty i => i.isEmpty
  | .fieldNames i => i.indexFieldNames
  | .findVector t k => t.find k
  | .insert t k v => t.insert k v
  | .insertVector t k v => t.insert k v
  | .newPage b => PF.newPage b
  | .freePage o => PF.freePage o
  | .setRoot p r => p.setRoot r
  | .setMetadata p d => p.setMetadata d
  | .addNext p => p.addNext
  | .setFileMetadata i m => i.setMetadata m
  | .findOrCreate i n t => i.findOrCreate n t
  | .syncJsonl env i data => jsonlSync env i data
  | .syncCsv num i data => csvSync num i data

/-- A call with its outcome. -/
abbrev Outcome := (c : Call) × Res c.Out

/-- The outcomes of the calls one after the other, and the state at the end.  An error does not end the history. -/
def history : List Call → PF → List Outcome × PF
  | [], s => ([], s)
  | c :: cs, s =>
    let r := c.run s
    let rest := history cs r.2
    (⟨c, r.1⟩ :: rest.1, rest.2)

/-- The same open file: the same bytes, the same free list and page count in memory; only the position of the next read or
write may differ. -/
structure SameFile (s s' : PF) : Prop where
  bytes : s'.file.bytes = s.file.bytes
  kind : s'.file.kind = s.file.kind
  budget : s'.file.budget = s.file.budget
  ring : s'.ring = s.ring
  head : s'.head = s.head
  count : s'.count = s.count
  pages : s'.pageCount = s.pageCount

end Appendable.Spec
