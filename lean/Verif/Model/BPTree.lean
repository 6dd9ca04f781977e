import Verif.Model.PageFile
/-! pkg/bptree/bptree.go: the B+ tree over a page file, with its root pointer in a slot of a linked meta page
(pkg/linkedpage/linkedpage.go `Root`, `SetRoot`). -/
namespace Appendable

/-- pkg/bptree/bptree.go:14-22 `BPTree`: configuration and the position of the 12 byte root pointer
(`rootMemoryPointerPageOffset`, pkg/linkedpage/linkedpage.go:188-190).  The page file is the state. -/
structure Tree where
  cfg : Cfg
  rootPos : Nat

/-- `binary.Read(r, binary.LittleEndian, …)` of `n` bytes through the page file: `io.ReadFull`, which goes on
after short reads until EOF: `io.EOF` if there is nothing at all, otherwise `io.ErrUnexpectedEOF`. `n > 0`. -/
def PF.readFull (n : Nat) : Act PF Bytes := do
  let (d, _) ← PF.read n
  if d.length = 0 then Act.throw .eof
  else if d.length < n then Act.throw (.msg "unexpected EOF")
  else return d

/-- pkg/pointer/pointer.go `MemoryPointer` as `encoding/binary` writes it: offset, then length. -/
def MemPtr.encode (p : MemPtr) : Bytes := leBytes 8 p.offset.toNat ++ leBytes 4 p.length.toNat

/-- ... and as it reads it. -/
def MemPtr.decode (b : Bytes) : MemPtr := ⟨UInt64.ofNat (leNat (b.take 8)), UInt32.ofNat (leNat ((b.drop 8).take 4))⟩

/-- pkg/linkedpage/linkedpage.go:83-92 `Root` (of a slot) -/
def rootAt (pos : Nat) : Act PF MemPtr := do
  let _ ← PF.seek pos
  let b ← PF.readFull 12
  return MemPtr.decode b

/-- pkg/linkedpage/linkedpage.go:94-102 `SetRoot` (of a slot) -/
def setRootAt (pos : Nat) (p : MemPtr) : Act PF Unit := do
  let _ ← PF.seek pos
  let _ ← PF.write p.encode
  return ()

/-- One level of a root-to-leaf path, pkg/bptree/bptree.go:36-41 `TraversalRecord`. -/
structure TRec where
  node : Node
  index : Int
  ptr : MemPtr
  deriving DecidableEq, Repr

namespace Tree

/-- pkg/bptree/bptree.go:160-173 `readNode` -/
def readNode (t : Tree) (ptr : MemPtr) : Act PF Node := do
  let _ ← PF.seek (int64OfU64 ptr.offset.toNat)
  let (d, eof) ← PF.read pageSize
  if eof then Act.throw .eof
  else Act.lift (Node.unmarshal t.cfg (d ++ List.replicate (pageSize - d.length) 0))

/-- pkg/bptree/bptree.go:24-34 `root`: a failure to read the root pointer counts as an empty tree. -/
def root (t : Tree) : Act PF (Option (Node × MemPtr)) := fun s =>
  match rootAt t.rootPos s with
  | (.panic, s1) => (.panic, s1)
  | (.err _, s1) => (.ok none, s1)
  | (.ok mp, s1) =>
    if mp.length = 0 then (.ok none, s1)
    else (do
      let n ← t.readNode mp
      return some (n, mp)) s1

/-- pkg/bptree/bptree.go:225-250 `traverse`.  Every node read lies at a page boundary (an unaligned read
panics), so a path longer than the number of pages repeats a page and the Go recursion never ends: that is
what running out of `fuel` means. -/
def traverse (t : Tree) (key : RV) : Nat → Node → MemPtr → Act PF (List TRec)
  | 0, _, _ => Act.crash
  | fuel + 1, node, ptr =>
    let (index, found) := bsearch compareRV node.keys key
    if node.leaf then return [⟨node, index, ptr⟩]
    else
      let index := if found then index + 1 else index
      match node.pointer index with
      | none => Act.crash
      | some childPointer => do
        let child ← t.readNode childPointer
        let path ← traverse t key fuel child childPointer
        return path ++ [⟨node, index, ptr⟩]

/-- Enough fuel: one more than the number of pages in the file. -/
def fuel (s : PF) : Nat := s.file.bytes.length / pageSize + 1

/-- pkg/bptree/node.go:108-115 `WriteTo` after a `Seek`, as used in pkg/bptree/bptree.go:340-346 and 385-390. -/
def writeNode (t : Tree) (off : UInt64) (n : Node) : Act PF Unit := do
  let _ ← PF.seek (int64OfU64 off.toNat)
  let b ← Act.lift (n.marshal t.cfg.width)
  let _ ← PF.write b
  return ()

/-- The right half of a split node, pkg/bptree/bptree.go:313-322. -/
def rightHalf (n : Node) (mid : Nat) : Node :=
  if n.leaf then ⟨n.leafPtrs.drop mid, [], n.keys.drop mid⟩
  else ⟨[], n.intPtrs.drop (mid + 1), n.keys.drop (mid + 1)⟩

/-- The left half of a split node, pkg/bptree/bptree.go:332-338.  (In Go the halves share their backing
arrays; neither is appended to afterwards.) -/
def leftHalf (n : Node) (mid : Nat) : Node :=
  if n.leaf then { n with leafPtrs := n.leafPtrs.take mid, keys := n.keys.take mid }
  else { n with intPtrs := n.intPtrs.take (mid + 1), keys := n.keys.take mid }

/-- One round of the loop of pkg/bptree/bptree.go:304-394, up to the update of the parent: write the node if
it fits (`none`), otherwise split it and return the separator, the left and the right offset. -/
def writeOrSplit (t : Tree) (tr : TRec) : Act PF (Option (RV × UInt64 × UInt64)) :=
  let n := tr.node
  if n.size t.cfg.width > pageSize then
    let mid := n.keys.length / 2
    match n.keys[mid]? with
    | none => Act.crash
    | some midKey => do
      let mbuf ← Act.lift ((rightHalf n mid).marshal t.cfg.width)
      let moffset ← PF.newPage (some mbuf)
      writeNode t tr.ptr.offset (leftHalf n mid)
      return some (midKey, tr.ptr.offset, UInt64.ofNat (u64OfInt moffset))
  else do
    writeNode t tr.ptr.offset n
    return none

/-- The update of the parent, pkg/bptree/bptree.go:349-361. -/
def parentUpdate (p : TRec) (midKey : RV) (noffset moffset : UInt64) : TRec :=
  let i := p.index.toNat
  { p with node := { p.node with keys := p.node.keys.take i ++ midKey :: p.node.keys.drop i
                                 intPtrs := ((p.node.intPtrs.take (i + 1) ++ p.node.intPtrs.drop i).set i noffset).set (i + 1) moffset } }

/-- The new root after a root split, pkg/bptree/bptree.go:362-382. -/
def newRoot (t : Tree) (midKey : RV) (noffset moffset : UInt64) : Act PF Unit := do
  let pbuf ← Act.lift ((⟨[], [noffset, moffset], [midKey]⟩ : Node).marshal t.cfg.width)
  let poffset ← PF.newPage (some pbuf)
  setRootAt t.rootPos ⟨UInt64.ofNat (u64OfInt poffset), UInt32.ofNat pbuf.length⟩

/-- The loop of pkg/bptree/bptree.go:304-394 from the record `tr` on, with the remaining path. -/
def insertLoop (t : Tree) : TRec → List TRec → Act PF Unit
  | tr, [] => do
    match ← t.writeOrSplit tr with
    | none => return ()
    | some (k, n, m) => t.newRoot k n m
  | tr, p :: rest => do
    match ← t.writeOrSplit tr with
    | none => return ()
    | some (k, n, m) => insertLoop t (parentUpdate p k n m) rest

/-- pkg/bptree/bptree.go:293-301: the leaf with the new entry at position `j`. -/
def leafInsert (n : Node) (j : Nat) (key : RV) (value : MemPtr) : Node :=
  { n with keys := n.keys.take j ++ key :: n.keys.drop j, leafPtrs := n.leafPtrs.take j ++ value :: n.leafPtrs.drop j }

/-- pkg/bptree/bptree.go:252-396 `Insert` -/
def insert (t : Tree) (key : RV) (value : MemPtr) : Act PF Unit :=
  if t.cfg.width ≠ 0 ∧ UInt16.ofNat key.value.length ≠ t.cfg.width - 1 then
    Act.throw (.msg "key does not match with BPTree width")
  else do
    match ← t.root with
    | none =>
      let buf ← Act.lift ((⟨[value], [], [key]⟩ : Node).marshal t.cfg.width)
      let offset ← PF.newPage (some buf)
      setRootAt t.rootPos ⟨UInt64.ofNat (u64OfInt offset), UInt32.ofNat buf.length⟩
    | some (root, rootOffset) =>
      let s ← Act.get
      match ← t.traverse key (fuel s) root rootOffset with
      | [] => Act.crash
      | tr :: rest =>
        let (j, found) := bsearch compareRV tr.node.keys key
        if found then Act.throw (.msg "key already exists")
        else t.insertLoop { tr with node := leafInsert tr.node j key value } rest

/-! ### Iteration -/

/-- pkg/bptree/bptree.go:43-48 `TraversalIterator` without the tree. -/
structure Iter where
  key : RV
  records : Option (List TRec)
  err : Option Err
  deriving DecidableEq, Repr

/-- pkg/bptree/bptree.go:136-138 `Iter` -/
def iter (key : RV) : Iter := ⟨key, none, none⟩

/-- pkg/bptree/bptree.go:58-77 `init` -/
def Iter.init (t : Tree) (it : Iter) : Act PF (Bool × Iter) := fun s =>
  match t.root s with
  | (.panic, s1) => (.panic, s1)
  | (.err e, s1) => (.ok (false, { it with err := some e }), s1)
  | (.ok none, s1) => (.ok (false, it), s1)
  | (.ok (some (root, rootOffset)), s1) =>
    match t.traverse it.key (fuel s1) root rootOffset s1 with
    | (.panic, s2) => (.panic, s2)
    | (.err e, s2) => (.ok (false, { it with err := some e }), s2)
    | (.ok path, s2) => (.ok (true, { it with records := some path }), s2)

/-- pkg/bptree/bptree.go:81-110 `incr` on the records from level `i` on: the returned flag, the updated
records and the error recorded in `p.err`. -/
def incr (t : Tree) (delta : Int) : List TRec → Act PF (Bool × List TRec × Option Err)
  | [] => return (false, [], none)
  | r :: rs =>
    let index := r.index + delta
    let rolloverLeft := index < 0
    let rolloverRight := index ≥ r.node.numPointers
    if rolloverLeft ∨ rolloverRight then do
      let (ok, rs', e) ← incr t delta rs
      if !ok then return (false, { r with index := index } :: rs', e)
      else match rs' with
        | [] => Act.crash
        | p :: _ =>
          if p.index < 0 then Act.crash
          else match p.node.pointer p.index.toNat with
          | none => Act.crash
          | some ptr => fun s =>
            match t.readNode ptr s with
            | (.panic, s1) => (.panic, s1)
            | (.err e, s1) => (.ok (false, { r with index := index } :: rs', some e), s1)
            | (.ok node, s1) =>
              let index' : Int := if rolloverLeft then (node.numPointers : Int) - 1 else 0
              (.ok (true, { r with node := node, index := index' } :: rs', none), s1)
    else return (true, { r with index := index } :: rs, none)

/-- `return p.incr(0, delta)` with the update of the iterator. -/
def Iter.step (t : Tree) (delta : Int) (it : Iter) (records : List TRec) : Act PF (Bool × Iter) := do
  let (ok, rs, e) ← t.incr delta records
  return (ok, { it with records := some rs, err := match e with | some e => some e | none => it.err })

/-- pkg/bptree/bptree.go:112-119 `Next` -/
def Iter.next (t : Tree) (it : Iter) : Act PF (Bool × Iter) :=
  match it.records with
  | none => do
    let (res, it) ← it.init t
    if res then
      match it.records with
      | some (r :: _) => return (decide (r.index ≠ r.node.numPointers), it)
      | _ => Act.crash
    else return (false, it)
  | some rs => it.step t 1 rs

/-- pkg/bptree/bptree.go:121-130 `Prev` -/
def Iter.prev (t : Tree) (it : Iter) : Act PF (Bool × Iter) :=
  match it.records with
  | none => do
    let (res, it) ← it.init t
    if res then
      match it.records with
      | some rs => it.step t (-1) rs
      | _ => Act.crash
    else return (false, it)
  | some rs => it.step t (-1) rs

/-- pkg/bptree/bptree.go:50-52 `Key`; `none` is a panic. -/
def Iter.curKey (it : Iter) : Option RV :=
  match it.records with
  | some (r :: _) => if r.index < 0 then none else r.node.keys[r.index.toNat]?
  | _ => none

/-- pkg/bptree/bptree.go:54-56 `Pointer`; `none` is a panic. -/
def Iter.curPointer (it : Iter) : Option MemPtr :=
  match it.records with
  | some (r :: _) => if r.index < 0 then none else r.node.pointer r.index.toNat
  | _ => none

/-- pkg/bptree/bptree.go:140-149 `Find`.  When nothing is found the zero values and the iterator's error
(possibly nil) are returned. -/
def find (t : Tree) (key : RV) : Act PF (RV × MemPtr) := do
  let (ok, it) ← (iter key).next t
  if !ok then
    match it.err with
    | some e => Act.throw e
    | none => return (⟨MemPtr.zero, []⟩, MemPtr.zero)
  else
    match it.curKey, it.curPointer with
    | some k, some p => return (k, p)
    | _, _ => Act.crash

/-- pkg/bptree/bptree.go:151-158 `Contains` -/
def contains (t : Tree) (key : RV) : Act PF Bool := do
  let (k, _) ← t.find key
  return k.value == key.value

end Tree
end Appendable
