import Verif.Model.BPTree
/-! pkg/linkedpage/linkedpage.go: the linked list of meta pages with 15 slots each. -/
namespace Appendable

/-- pkg/linkedpage/linkedpage.go:66 `numSlots` -/
def numSlots : Nat := 15

/-- `SlotSize()`, pkg/pagefile/pagefile.go:207-209 (`slotSize` is set to 256 in `NewPageFile`) -/
def slotSize : Nat := 256

/-- pkg/linkedpage/linkedpage.go:29-36 `LinkedPage`: a slot (or, with index 255, the head of the list).  The page
file is the state. -/
structure LP where
  offset : UInt64
  index : UInt8
  deriving DecidableEq, Repr, Inhabited

namespace LP

/-- pkg/linkedpage/linkedpage.go:188-190 `rootMemoryPointerPageOffset` (uint64 arithmetic; `pointerBytes` is 8 and
`countByte` is 1, lines 80-81) -/
def rootPos (m : LP) : UInt64 :=
  m.offset + 8 + 1 + UInt64.ofNat m.index.toNat * (UInt64.ofNat slotSize + 8 + 1)

/-- `errNotAPage`, pkg/linkedpage/linkedpage.go:17 -/
def errNotAPage : Err := .msg "this is not a page"

/-- `m.rws.Seek(int64(x), io.SeekStart)` -/
def seekU64 (x : UInt64) : Act PF Int := PF.seek (int64OfU64 x.toNat)

/-- pkg/linkedpage/linkedpage.go:83-92 `Root` -/
def root (m : LP) : Act PF MemPtr :=
  if m.index = 255 then Act.throw errNotAPage
  else do
    let _ ← seekU64 m.rootPos
    let b ← PF.readFull 12
    return MemPtr.decode b

/-- pkg/linkedpage/linkedpage.go:94-102 `SetRoot` -/
def setRoot (m : LP) (mp : MemPtr) : Act PF Unit :=
  if m.index = 255 then Act.throw errNotAPage
  else do
    let _ ← seekU64 m.rootPos
    let _ ← PF.write mp.encode
    return ()

/-- pkg/linkedpage/linkedpage.go:110-114 `BPTree`: the tree whose root pointer is in this slot. -/
def bptree (m : LP) (cfg : Cfg) : Tree := ⟨cfg, m.rootPos.toNat⟩

/-- pkg/linkedpage/linkedpage.go:122-136 `Metadata`.  `buf[1 : 1+length]` is computed in uint8: with length 255
the upper bound is 0 and the slice expression panics. -/
def metadata (m : LP) : Act PF Bytes :=
  if m.index = 255 then Act.throw errNotAPage
  else do
    let _ ← seekU64 (m.rootPos + 8 + 4)
    let (d, eof) ← PF.read (4 + slotSize)
    if eof then Act.throw .eof
    else
      let buf := d ++ List.replicate (4 + slotSize - d.length) 0
      match buf with
      | [] => Act.crash
      | length :: rest =>
        let hi : UInt8 := 1 + length
        if hi < 1 then Act.crash
        else return rest.take (hi.toNat - 1)

/-- pkg/linkedpage/linkedpage.go:146-162 `SetMetadata` -/
def setMetadata (m : LP) (data : Bytes) : Act PF Unit :=
  if m.index = 255 then Act.throw errNotAPage
  else if data.length > slotSize ∨ data.length > 255 then Act.throw (.msg "metadata too large")
  else do
    let _ ← seekU64 (m.rootPos + 8 + 4)
    let _ ← PF.write (UInt8.ofNat data.length :: data)
    return ()

/-- pkg/linkedpage/linkedpage.go:172-178 `nextPageOffset` -/
def nextPageOffset (m : LP) : Act PF UInt64 := do
  let _ ← seekU64 m.offset
  let b ← PF.readFull 8
  return UInt64.ofNat (leNat b)

/-- pkg/linkedpage/linkedpage.go:180-186 `count` -/
def count (m : LP) : Act PF UInt8 := do
  let _ ← PF.seek (int64OfU64 m.offset.toNat + 8)
  let b ← PF.readFull 1
  return UInt8.ofNat (leNat b)

/-- pkg/linkedpage/linkedpage.go:192-211 `Next`; the end of the list is `io.EOF`.  (`m.index+1` is a uint8, the head
wraps around to 0.) -/
def next (m : LP) : Act PF LP := do
  let c ← m.count
  if m.index + 1 < c then return ⟨m.offset, m.index + 1⟩
  else do
    let nx ← m.nextPageOffset
    if nx = 0xFFFFFFFFFFFFFFFF then Act.throw .eof
    else return ⟨nx, 0⟩

/-- The page written by `reset`, pkg/linkedpage/linkedpage.go:260-262 -/
def emptyPage (count : UInt8) : Bytes :=
  List.replicate 8 255 ++ [count] ++ List.replicate (pageSize - 9) 0

/-- pkg/linkedpage/linkedpage.go:258-270 `reset` -/
def reset (m : LP) (count : UInt8) : Act PF Unit := do
  let _ ← seekU64 m.offset
  let _ ← PF.write (emptyPage count)
  return ()

/-- pkg/linkedpage/linkedpage.go:213-256 `AddNext` -/
def addNext (m : LP) : Act PF LP := do
  let c ← m.count
  if m.index + 1 < c then Act.throw (.msg "next pointer already exists")
  else if c ≠ UInt8.ofNat numSlots then do
    let _ ← seekU64 (m.offset + 8)
    let _ ← PF.write [c + 1]
    return ⟨m.offset, m.index + 1⟩
  else do
    let nx ← m.nextPageOffset
    if nx ≠ 0xFFFFFFFFFFFFFFFF then Act.throw (.msg "next pointer already exists")
    else do
      let offset ← PF.newPage none
      let next : LP := ⟨UInt64.ofNat (u64OfInt offset), 0⟩
      next.reset 1
      let _ ← seekU64 m.offset
      let _ ← PF.write (leBytes 8 next.offset.toNat)
      return next

/-- The loop of pkg/linkedpage/linkedpage.go:275-291 `Collect`, from `node` on.  `fuel` bounds the number of slots
visited; running out of it means that the list is cyclic and the Go loop never ends. -/
def collectFrom : Nat → LP → Act PF (List LP)
  | 0, _ => Act.crash
  | fuel + 1, node => fun s =>
    let here := if node.index = 255 then [] else [node]
    match node.next s with
    | (.ok nx, s') => (do
        let rest ← collectFrom fuel nx
        return here ++ rest) s'
    | (.err .eof, s') => (.ok here, s')
    | (.err e, s') => (.err e, s')
    | (.panic, s') => (.panic, s')

/-- Enough fuel for every acyclic list: there are at most 256 slots per byte offset. -/
def listFuel (s : PF) : Nat := 256 * (s.file.bytes.length + 1)

/-- pkg/linkedpage/linkedpage.go:275-291 `Collect` -/
def collect (m : LP) : Act PF (List LP) := fun s => collectFrom (listFuel s) m s

/-- pkg/linkedpage/linkedpage.go:305-326 `NewMultiBPTree` (the argument `page` is ignored by the code) -/
def newMulti : Act PF LP := do
  let offset ← Act.lift (PF.page 0)
  let lmp : LP := ⟨UInt64.ofNat (u64OfInt offset), 255⟩
  let _ ← PF.seek offset
  let (_, eof) ← PF.read pageSize
  if eof then do
    lmp.reset 0
    return lmp
  else return lmp

end LP
end Appendable
