import Verif.Model.Res
import Verif.Model.Pointer
/-! pkg/bptree/node.go: B+ tree nodes and their binary format. -/
namespace Appendable

/-- pkg/pagefile/pagefile.go:39 `pageSizeBytes` and src/bptree/node.ts:7 -/
def pageSize : Nat := 4096

/-- The configuration fields of pkg/bptree/node.go:15-26 `BPTreeNode` (and of `BPTree`,
pkg/bptree/bptree.go:14-22): the data file, the data parser and the width of the field type.
The parser (pkg/handlers/jsonl.go, csv.go) is a parameter. -/
structure Cfg where
  data : Bytes
  parse : Bytes → Bytes
  width : UInt16

/-- pkg/bptree/node.go:15-26 `BPTreeNode` without the configuration fields. -/
structure Node where
  leafPtrs : List MemPtr
  intPtrs : List UInt64
  keys : List RV
  deriving DecidableEq, Repr, Inhabited

/-- pkg/bptree/node.go:28-30 `Leaf` -/
def Node.leaf (n : Node) : Bool := decide (0 < n.leafPtrs.length)

/-- pkg/bptree/node.go:32-37 `Pointer`; `none` is the index-out-of-range panic. -/
def Node.pointer (n : Node) (i : Nat) : Option MemPtr :=
  if n.leaf then n.leafPtrs[i]? else (n.intPtrs[i]?).map (fun o => ⟨o, 0⟩)

/-- pkg/bptree/node.go:39-41 `NumPointers` -/
def Node.numPointers (n : Node) : Nat := n.intPtrs.length + n.leafPtrs.length

/-- Serialized size of one key, pkg/bptree/node.go:45-53. -/
def keySize (width : UInt16) (k : RV) : Nat :=
  sizeVarint k.dp.length.toUInt64 + sizeVarint k.dp.offset + (if width ≠ 0 then k.value.length else 0)

/-- Serialized size of one leaf pointer, pkg/bptree/node.go:54-58. -/
def leafPtrSize (p : MemPtr) : Nat := sizeVarint p.offset + sizeVarint p.length.toUInt64

/-- Serialized size of one child pointer, pkg/bptree/node.go:59-62 (`len(binary.AppendUvarint(nil, n))`). -/
def intPtrSize (p : UInt64) : Nat := (putUvarint p).length

/-- pkg/bptree/node.go:43-64 `Size` -/
def Node.size (width : UInt16) (n : Node) : Nat :=
  4 + (n.keys.map (keySize width)).sum + (n.leafPtrs.map leafPtrSize).sum + (n.intPtrs.map intPtrSize).sum

/-- One serialized key, pkg/bptree/node.go:80-91. -/
def encKey (width : UInt16) (k : RV) : Bytes :=
  putUvarint k.dp.offset ++ putUvarint k.dp.length.toUInt64 ++ (if width ≠ 0 then k.value else [])

/-- One serialized leaf pointer, pkg/bptree/node.go:92-97. -/
def encLeafPtr (p : MemPtr) : Bytes := putUvarint p.offset ++ putUvarint p.length.toUInt64

/-- The 4 header bytes: `uint32(-size)` for a leaf and `uint32(size)` otherwise, where
`size := int32(len(n.Keys))`, pkg/bptree/node.go:67-78. -/
def encHeader (n : Node) : Bytes :=
  leBytes 4 (if n.leaf then (2 ^ 32 - n.keys.length % 2 ^ 32) % 2 ^ 32 else n.keys.length % 2 ^ 32)

/-- The bytes written by pkg/bptree/node.go:71-101. -/
def Node.content (width : UInt16) (n : Node) : Bytes :=
  encHeader n ++ (n.keys.map (encKey width)).flatten ++ (n.leafPtrs.map encLeafPtr).flatten
    ++ (n.intPtrs.map putUvarint).flatten

/-- pkg/bptree/node.go:66-106 `MarshalBinary`: panics on an empty node ("writing empty node", `int32(len)`
is zero), and when the bytes written are not exactly `Size()` bytes: too many is an index out of range in
`PutUvarint`/`copy`, too few is the explicit "size mismatch". -/
def Node.marshal (width : UInt16) (n : Node) : Res Bytes :=
  if n.keys.length % 2 ^ 32 = 0 then .panic
  else if (n.content width).length ≠ n.size width then .panic
  else .ok (n.content width)

/-- `o, on := binary.Uvarint(buf[m:])`; `m += on` (pkg/bptree/node.go:134-137,152-156,160-162).  Slicing
outside of the buffer panics; `on` is 0 or negative when the varint is malformed and the code goes on. -/
def readUvarint (buf : Bytes) (m : Int) : Res (UInt64 × Int) :=
  if 0 ≤ m ∧ m ≤ buf.length then
    let r := uvarint (buf.drop m.toNat)
    .ok (r.1, m + r.2)
  else .panic

/-- A pair of varints: offset and `uint32` length (pkg/bptree/node.go:134-142, 152-158). -/
def readMemPtr (buf : Bytes) (m : Int) : Res (MemPtr × Int) := do
  let (o, m1) ← readUvarint buf m
  let (l, m2) ← readUvarint buf m1
  return (⟨o, l.toUInt32⟩, m2)

/-- `buf[m : m+n]`, panicking outside of the buffer. -/
def sliceRes (buf : Bytes) (m : Int) (n : Nat) : Res Bytes :=
  if 0 ≤ m ∧ m + n ≤ buf.length then .ok ((buf.drop m.toNat).take n) else .panic

/-- One key, pkg/bptree/node.go:133-150.  With width 0 the key value is parsed out of the data file:
`Parse(Data[dp.Offset : dp.Offset+uint64(dp.Length)])`; the slice panics outside of the data file (also if
the uint64 addition wraps, because then the end is below the start). -/
def readKey (cfg : Cfg) (buf : Bytes) (m : Int) : Res (RV × Int) := do
  let (dp, m1) ← readMemPtr buf m
  if cfg.width = 0 then
    let d ← sliceRes cfg.data dp.offset.toNat dp.length.toNat
    return (⟨dp, cfg.parse d⟩, m1)
  else
    let w := (cfg.width - 1).toNat
    let v ← sliceRes buf m1 w
    return (⟨dp, v⟩, m1 + w)

/-- A `for i := range xs { xs[i], m = read(buf, m) }` loop of pkg/bptree/node.go:132-163. -/
def readMany {α : Type} (read : Bytes → Int → Res (α × Int)) (buf : Bytes) : Nat → Int → Res (List α × Int)
  | 0, m => .ok ([], m)
  | n + 1, m => do
    let (a, m1) ← read buf m
    let (as, m2) ← readMany read buf n m1
    return (a :: as, m2)

/-- pkg/bptree/node.go:117-165 `UnmarshalBinary` into a fresh node.  `size := int32(Uint32(buf[:4]))`; a
buffer under 4 bytes panics, size 0 panics ("empty node"), size -2^31 panics (`make` with negative length). -/
def Node.unmarshal (cfg : Cfg) (buf : Bytes) : Res Node :=
  if buf.length < 4 then .panic
  else
    let h := leNat (buf.take 4)
    if h = 0 ∨ h = 2 ^ 31 then .panic
    else if h < 2 ^ 31 then do
      let (ks, m1) ← readMany (readKey cfg) buf h 4
      let (ps, _) ← readMany readUvarint buf (h + 1) m1
      return ⟨[], ps, ks⟩
    else do
      let n := 2 ^ 32 - h
      let (ks, m1) ← readMany (readKey cfg) buf n 4
      let (ps, _) ← readMany readMemPtr buf n m1
      return ⟨ps, [], ks⟩

end Appendable
