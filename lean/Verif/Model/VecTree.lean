import Verif.Model.BPTree
/-! pkg/btree/node.go and pkg/btree/btree.go: the B-tree of vectors. -/
namespace Appendable

/-- A `float32` as its bit pattern. -/
abbrev F32 := UInt32

/-- pkg/hnsw/friends.go:10 `Point` -/
abbrev Vec := List F32

/-- pkg/pointer/referenced_value.go:22-25 `ReferencedId` -/
structure RefId where
  dp : MemPtr
  value : UInt64
  deriving DecidableEq, Repr, Inhabited

/-- pkg/pointer/referenced_value.go:50-58 `CompareReferencedIds` -/
def compareRefId (a b : RefId) : Int :=
  if a.value > b.value then 1 else if a.value < b.value then -1 else 0

/-- Rounding of `x / 2^k` to a natural number, ties to even. -/
def roundShift (x k : Nat) : Nat :=
  let q := x / 2 ^ k
  let r := x % 2 ^ k
  if 2 * r > 2 ^ k ∨ (2 * r = 2 ^ k ∧ q % 2 = 1) then q + 1 else q

/-- Go's conversion `float32(x)` of a `uint32` x (as a bit pattern): the nearest number, ties to even.  With
`e = log2 x`, the significand has 24 bits; rounding up to `2^24` carries into the exponent by itself. -/
def f32OfU32 (x : UInt32) : F32 :=
  if x = 0 then 0
  else
    let e := Nat.log2 x.toNat
    let sig := if e ≤ 23 then x.toNat * 2 ^ (23 - e) else roundShift x.toNat (e - 23)
    UInt32.ofNat ((126 + e) * 2 ^ 23 + sig)

/-- pkg/btree/node.go:13-20 `BTreeNode` without the width, which is never used. -/
structure VNode where
  ids : List RefId
  vectors : List Vec
  offsets : List UInt64
  dim : UInt64
  deriving DecidableEq, Repr, Inhabited

namespace VNode

/-- pkg/btree/node.go:45-47 `Leaf` -/
def leaf (n : VNode) : Bool := decide (n.offsets.length = 0)

/-- Serialized size of one id, pkg/btree/node.go:25-29. -/
def idSize (k : RefId) : Nat := sizeVarint k.dp.offset + sizeVarint k.dp.length.toUInt64 + sizeVarint k.value

/-- pkg/btree/node.go:22-43 `Size`, for a dimension that is not 0 (which panics).  The product is taken without
overflow. -/
def size (n : VNode) : Nat :=
  4 + (n.ids.map idSize).sum + (n.offsets.map sizeVarint).sum + sizeVarint n.dim + n.vectors.length * (4 * n.dim.toNat)

/-- One serialized id, pkg/btree/node.go:66-69. -/
def encId (k : RefId) : Bytes := putUvarint k.dp.offset ++ putUvarint k.dp.length.toUInt64 ++ putUvarint k.value

/-- The four header bytes, pkg/btree/node.go:50, 58-62. -/
def encHeader (n : VNode) : Bytes :=
  leBytes 4 (if n.leaf then (2 ^ 32 - n.ids.length % 2 ^ 32) % 2 ^ 32 else n.ids.length % 2 ^ 32)

/-- One component, pkg/btree/node.go:82-83. -/
def encF32 (x : F32) : Bytes := leBytes 4 x.toNat

/-- One vector, pkg/btree/node.go:81-84. -/
def encVec (v : Vec) : Bytes := (v.map encF32).flatten

/-- The bytes written by pkg/btree/node.go:58-85. -/
def content (n : VNode) : Bytes :=
  encHeader n ++ (n.ids.map encId).flatten ++ (n.offsets.map putUvarint).flatten ++ putUvarint n.dim
    ++ (n.vectors.map encVec).flatten

/-- pkg/btree/node.go:49-92 `MarshalBinary`: panics without ids, with dimension 0 (in `Size`), and if the bytes written
are not exactly `Size()` bytes (index out of range, or the explicit check). -/
def marshal (n : VNode) : Res Bytes :=
  if n.ids.length % 2 ^ 32 = 0 then .panic
  else if n.dim = 0 then .panic
  else if n.content.length ≠ n.size then .panic
  else .ok n.content

/-- One id, pkg/btree/node.go:114-125. -/
def readId (buf : Bytes) (m : Int) : Res (RefId × Int) :=
  (readMemPtr buf m).bind fun (dp, m1) => (readUvarint buf m1).bind fun (v, m2) => .ok (⟨dp, v⟩, m2)

/-- One component, pkg/btree/node.go:144-145: the 32 bits are taken as an integer, which is converted to a float. -/
def readF32 (buf : Bytes) (m : Int) : Res (F32 × Int) :=
  (sliceRes buf m 4).bind fun b => .ok (f32OfU32 (UInt32.ofNat (leNat b)), m + 4)

/-- The rest of pkg/btree/node.go:112-151 `UnmarshalBinary`, for `n` ids and `k` offsets. -/
def readRest (buf : Bytes) (n k : Nat) : Res VNode :=
  (readMany readId buf n 4).bind fun (ids, m1) =>
  (readMany readUvarint buf k m1).bind fun (offs, m2) =>
  (readUvarint buf m2).bind fun (dim, m3) =>
  (readMany (fun b m => readMany readF32 b dim.toNat m) buf n m3).bind fun (vecs, _) =>
  .ok ⟨ids, vecs, offs, dim⟩

/-- pkg/btree/node.go:94-152 `UnmarshalBinary`; size 0 panics, a negative size is a leaf. -/
def unmarshal (buf : Bytes) : Res VNode :=
  if buf.length < 4 then .panic
  else
    let h := leNat (buf.take 4)
    if h = 0 ∨ h = 2 ^ 31 then .panic
    else if h < 2 ^ 31 then readRest buf h (h + 1)
    else readRest buf (2 ^ 32 - h) 0

end VNode

/-- pkg/btree/btree.go:13-18 `BTree`: the position of the root pointer, and the dimension. -/
structure VTree where
  rootPos : Nat
  dim : UInt64

/-- pkg/btree/btree.go:57-61 `TraversalRecord` -/
structure VRec where
  node : VNode
  index : Nat
  ptr : MemPtr
  deriving DecidableEq, Repr

namespace VTree

/-- pkg/btree/btree.go:38-55 `readNode` -/
def readNode (offset : UInt64) : Act PF VNode := do
  let _ ← PF.seek (int64OfU64 offset.toNat)
  let (d, eof) ← PF.read pageSize
  if eof then Act.throw .eof
  else Act.lift (VNode.unmarshal (d ++ List.replicate (pageSize - d.length) 0))

/-- pkg/btree/btree.go:24-36 `root` -/
def root (t : VTree) : Act PF (Option (VNode × MemPtr)) := do
  let mp ← rootAt t.rootPos
  if mp.length = 0 then return none
  else
    let n ← readNode mp.offset
    return some (n, mp)

/-- pkg/btree/btree.go:63-90 `traverse`; `fuel` as in `Tree.traverse`. -/
def traverse (key : RefId) : Nat → VNode → MemPtr → Act PF (List VRec)
  | 0, _, _ => Act.crash
  | fuel + 1, node, ptr =>
    let (index, found) := bsearch compareRefId node.ids key
    if node.leaf then return [⟨node, index, ptr⟩]
    else
      let index := if found then index + 1 else index
      match node.offsets[index]? with
      | none => Act.crash
      | some childOffset => do
        let child ← readNode childOffset
        let path ← traverse key fuel child ⟨childOffset, 0⟩
        return path ++ [⟨node, index, ptr⟩]

/-- `Seek` and `WriteTo`, pkg/btree/btree.go:177-183 and 227-232. -/
def writeNode (off : UInt64) (n : VNode) : Act PF Unit := do
  let _ ← PF.seek (int64OfU64 off.toNat)
  let b ← Act.lift n.marshal
  let _ ← PF.write b
  return ()

/-- The right half of a split node, pkg/btree/btree.go:148-158. -/
def rightHalf (t : VTree) (n : VNode) (mid : Nat) : VNode :=
  if n.leaf then ⟨n.ids.drop mid, n.vectors.drop mid, [], t.dim⟩
  else ⟨n.ids.drop (mid + 1), n.vectors.drop (mid + 1), n.offsets.drop (mid + 1), t.dim⟩

/-- The left half of a split node, pkg/btree/btree.go:168-175. -/
def leftHalf (n : VNode) (mid : Nat) : VNode :=
  if n.leaf then { n with ids := n.ids.take mid, vectors := n.vectors.take mid }
  else { n with ids := n.ids.take mid, vectors := n.vectors.take mid, offsets := n.offsets.take (mid + 1) }

/-- One round of the loop of pkg/btree/btree.go:138-236, up to the update of the parent.  Dimension 0 panics in `Size`. -/
def writeOrSplit (t : VTree) (tr : VRec) : Act PF (Option (RefId × Vec × UInt64 × UInt64)) :=
  let n := tr.node
  if n.dim = 0 then Act.crash
  else if n.size > pageSize then
    let mid := n.ids.length / 2
    match n.ids[mid]?, n.vectors[mid]? with
    | some midKey, some midVector => do
      let mbuf ← Act.lift (t.rightHalf n mid).marshal
      let moffset ← PF.newPage (some mbuf)
      writeNode tr.ptr.offset (leftHalf n mid)
      return some (midKey, midVector, tr.ptr.offset, UInt64.ofNat (u64OfInt moffset))
    | _, _ => Act.crash
  else do
    writeNode tr.ptr.offset n
    return none

/-- The update of the parent, pkg/btree/btree.go:186-202. -/
def parentUpdate (p : VRec) (midKey : RefId) (midVector : Vec) (noffset moffset : UInt64) : VRec :=
  let i := p.index
  { p with node := { p.node with ids := p.node.ids.take i ++ midKey :: p.node.ids.drop i
                                 vectors := p.node.vectors.take i ++ midVector :: p.node.vectors.drop i
                                 offsets := ((p.node.offsets.take (i + 1) ++ p.node.offsets.drop i).set i noffset).set (i + 1) moffset } }

/-- The new root after a root split, pkg/btree/btree.go:203-224. -/
def newRoot (t : VTree) (midKey : RefId) (midVector : Vec) (noffset moffset : UInt64) : Act PF Unit := do
  let pbuf ← Act.lift (⟨[midKey], [midVector], [noffset, moffset], t.dim⟩ : VNode).marshal
  let poffset ← PF.newPage (some pbuf)
  setRootAt t.rootPos ⟨UInt64.ofNat (u64OfInt poffset), UInt32.ofNat pbuf.length⟩

/-- The loop of pkg/btree/btree.go:138-236 from the record `tr` on, with the remaining path. -/
def insertLoop (t : VTree) : VRec → List VRec → Act PF Unit
  | tr, [] => do
    match ← t.writeOrSplit tr with
    | none => return ()
    | some (k, v, n, m) => t.newRoot k v n m
  | tr, p :: rest => do
    match ← t.writeOrSplit tr with
    | none => return ()
    | some (k, v, n, m) => insertLoop t (parentUpdate p k v n m) rest

/-- pkg/btree/btree.go:128-136: the leaf with the new entry at position `j`. -/
def leafInsert (n : VNode) (j : Nat) (key : RefId) (vector : Vec) : VNode :=
  { n with ids := n.ids.take j ++ key :: n.ids.drop j, vectors := n.vectors.take j ++ vector :: n.vectors.drop j }

/-- pkg/btree/btree.go:92-238 `Insert` -/
def insert (t : VTree) (key : RefId) (vector : Vec) : Act PF Unit := do
  match ← t.root with
  | none =>
    let buf ← Act.lift (⟨[key], [vector], [], t.dim⟩ : VNode).marshal
    let offset ← PF.newPage (some buf)
    setRootAt t.rootPos ⟨UInt64.ofNat (u64OfInt offset), UInt32.ofNat buf.length⟩
  | some (root, rootOffset) =>
    let s ← Act.get
    match ← traverse key (Tree.fuel s) root rootOffset with
    | [] => Act.crash
    | tr :: rest =>
      let (j, found) := bsearch compareRefId tr.node.ids key
      if found then Act.throw (.msg "key already exists")
      else t.insertLoop { tr with node := leafInsert tr.node j key vector } rest

/-- The end of pkg/btree/btree.go:251-258: the entry at `j`; a missing vector panics. -/
def entryAt (n : VNode) (j : Nat) (found : Bool) : Res (RefId × Vec) :=
  if found then
    match n.ids[j]?, n.vectors[j]? with
    | some k, some v => .ok (k, v)
    | _, _ => .panic
  else .err (.msg "key not found")

/-- pkg/btree/btree.go:240-259 `Find`; on an empty tree Go returns zero values and no error, here `none`. -/
def find (t : VTree) (key : RefId) : Act PF (Option (RefId × Vec)) := do
  match ← t.root with
  | none => return none
  | some (root, rootOffset) =>
    let s ← Act.get
    match ← traverse key (Tree.fuel s) root rootOffset with
    | [] => return none
    | tr :: _ =>
      let (j, found) := bsearch compareRefId tr.node.ids key
      let e ← Act.lift (entryAt tr.node j found)
      return some e

end VTree
end Appendable
