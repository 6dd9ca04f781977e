import Verif.Model.Pointer
/-! src/bptree/bptree.ts: the TypeScript copy of the key comparison and of the binary search. -/
namespace Appendable

/-- src/bptree/node.ts:9 `MemoryPointer`: `{ offset: bigint; length: number }`.  A `bigint` is an integer; a `number`
that occurs here is an integer, too (it comes out of a varint, of a `DataView` or of the source text). -/
structure TsPtr where
  offset : Int
  length : Int
  deriving DecidableEq, Repr, Inhabited

/-- src/bptree/bptree.ts:199-235 `ReferencedValue` -/
structure TsRV where
  dp : TsPtr
  value : Bytes
  deriving DecidableEq, Repr, Inhabited

/-- src/bptree/bptree.ts:216-234 `ReferencedValue.compareBytes`: the loop over the common prefix
(`idx < min(a.length, b.length)`, first differing byte decides), then the lengths. -/
def tsCompareBytesAux : Nat → Bytes → Bytes → Bytes → Bytes → Int
  | len + 1, x :: xs, y :: ys, a, b =>
    if x ≠ y then (if x < y then -1 else 1) else tsCompareBytesAux len xs ys a b
  | _, _, _, a, b => if a.length < b.length then -1 else if a.length > b.length then 1 else 0

/-- src/bptree/bptree.ts:216-234 -/
def tsCompareBytes (a b : Bytes) : Int := tsCompareBytesAux (min a.length b.length) a b a b

/-- src/bptree/bptree.ts:237-259 `compareReferencedValues` -/
def tsCompareRV (a b : TsRV) : Int :=
  if tsCompareBytes a.value b.value ≠ 0 then tsCompareBytes a.value b.value
  else if a.dp.offset > b.dp.offset then 1
  else if a.dp.offset < b.dp.offset then -1
  else if a.dp.length > b.dp.length then 1
  else if a.dp.length < b.dp.length then -1
  else 0

/-- src/bptree/bptree.ts:261-281 `binarySearchReferencedValues` -/
def tsBinarySearch (values : List TsRV) (target : TsRV) : Nat × Bool :=
  let i := bsearchLoop tsCompareRV values target values.length 0 values.length
  (i, match values[i]? with
      | some k => tsCompareRV k target == 0
      | none => false)

/-- The TypeScript image of a Go memory pointer: the same numbers. -/
def MemPtr.ts (p : MemPtr) : TsPtr := ⟨p.offset.toNat, p.length.toNat⟩

/-- The TypeScript image of a Go key. -/
def RV.ts (k : RV) : TsRV := ⟨k.dp.ts, k.value⟩

end Appendable
