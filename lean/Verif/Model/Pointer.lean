import Verif.Model.Encoding
/-! pkg/pointer: memory pointers, referenced values and their order. -/
namespace Appendable

/-- pkg/pointer/pointer.go:6-9 `MemoryPointer` -/
structure MemPtr where
  offset : UInt64
  length : UInt32
  deriving DecidableEq, Repr, Inhabited

/-- The zero `MemoryPointer{}`. -/
def MemPtr.zero : MemPtr := ⟨0, 0⟩

/-- pkg/pointer/referenced_value.go:9-20 `ReferencedValue` -/
structure RV where
  dp : MemPtr
  value : Bytes
  deriving DecidableEq, Repr, Inhabited

/-- `bytes.Compare` (Go standard library): -1, 0 or 1, lexicographic, a proper prefix is smaller. -/
def bytesCompare : Bytes → Bytes → Int
  | [], [] => 0
  | [], _ :: _ => -1
  | _ :: _, [] => 1
  | a :: as, b :: bs => if a < b then -1 else if b < a then 1 else bytesCompare as bs

/-- pkg/pointer/referenced_value.go:35-48 `CompareReferencedValues` -/
def compareRV (a b : RV) : Int :=
  if bytesCompare a.value b.value ≠ 0 then bytesCompare a.value b.value
  else if a.dp.offset < b.dp.offset then -1
  else if b.dp.offset < a.dp.offset then 1
  else if a.dp.length < b.dp.length then -1
  else if b.dp.length < a.dp.length then 1
  else 0

/-- The loop of `slices.BinarySearchFunc` (Go standard library, used in pkg/bptree/bptree.go:228,287 and
pkg/btree/btree.go:62,130,245) and of src/bptree/bptree.ts:261-281 `binarySearchReferencedValues`:
find the least index `i` with `cmp(x[i], target) >= 0`.  `fuel` bounds the number of halvings;
`cmp(x[h], target)` with `h` out of range cannot happen (`h < j <= n`). -/
def bsearchLoop {K T : Type} (cmp : K → T → Int) (x : List K) (target : T) : Nat → Nat → Nat → Nat
  | 0, i, _ => i
  | fuel + 1, i, j =>
    if i < j then
      let h := (i + j) / 2
      match x[h]? with
      | some k => if cmp k target < 0 then bsearchLoop cmp x target fuel (h + 1) j
                  else bsearchLoop cmp x target fuel i h
      | none => i
    else i

/-- `slices.BinarySearchFunc(x, target, cmp)`: position and whether the target was found. -/
def bsearch {K T : Type} (cmp : K → T → Int) (x : List K) (target : T) : Nat × Bool :=
  let i := bsearchLoop cmp x target x.length 0 x.length
  (i, match x[i]? with
      | some k => cmp k target == 0
      | none => false)

end Appendable
