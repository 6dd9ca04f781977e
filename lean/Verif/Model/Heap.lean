import Verif.Model.Res
/-! pkg/hnsw/heap.go: the min-max heap of distances. -/
namespace Appendable

/-- pkg/hnsw/heap.go:9-12 `Item`.  The `float32` distance is replaced by the integer with the same position in the
order of the numbers that are not NaN (both zeros are one integer).  Items are values here, pointers in Go; two heaps
share them only after `Clone` (pkg/hnsw/heap.go:131-141, used by `Flush` only, which drops the clone). -/
structure HeapItem where
  id : Nat
  dist : Int
  deriving DecidableEq, Repr, Inhabited

/-- pkg/hnsw/heap.go:16-19 `DistHeap` -/
structure DistHeap where
  items : List HeapItem
  visited : Nat → Option Nat

namespace DistHeap

/-- pkg/hnsw/heap.go:21-24 `level` -/
def level (i : Nat) : Nat := Nat.log2 (i + 1)

/-- pkg/hnsw/heap.go:26-28 -/
def isMinLevel (i : Nat) : Bool := level i % 2 == 0

/-- pkg/hnsw/heap.go:30-32 -/
def lchild (i : Nat) : Nat := i * 2 + 1

/-- pkg/hnsw/heap.go:34-36 -/
def rchild (i : Nat) : Nat := i * 2 + 2

/-- pkg/hnsw/heap.go:38-40; in Go `parent(0)` is 0 too, since -1/2 is 0. -/
def parent (i : Nat) : Nat := (i - 1) / 2

/-- pkg/hnsw/heap.go:50-52 -/
def grandparent (i : Nat) : Nat := parent (parent i)

/-- pkg/hnsw/heap.go:226 `Less`; an index out of range panics. -/
def less (h : DistHeap) (i j : Nat) : Res Bool :=
  match h.items[i]?, h.items[j]? with
  | some a, some b => .ok (decide (a.dist < b.dist))
  | _, _ => .panic

/-- Assignment to a map. -/
def upd (v : Nat → Option Nat) (k : Nat) (x : Option Nat) : Nat → Option Nat := fun k' => if k' = k then x else v k'

/-- pkg/hnsw/heap.go:227-230 `Swap` -/
def swapAt (i j : Nat) (h : DistHeap) : Res DistHeap :=
  match h.items[i]?, h.items[j]? with
  | some a, some b => .ok ⟨(h.items.set i b).set j a, upd (upd h.visited a.id (some j)) b.id (some i)⟩
  | _, _ => .panic

/-- `if d.Less(c, m) == min { m = c }` -/
def pick (h : DistHeap) (mn : Bool) (c m : Nat) : Res Nat := (h.less c m).bind fun b => .ok (if b = mn then c else m)

/-- pkg/hnsw/heap.go:68-71: the right child. -/
def pickRight (h : DistHeap) (mn : Bool) (n r m : Nat) : Res Nat := if r < n then h.pick mn r m else .ok m

/-- pkg/hnsw/heap.go:73-78: the loop over the grandchildren; `k` bounds the number of rounds, of which there are at
most four. -/
def grandLoop (h : DistHeap) (mn : Bool) (n last : Nat) : Nat → Nat → Nat → Res Nat
  | 0, _, m => .ok m
  | k + 1, g, m => if g < n ∧ g ≤ last then (h.pick mn g m).bind fun m' => grandLoop h mn n last k (g + 1) m' else .ok m

/-- pkg/hnsw/heap.go:91-94: exchange with the parent if the order demands it. -/
def fixParent (mn : Bool) (m : Nat) (h : DistHeap) : Res DistHeap :=
  (h.less (parent m) m).bind fun b => if b = mn then h.swapAt m (parent m) else .ok h

/-- The loop of pkg/hnsw/heap.go:57-96; it returns the last `i`.  `fuel` bounds the number of rounds. -/
def downLoop (mn : Bool) (n : Nat) : Nat → Nat → DistHeap → Res (Nat × DistHeap)
  | 0, _, _ => .panic
  | fuel + 1, i, h =>
    if n ≤ lchild i then .ok (i, h)
    else
      (h.pick mn (lchild i) i).bind fun m1 =>
      (h.pickRight mn n (rchild i) m1).bind fun m2 =>
      (h.grandLoop mn n (rchild (rchild i)) 4 (lchild (lchild i)) m2).bind fun m =>
      if m = i then .ok (i, h)
      else (h.swapAt i m).bind fun h1 =>
        if m = lchild i ∨ m = rchild i then .ok (i, h1)
        else (fixParent mn m h1).bind fun h2 => downLoop mn n fuel m h2

/-- pkg/hnsw/heap.go:54-98 `down` -/
def down (i n : Nat) (h : DistHeap) : Res (Bool × DistHeap) :=
  (downLoop (isMinLevel i) n (n + 1) i h).bind fun (j, h') => .ok (decide (j > i), h')

/-- The loop of pkg/hnsw/heap.go:112-120. -/
def upLoop (mn : Bool) : Nat → Nat → DistHeap → Res DistHeap
  | 0, _, _ => .panic
  | fuel + 1, i, h =>
    if i > 2 then (h.less i (grandparent i)).bind fun b =>
      if b ≠ mn then .ok h else (h.swapAt i (grandparent i)).bind fun h' => upLoop mn fuel (grandparent i) h'
    else .ok h

/-- pkg/hnsw/heap.go:100-121 `up` -/
def up (i : Nat) (h : DistHeap) : Res DistHeap :=
  if i > 0 then (h.less (parent i) i).bind fun b =>
    if b = isMinLevel i then (h.swapAt i (parent i)).bind fun h' => upLoop (!isMinLevel i) (i + 1) (parent i) h'
    else upLoop (isMinLevel i) (i + 1) i h
  else upLoop (isMinLevel i) (i + 1) i h

/-- pkg/hnsw/heap.go:123-129 `NewDistHeap` -/
def new : DistHeap := ⟨[], fun _ => none⟩

/-- pkg/hnsw/heap.go:225 `Len` -/
def len (h : DistHeap) : Nat := h.items.length

/-- `EmptyHeapError`, pkg/hnsw/heap.go:14 -/
def emptyErr : Err := .msg "Empty Heap"

/-- pkg/hnsw/heap.go:143-149 `PeekMinItem` -/
def peekMin (h : DistHeap) : Res HeapItem :=
  match h.items with
  | [] => .err emptyErr
  | x :: _ => .ok x

/-- `if c < n && !d.Less(c, i) { i = c }` -/
def pickMax (h : DistHeap) (c i : Nat) : Res Nat :=
  if c < h.len then (h.less c i).bind fun b => .ok (if b then i else c) else .ok i

/-- pkg/hnsw/heap.go:158-167 and 187-197: the index of the greatest item. -/
def maxIndex (h : DistHeap) : Res Nat := (h.pickMax (lchild 0) 0).bind fun i => h.pickMax (rchild 0) i

/-- `d.items[i]` -/
def itemAt (h : DistHeap) (i : Nat) : Res HeapItem :=
  match h.items[i]? with
  | some x => .ok x
  | none => .panic

/-- pkg/hnsw/heap.go:150-170 `PeekMaxItem` -/
def peekMax (h : DistHeap) : Res HeapItem :=
  if h.len = 0 then .err emptyErr else h.maxIndex.bind h.itemAt

/-- pkg/hnsw/heap.go:234-241 `Pop` -/
def pop (h : DistHeap) : Res (HeapItem × DistHeap) :=
  match h.items.getLast? with
  | some x => .ok (x, ⟨h.items.dropLast, upd h.visited x.id none⟩)
  | none => .panic

/-- pkg/hnsw/heap.go:171-180 `PopMinItem` -/
def popMin (h : DistHeap) : Res (HeapItem × DistHeap) :=
  if h.len = 0 then .err emptyErr
  else (h.swapAt 0 (h.len - 1)).bind fun h1 => (h1.down 0 (h.len - 1)).bind fun (_, h2) => h2.pop

/-- pkg/hnsw/heap.go:181-203 `PopMaxItem` -/
def popMax (h : DistHeap) : Res (HeapItem × DistHeap) :=
  if h.len = 0 then .err emptyErr
  else h.maxIndex.bind fun i =>
    (h.swapAt i (h.len - 1)).bind fun h1 => (h1.down i (h.len - 1)).bind fun (_, h2) => h2.pop

/-- pkg/hnsw/heap.go:218-222 `Fix` -/
def fix (i : Nat) (h : DistHeap) : Res DistHeap :=
  (h.down i h.len).bind fun (moved, h') => if moved then .ok h' else h'.up i

/-- pkg/hnsw/heap.go:214: `d.items[index].dist = dist` -/
def setDist (index : Nat) (dist : Int) (h : DistHeap) : Res DistHeap :=
  match h.items[index]? with
  | some x => .ok { h with items := h.items.set index { x with dist := dist } }
  | none => .panic

/-- pkg/hnsw/heap.go:204-216 `Insert` -/
def insert (id : Nat) (dist : Int) (h : DistHeap) : Res DistHeap :=
  match h.visited id with
  | none => up h.len ⟨h.items ++ [⟨id, dist⟩], upd h.visited id (some h.len)⟩
  | some index => (h.setDist index dist).bind (fix index)

end DistHeap
end Appendable
