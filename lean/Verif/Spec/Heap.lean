import Verif.Model.Heap
/-! Histories of the distance heap. -/
namespace Appendable.Spec
open DistHeap

/-- Histories: `held` are the items that should be in the heap.  New ids are inserted, and extremes are removed.  An id
that is held is inserted again only with its distance, or if at most three items are held, or if it is the one `PeekMinItem` shows, or if it is the one
`PeekMaxItem` shows and the new distance is not below the minimum. -/
inductive HeapRun : DistHeap → List HeapItem → Prop
  | new : HeapRun DistHeap.new []
  | insert {h h' : DistHeap} {held : List HeapItem} {id : Nat} {dist : Int} : HeapRun h held → id ∉ held.map (·.id) →
      h.insert id dist = .ok h' → HeapRun h' (⟨id, dist⟩ :: held)
  | again {h h' : DistHeap} {held : List HeapItem} {x : HeapItem} {dist : Int} : HeapRun h held → x ∈ held →
      (dist = x.dist ∨ held.length ≤ 3 ∨ h.peekMin = .ok x ∨ (h.peekMax = .ok x ∧ ∃ y, h.peekMin = .ok y ∧ y.dist ≤ dist)) →
      h.insert x.id dist = .ok h' → HeapRun h' (⟨x.id, dist⟩ :: held.erase x)
  | popMin {h h' : DistHeap} {held : List HeapItem} {x : HeapItem} : HeapRun h held → h.popMin = .ok (x, h') →
      HeapRun h' (held.erase x)
  | popMax {h h' : DistHeap} {held : List HeapItem} {x : HeapItem} : HeapRun h held → h.popMax = .ok (x, h') →
      HeapRun h' (held.erase x)

/-- An item of least distance. -/
def Least (held : List HeapItem) (x : HeapItem) : Prop := x ∈ held ∧ ∀ y ∈ held, x.dist ≤ y.dist

/-- An item of greatest distance. -/
def Greatest (held : List HeapItem) (x : HeapItem) : Prop := x ∈ held ∧ ∀ y ∈ held, y.dist ≤ x.dist

end Appendable.Spec
