import Verif.Model.Hnsw
import Verif.Model.VecTree
import Verif.Model.BPTree
/-! pkg/vectorpage/manager.go: the proximity graph together with its two trees. -/
namespace Appendable

/-- pkg/vectorpage/manager.go:13-21 `VectorPageManager`: the two trees.  The graph and the page files are in `VPState`. -/
structure VPManager where
  btree : VTree
  bptree : Tree

/-- What the manager changes: the graph and the page files of the two trees.  Simplification: the two trees do not share a
page file. -/
structure VPState where
  graph : Hnsw F32
  vecs : PF
  nodes : PF

namespace VPManager

/-- A call of a method of `vp.hnsw`. -/
def onGraph {α : Type} (a : Act (Hnsw F32) α) : Act VPState α := fun s => ((a s.graph).1, { s with graph := (a s.graph).2 })

/-- A call of a method of `vp.btree`. -/
def onVecs {α : Type} (a : Act PF α) : Act VPState α := fun s => ((a s.vecs).1, { s with vecs := (a s.vecs).2 })

/-- A call of a method of `vp.bptree`. -/
def onNodes {α : Type} (a : Act PF α) : Act VPState α := fun s => ((a s.nodes).1, { s with nodes := (a s.nodes).2 })

/-- pkg/vectorpage/manager.go:47-54: the buffer of a node's friends, `Neighborhood` and `Flush(8)`. -/
def friendsBuf (id : Nat) : Act VPState Bytes := fun s => ((s.graph.neighborhood id).bind fun f => f.flush 8, s)

/-- pkg/vectorpage/manager.go:35-61 `AddNode`; `level` is what `SpawnLevel` returns in `InsertVector`.  The text put around
an error (lines 49 and 57) is left out. -/
def addNode (o : FloatOps F32) (vp : VPManager) (x : Vec) (level : Int) : Act VPState Unit := do
  let id ← onGraph (Hnsw.insertVector o x level)
  onVecs (vp.btree.insert ⟨⟨0, 0⟩, UInt64.ofNat id⟩ x)
  let buf ← friendsBuf id
  onNodes (vp.bptree.insert ⟨⟨0, 0⟩, buf⟩ ⟨0, 0⟩)

end VPManager
end Appendable
