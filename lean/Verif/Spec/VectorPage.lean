import Verif.Model.VectorPage
import Verif.Spec.Hnsw
import Verif.Spec.Vec
/-! Histories of the vector page manager. -/
namespace Appendable.Spec
open Appendable

/-- The bytes that describe the neighbours of the vector `id`: what `Neighborhood` and `Flush(8)` return. -/
def NodeBytes (h : Hnsw F32) (id : Nat) (b : Bytes) : Prop := ∃ fr, h.neighborhood id = .ok fr ∧ fr.flush 8 = .ok b

/-- Histories of a manager: a new graph with its first vector, two empty trees of the right dimension and width, and then
calls of `AddNode` with vectors of the right dimension; calls may have failed.  `ps` are the vectors of the graph with their
levels, in order; `bs` the buffers of the calls that succeeded, latest first. -/
inductive VPRun (o : FloatOps F32) (vp : VPManager) : VPState → List (Vec × Int) → List Bytes → Prop
  | start {g : Hnsw F32} {vecs nodes : PF} {d ef M : Nat} {p : Vec} (hg : Hnsw.new d ef M p = .ok g)
      (hv : VecRun vp.btree vecs []) (hd : vp.btree.dim.toNat = d) (hn : ForestRun [vp.bptree] nodes (fun _ => []))
      (hw : vp.bptree.cfg.width = 41) : VPRun o vp ⟨g, vecs, nodes⟩ [(p, 0)] []
  | added {st st' : VPState} {ps : List (Vec × Int)} {bs : List Bytes} {x : Vec} {level : Int} {b : Bytes} (hr : VPRun o vp st ps bs)
      (hx : x.length = vp.btree.dim.toNat) (hl : 0 ≤ level) (h : vp.addNode o x level st = (.ok (), st'))
      (hb : NodeBytes st'.graph ps.length b) : VPRun o vp st' (ps ++ [(x, level)]) (b :: bs)
  | failed {st st' : VPState} {ps : List (Vec × Int)} {bs : List Bytes} {x : Vec} {level : Int} {m : String} (hr : VPRun o vp st ps bs)
      (hx : x.length = vp.btree.dim.toNat) (hl : 0 ≤ level) (h : vp.addNode o x level st = (.err (.msg m), st')) :
      VPRun o vp st' (ps ++ [(x, level)]) bs

end Appendable.Spec
