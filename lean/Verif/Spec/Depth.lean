import Verif.Spec.Tree
/-! The pages between the root of a tree and its leaves. -/
namespace Appendable.Spec
open Appendable Tree

/-- `Down t s off d`: some way down from the page at `off` through child pointers passes `d` pages, the last of them a leaf. -/
inductive Down (t : Tree) (s : PF) : UInt64 → Nat → Prop
  | leaf {off : UInt64} {n : Node} {s' : PF} (h : t.readNode ⟨off, 0⟩ s = (.ok n, s')) (hl : n.leaf = true) : Down t s off 1
  | step {off o : UInt64} {n : Node} {s' : PF} {d : Nat} (h : t.readNode ⟨off, 0⟩ s = (.ok n, s')) (hl : n.leaf = false) (ho : o ∈ n.intPtrs)
      (hd : Down t s o d) : Down t s off (d + 1)

end Appendable.Spec
