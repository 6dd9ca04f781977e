import Verif.Model.VecTree
import Verif.Spec.Alloc
import Verif.Spec.Tree
/-! Histories of a vector tree, seen from the API. -/
namespace Appendable.Spec
open Appendable

/-- `VecRun t s c`: the page file `s` is reached by allocating pages, choosing a zeroed root slot in one of them for the
vector tree `t`, and then any sequence of inserts of vectors of the tree's dimension, rejected inserts, look-ups and
reopening of the file.  `c` lists the ids and vectors inserted successfully, latest first. -/
inductive VecRun (t : VTree) : PF → List (RefId × Vec) → Prop
  | start {s : PF} {owned freed : List Nat} {n : Nat} (ha : AllocRun s owned freed n) (hd : t.dim ≠ 0)
      (hs : t.rootPos % pageSize + 12 ≤ pageSize) (ho : t.rootPos / pageSize * pageSize ∈ owned)
      (hz : slice s.file.bytes t.rootPos 12 = List.replicate 12 0) : VecRun t s []
  | insert {s s' : PF} {c : List (RefId × Vec)} {k : RefId} {v : Vec} (hr : VecRun t s c) (hv : v.length = t.dim.toNat)
      (h : t.insert k v s = (.ok (), s')) : VecRun t s' ((k, v) :: c)
  | rejected {s s' : PF} {c : List (RefId × Vec)} {k : RefId} {v : Vec} {m : String} (hr : VecRun t s c)
      (hv : v.length = t.dim.toNat) (h : t.insert k v s = (.err (.msg m), s')) : VecRun t s' c
  | find {s s' : PF} {c : List (RefId × Vec)} {k : RefId} {r : Res (Option (RefId × Vec))} (hr : VecRun t s c)
      (h : t.find k s = (r, s')) : VecRun t s' c
  | reopen {s s' : PF} {c : List (RefId × Vec)} {f f' : File} (hr : VecRun t s c) (hb : f.bytes = s.file.bytes)
      (hu : f.budget = none) (h : PF.openFile f = (.ok s', f')) : VecRun t s' c

/-- The id number `i` was inserted. -/
def HasId (c : List (RefId × Vec)) (i : UInt64) : Prop := ∃ e ∈ c, e.1.value = i

/-- `w` is `v` after `n` conversions of each component from its bit pattern, read as an integer, to the nearest
`float32`. -/
def converted (n : Nat) (v : Vec) : Vec := v.map (Nat.repeat f32OfU32 n)

end Appendable.Spec
