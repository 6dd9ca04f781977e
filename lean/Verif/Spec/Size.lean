import Verif.Spec.Index
import Verif.Spec.Jobs
/-! Sizes of trees and index files. -/
namespace Appendable.Spec
open Appendable Tree

/-- Half of the number of keys, with their pointers, that fit on a page whatever the pointers are, for trees of width `w`: the page has 4096
bytes, its header 14, a key is a value of `w - 1` bytes with a pointer of at most 15, and belongs to another pointer of at most 15. -/
def halfPage (w : UInt16) : Nat := 4082 / ((if w = 0 then 0 else w.toNat - 1) + 30) / 2

/-- A bound for the number of pages of a tree of width `w` with `n` entries. -/
def treePages (w : UInt16) (n : Nat) : Nat := 1 + n * (halfPage w + 1) / (halfPage w * halfPage w)

/-- A bound for the number of pages of an index file that holds the jobs `js`: the header page, the slots (15 on a page), a page for every index,
and the entries (2809 on 54 pages: half of the pages that a tree of floats would need if all its pages were half full). -/
def jobsPages (js : List Job) : Nat :=
  2 + (indexesOf js).length / 15 + (indexesOf js).length + (js.map fun j => j.entries.length).sum * 54 / 2809

end Appendable.Spec
