import Verif.Model.PageFile
import Verif.Spec.Pages
/-! Histories of a page file, seen from its client: which pages the client owns, which it has given back
(in the order of freeing), and how many frees happened since the file was opened (pages already free when
it was opened count as well). -/
namespace Appendable.Spec
open Appendable

/-- `AllocRun s owned freed n`: the page file `s` is reached by opening an empty file and then calling
`NewPage`, `FreePage` (only of owned pages) and reopening; a call may also have failed with an error.
`owned` are the pages returned by `NewPage` and not freed since, `freed` the freed pages that were not
handed out again, oldest first. -/
inductive AllocRun : PF → List Nat → List Nat → Nat → Prop
  | opened {f f' : File} {s : PF} (he : f.bytes = []) (hb : f.budget = none)
      (h : PF.openFile f = (.ok s, f')) : AllocRun s [] [] 0
  | reopened {s s' : PF} {owned freed : List Nat} {n : Nat} {f f' : File} (hr : AllocRun s owned freed n)
      (hf : f.bytes = s.file.bytes) (hb : f.budget = none)
      (h : PF.openFile f = (.ok s', f')) : AllocRun s' owned freed freed.length
  | new {s s' : PF} {owned freed : List Nat} {n : Nat} {off : Int} {buf : Option Bytes}
      (hr : AllocRun s owned freed n) (h : PF.newPage buf s = (.ok off, s')) :
      AllocRun s' (off.toNat :: owned) (freed.erase off.toNat) n
  | newErr {s s' : PF} {owned freed : List Nat} {n : Nat} {e : Err} {buf : Option Bytes}
      (hr : AllocRun s owned freed n) (h : PF.newPage buf s = (.err e, s')) : AllocRun s' owned freed n
  | free {s s' : PF} {owned freed : List Nat} {n o : Nat} (hr : AllocRun s owned freed n) (ho : o ∈ owned)
      (h : PF.freePage (o : Int) s = (.ok (), s')) : AllocRun s' (owned.erase o) (freed ++ [o]) (n + 1)
  | freeErr {s s' : PF} {owned freed : List Nat} {n : Nat} {o : Int} {e : Err}
      (hr : AllocRun s owned freed n) (h : PF.freePage o s = (.err e, s')) : AllocRun s' owned freed n

/-- One call of the allocator's API. -/
inductive PageOp where
  | new (buf : Option Bytes)
  | free (o : Nat)

/-- Run one call; the result of a successful `FreePage` is reported as 0. -/
def PageOp.run : PageOp → Act PF Int
  | .new buf => PF.newPage buf
  | .free o => fun s => ((PF.freePage o s).1.bind (fun _ => .ok 0), (PF.freePage o s).2)

/-- The results of a sequence of calls (the caller carries on after an error). -/
def runOps : List PageOp → PF → List (Res Int)
  | [], _ => []
  | op :: ops, s => (op.run s).1 :: runOps ops (op.run s).2

/-- Every freed offset lies inside of the file at the time of the call. -/
def FreesInside : List PageOp → PF → Prop
  | [], _ => True
  | .new buf :: ops, s => FreesInside ops ((PageOp.new buf).run s).2
  | .free o :: ops, s => o < s.file.bytes.length ∧ FreesInside ops ((PageOp.free o).run s).2

end Appendable.Spec
