import Verif.Model.BPTree
import Verif.Spec.Order
import Verif.Spec.Node
import Verif.Spec.Alloc
/-! Histories of B+ trees and observations of an iterator, seen from the API. -/
namespace Appendable.Spec
open Appendable Tree

/-- `NextRun t it s xs`: calling `Next` on the iterator until it returns false shows exactly the entries `xs`, in
this order, and no error is recorded. -/
inductive NextRun (t : Tree) : Iter → PF → List (RV × MemPtr) → Prop
  | stop {it it' : Iter} {s s' : PF} (h : it.next t s = (.ok (false, it'), s')) (he : it'.err = none) :
      NextRun t it s []
  | step {it it' : Iter} {s s' : PF} {k : RV} {p : MemPtr} {xs : List (RV × MemPtr)}
      (h : it.next t s = (.ok (true, it'), s')) (hk : it'.curKey = some k) (hp : it'.curPointer = some p)
      (rest : NextRun t it' s' xs) : NextRun t it s ((k, p) :: xs)

/-- The same for `Prev`. -/
inductive PrevRun (t : Tree) : Iter → PF → List (RV × MemPtr) → Prop
  | stop {it it' : Iter} {s s' : PF} (h : it.prev t s = (.ok (false, it'), s')) (he : it'.err = none) :
      PrevRun t it s []
  | step {it it' : Iter} {s s' : PF} {k : RV} {p : MemPtr} {xs : List (RV × MemPtr)}
      (h : it.prev t s = (.ok (true, it'), s')) (hk : it'.curKey = some k) (hp : it'.curPointer = some p)
      (rest : PrevRun t it' s' xs) : PrevRun t it s ((k, p) :: xs)

/-- Drive an iterator with a list of calls (`true`: `Next`, `false`: `Prev`); the result lists for every call the
entry shown, or `none` if the call returned false or failed. -/
def drive (t : Tree) : List Bool → Iter → PF → List (Option (RV × MemPtr))
  | [], _, _ => []
  | m :: ms, it, s =>
    match (if m then it.next t s else it.prev t s) with
    | (.ok (true, it'), s') =>
      (match it'.curKey, it'.curPointer with | some k, some p => some (k, p) | _, _ => none) :: drive t ms it' s'
    | (.ok (false, it'), s') => none :: drive t ms it' s'
    | (_, s') => none :: drive t ms it s'

/-- The positions visited by the calls from position `i` of a list of length `n`; `none` if they leave it. -/
def positions (n : Nat) : Nat → List Bool → Option (List Nat)
  | _, [] => some []
  | i, true :: ms => if i + 1 < n then (positions n (i + 1) ms).map ((i + 1) :: ·) else none
  | i, false :: ms => if 0 < i then (positions n (i - 1) ms).map ((i - 1) :: ·) else none

/-- `Reach t s p`: the page at offset `p` belongs to the tree `t`, i.e. is reached from its root pointer. -/
inductive Reach (t : Tree) (s : PF) : Nat → Prop
  | root {n : Node} {mp : MemPtr} {s' : PF} (h : t.root s = (.ok (some (n, mp)), s')) : Reach t s mp.offset.toNat
  | child {off o : UInt64} {n : Node} {s' : PF} (hr : Reach t s off.toNat)
      (h : t.readNode ⟨off, 0⟩ s = (.ok n, s')) (ho : o ∈ n.intPtrs) : Reach t s o.toNat

/-- The offset `p` is on the free list on page 0 of the file. -/
def FreeListed (bytes : Bytes) (p : Nat) : Prop := ∃ i, i < 512 ∧ leNat (slice bytes (8 * i) 8) = p

/-- The smallest key of all: empty value, zero pointer. -/
def minKey : RV := ⟨⟨0, 0⟩, []⟩

/-- The trees live in distinct 12 byte root slots, each inside of one page. -/
def SlotsOK (ts : List Tree) : Prop :=
  (∀ t ∈ ts, t.rootPos % pageSize + 12 ≤ pageSize) ∧
  ts.Pairwise (fun a b => a.rootPos + 12 ≤ b.rootPos ∨ b.rootPos + 12 ≤ a.rootPos)

/-- Key widths for which two keys and their pointers always fit on a page.  The product uses 0, 1, 2 and 9
(pkg/appendable/index_file.go `DetermineWidth`). -/
def WidthOK (t : Tree) : Prop := t.cfg.width.toNat ≤ 2017

/-- The same tree after the data file has grown. -/
def growData (more : Bytes) (t : Tree) : Tree := { t with cfg := { t.cfg with data := t.cfg.data ++ more } }

/-- Replace entry `i` of a family. -/
def setAt {α : Type} (c : Nat → α) (i : Nat) (a : α) : Nat → α := fun j => if j = i then a else c j

/-- `ForestRun ts s c`: the page file `s` holds the trees `ts`, and is reached by allocating pages, choosing
zeroed root slots in them, and then any sequence of inserts into any of the trees, rejected inserts, look-ups,
allocations of further pages with root slots of new trees, growth of the data file and reopening of the page
file.  `c i` lists the (key, pointer) pairs inserted
successfully into tree number `i`, latest first. -/
inductive ForestRun : List Tree → PF → (Nat → List (RV × MemPtr)) → Prop
  | start {ts : List Tree} {s : PF} {owned freed : List Nat} {n : Nat} (ha : AllocRun s owned freed n)
      (hs : SlotsOK ts) (hw : ∀ t ∈ ts, WidthOK t)
      (hz : ∀ t ∈ ts, t.rootPos / pageSize * pageSize ∈ owned ∧ slice s.file.bytes t.rootPos 12 = List.replicate 12 0) :
      ForestRun ts s (fun _ => [])
  | insert {ts : List Tree} {s s' : PF} {c : Nat → List (RV × MemPtr)} {i : Nat} {t : Tree} {k : RV} {v : MemPtr}
      (hf : ForestRun ts s c) (ht : ts[i]? = some t) (hk : KeyOK t.cfg k) (h : t.insert k v s = (.ok (), s')) :
      ForestRun ts s' (setAt c i ((k, v) :: c i))
  | rejected {ts : List Tree} {s s' : PF} {c : Nat → List (RV × MemPtr)} {i : Nat} {t : Tree} {k : RV} {v : MemPtr}
      {m : String} (hf : ForestRun ts s c) (ht : ts[i]? = some t)
      (hk : KeyOK t.cfg k ∨ t.cfg.width ≠ 0 ∧ k.value.length < 65536)
      (h : t.insert k v s = (.err (.msg m), s')) : ForestRun ts s' c
  | find {ts : List Tree} {s s' : PF} {c : Nat → List (RV × MemPtr)} {i : Nat} {t : Tree} {k : RV} {r : RV × MemPtr}
      (hf : ForestRun ts s c) (ht : ts[i]? = some t) (h : t.find k s = (.ok r, s')) : ForestRun ts s' c
  | plant {ts news : List Tree} {s s' : PF} {c : Nat → List (RV × MemPtr)} {buf : Option Bytes} {off : Int}
      (hf : ForestRun ts s c) (h : PF.newPage buf s = (.ok off, s')) (hs : SlotsOK news) (hw : ∀ t ∈ news, WidthOK t)
      (hz : ∀ t ∈ news, ((t.rootPos / pageSize * pageSize : Nat) : Int) = off ∧
        slice s'.file.bytes t.rootPos 12 = List.replicate 12 0) : ForestRun (ts ++ news) s' c
  | grow {ts : List Tree} {s : PF} {c : Nat → List (RV × MemPtr)} (hf : ForestRun ts s c) (more : Bytes) :
      ForestRun (ts.map (growData more)) s c
  | reopen {ts : List Tree} {s s' : PF} {c : Nat → List (RV × MemPtr)} {f f' : File} (hf : ForestRun ts s c)
      (hb : f.bytes = s.file.bytes) (hu : f.budget = none) (h : PF.openFile f = (.ok s', f')) : ForestRun ts s' c

/-- The same page file, in which only `n` more writes reach the disk: the process dies before write number
`n + 1`. -/
def crashAfter (n : Nat) (s : PF) : PF := { s with file := { s.file with budget := some n } }

/-- Room in the file: its length stays a factor of two below the limit of 2^63 bytes. -/
def Roomy (s : PF) : Prop := 2 * s.file.bytes.length + pageSize < 2 ^ 63

end Appendable.Spec
