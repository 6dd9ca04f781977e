import Verif.Model.LinkedPage
/-! Histories of the linked list of meta slots, seen from the API. -/
namespace Appendable.Spec
open Appendable

/-- The head of the list, as `NewMultiBPTree` returns it. -/
def listHead : LP := ⟨4096, 255⟩

/-- `m` is a handle of a slot on an existing page of the file. -/
def SlotHandle (s : PF) (m : LP) : Prop :=
  m.offset.toNat % 4096 = 0 ∧ m.offset.toNat + 4096 ≤ s.file.bytes.length ∧ s.file.bytes.length < 2 ^ 63 ∧ m.index.toNat < 15

/-- `SlotRun s rs owned`: the page file `s` is reached from an empty file by opening it, appending slots, setting
root pointers and metadata (of at most 252 bytes), allocating pages for other purposes and writing into these,
seeking, and reopening.  `rs` lists the slots in order with the root pointer and the metadata last set; `owned` are
the pages allocated for other purposes. -/
inductive SlotRun : PF → List (LP × MemPtr × Bytes) → List Nat → Prop
  | fresh {f f' : File} {s s' : PF} {h : LP} (hf : f.bytes = []) (hb : f.budget = none)
      (h1 : PF.openFile f = (.ok s, f')) (h2 : LP.newMulti s = (.ok h, s')) : SlotRun s' [] []
  | addNext {s s' : PF} {rs : List (LP × MemPtr × Bytes)} {ow : List Nat} {m new : LP} (hr : SlotRun s rs ow)
      (hm : (listHead :: rs.map (·.1)).getLast? = some m) (h : m.addNext s = (.ok new, s')) :
      SlotRun s' (rs ++ [(new, ⟨0, 0⟩, [])]) ow
  | setRoot {s s' : PF} {rs : List (LP × MemPtr × Bytes)} {ow : List Nat} {i : Nat} {m : LP} {p p' : MemPtr} {d : Bytes}
      (hr : SlotRun s rs ow) (hi : rs[i]? = some (m, p, d)) (h : m.setRoot p' s = (.ok (), s')) :
      SlotRun s' (rs.set i (m, p', d)) ow
  | setMetadata {s s' : PF} {rs : List (LP × MemPtr × Bytes)} {ow : List Nat} {i : Nat} {m : LP} {p : MemPtr} {d d' : Bytes}
      (hr : SlotRun s rs ow) (hi : rs[i]? = some (m, p, d)) (hd : d'.length ≤ 252) (h : m.setMetadata d' s = (.ok (), s')) :
      SlotRun s' (rs.set i (m, p, d')) ow
  | alloc {s s' : PF} {rs : List (LP × MemPtr × Bytes)} {ow : List Nat} {buf : Option Bytes} {off : Int}
      (hr : SlotRun s rs ow) (h : PF.newPage buf s = (.ok off, s')) : SlotRun s' rs (off.toNat :: ow)
  | write {s s1 s' : PF} {rs : List (LP × MemPtr × Bytes)} {ow : List Nat} {o r n : Nat} {b : Bytes} {q : Int}
      (hr : SlotRun s rs ow) (ho : o ∈ ow) (hl : r + b.length ≤ 4096) (h1 : PF.seek ((o + r : Nat) : Int) s = (.ok q, s1))
      (h2 : PF.write b s1 = (.ok n, s')) : SlotRun s' rs ow
  | seek {s s' : PF} {rs : List (LP × MemPtr × Bytes)} {ow : List Nat} {o q : Int} (hr : SlotRun s rs ow)
      (h : PF.seek o s = (.ok q, s')) : SlotRun s' rs ow
  | reopen {s s1 s' : PF} {rs : List (LP × MemPtr × Bytes)} {ow : List Nat} {f f' : File} {h : LP} (hr : SlotRun s rs ow)
      (hb : f.bytes = s.file.bytes) (hu : f.budget = none) (h1 : PF.openFile f = (.ok s1, f'))
      (h2 : LP.newMulti s1 = (.ok h, s')) : SlotRun s' rs ow

end Appendable.Spec
