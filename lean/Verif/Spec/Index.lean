import Verif.Model.IndexFile
import Verif.Spec.Tree
/-! Histories of an index file and what can be observed of it, seen from the API. -/
namespace Appendable.Spec
open Appendable Tree

/-- `Shows data parse wd i s fm is c`: what the API shows of the index file `i` in state `s`.  `Metadata` returns `fm`;
walking over the slots shows, after the slot of the file metadata, the slots of the indexes `is`, in this order, and
each of them holds the listed index metadata; a scan of the tree of index number `k` (opened with the width `wd w`
where `w` is the stored width) shows exactly the entries `c k`, each once, in ascending order. -/
structure Shows (data : Bytes) (parse : Bytes → Bytes) (wd : UInt16 → UInt16) (i : IndexFile) (s : PF) (fm : FileMeta)
    (is : List (LP × IndexMeta)) (c : Nat → List (RV × MemPtr)) : Prop where
  file : (i.metadata s).1 = .ok fm
  list : (i.tree.collect s).1 = .ok (i.tree :: is.map (·.1))
  each : ∀ x ∈ is, ∃ buf, (x.1.metadata s).1 = .ok buf ∧ IndexMeta.unmarshal buf = .ok x.2
  trees : ∀ (k : Nat) (p : LP) (m : IndexMeta), is[k]? = some (p, m) →
    ∃ xs, NextRun (treeAt data parse (wd m.width) p) (iter minKey) s xs ∧ xs.Perm (c k) ∧ Ascending xs

/-- The indexes after looking up or creating (`name`, `ty`) gave the slot `p` with metadata `m`. -/
def withIndex (is : List (LP × IndexMeta)) (name : Bytes) (ty : UInt8) (p : LP) (m : IndexMeta) : List (LP × IndexMeta) :=
  if is.any (fun x => x.2.fieldName == name && x.2.fieldType == ty) then is else is ++ [(p, m)]

/-- `IndexRun parse wd data i s fm is c`: the index file `i` in state `s` is reached from an empty file by opening it,
setting the file metadata, looking up or creating indexes (names of at most 236 bytes), setting the length total of an
index, inserting into the trees of the indexes (opened with the width `wd w` where `w` is the stored width), growth of
the data file, and reopening.  `fm` is the file metadata last set, `is` lists the slots and metadata of the indexes as
last returned or set, and `c k` the entries inserted into index number `k`, latest first. -/
inductive IndexRun (parse : Bytes → Bytes) (wd : UInt16 → UInt16) :
    Bytes → IndexFile → PF → FileMeta → List (LP × IndexMeta) → (Nat → List (RV × MemPtr)) → Prop
  | create {data : Bytes} {f f' : File} {fmt : Format} {hs : List Bytes} {i : IndexFile} {s : PF}
      (hf : f.bytes = []) (hb : f.budget = none) (h : IndexFile.openIndex fmt hs f = (.ok (i, s), f')) :
      IndexRun parse wd data i s ⟨1, fmt, 0, 0⟩ [] (fun _ => [])
  | setMetadata {data : Bytes} {i : IndexFile} {s s' : PF} {fm fm' : FileMeta} {is : List (LP × IndexMeta)}
      {c : Nat → List (RV × MemPtr)} (hr : IndexRun parse wd data i s fm is c) (h : i.setMetadata fm' s = (.ok (), s')) :
      IndexRun parse wd data i s' fm' is c
  | find {data : Bytes} {i : IndexFile} {s s' : PF} {fm : FileMeta} {is : List (LP × IndexMeta)}
      {c : Nat → List (RV × MemPtr)} {name : Bytes} {ty : UInt8} {p : LP} {m : IndexMeta}
      (hr : IndexRun parse wd data i s fm is c) (hn : name.length ≤ 236)
      (h : i.findOrCreate name ty s = (.ok (p, m), s')) : IndexRun parse wd data i s' fm (withIndex is name ty p m) c
  | setIndex {data : Bytes} {i : IndexFile} {s s' : PF} {fm : FileMeta} {is : List (LP × IndexMeta)}
      {c : Nat → List (RV × MemPtr)} {k : Nat} {p : LP} {m : IndexMeta} {n : UInt64} {buf : Bytes}
      (hr : IndexRun parse wd data i s fm is c) (hk : is[k]? = some (p, m))
      (hb : IndexMeta.marshal { m with totalLen := n } = .ok buf) (h : p.setMetadata buf s = (.ok (), s')) :
      IndexRun parse wd data i s' fm (is.set k (p, { m with totalLen := n })) c
  | insert {data : Bytes} {i : IndexFile} {s s' : PF} {fm : FileMeta} {is : List (LP × IndexMeta)}
      {c : Nat → List (RV × MemPtr)} {k : Nat} {p : LP} {m : IndexMeta} {key : RV} {v : MemPtr}
      (hr : IndexRun parse wd data i s fm is c) (hk : is[k]? = some (p, m)) (hko : KeyOK ⟨data, parse, wd m.width⟩ key)
      (h : (treeAt data parse (wd m.width) p).insert key v s = (.ok (), s')) :
      IndexRun parse wd data i s' fm is (setAt c k ((key, v) :: c k))
  | rejected {data : Bytes} {i : IndexFile} {s s' : PF} {fm : FileMeta} {is : List (LP × IndexMeta)}
      {c : Nat → List (RV × MemPtr)} {k : Nat} {p : LP} {m : IndexMeta} {key : RV} {v : MemPtr} {e : String}
      (hr : IndexRun parse wd data i s fm is c) (hk : is[k]? = some (p, m)) (hko : KeyOK ⟨data, parse, wd m.width⟩ key)
      (h : (treeAt data parse (wd m.width) p).insert key v s = (.err (.msg e), s')) :
      IndexRun parse wd data i s' fm is c
  | grow {data : Bytes} {i : IndexFile} {s : PF} {fm : FileMeta} {is : List (LP × IndexMeta)}
      {c : Nat → List (RV × MemPtr)} (hr : IndexRun parse wd data i s fm is c) (more : Bytes) :
      IndexRun parse wd (data ++ more) i s fm is c
  | reopen {data : Bytes} {i i' : IndexFile} {s s' : PF} {fm : FileMeta} {is : List (LP × IndexMeta)}
      {c : Nat → List (RV × MemPtr)} {f f' : File} {fmt : Format} {hs : List Bytes}
      (hr : IndexRun parse wd data i s fm is c) (hb : f.bytes = s.file.bytes) (hu : f.budget = none)
      (h : IndexFile.openIndex fmt hs f = (.ok (i', s'), f')) : IndexRun parse wd data i' s' fm is c

/-- The widths at which the trees of an index file are opened are small, as those of the product are (the stored width
for JSONL, 0 for CSV). -/
def SmallWidths (wd : UInt16 → UInt16) : Prop := ∀ ty : UInt8, (wd (determineTypeByte ty)).toNat ≤ 2017

/-- The distinct elements of a list, in the order of their first occurrence. -/
def firstOccurrences {α : Type} [DecidableEq α] : List α → List α
  | [] => []
  | a :: l => a :: (firstOccurrences l).filter (fun b => decide (b ≠ a))

end Appendable.Spec
