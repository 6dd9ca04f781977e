import Verif.Spec.Index
/-! What a handler writes, as a list of jobs, and the index file that holds exactly the jobs done. -/
namespace Appendable.Spec
open Appendable Tree

/-- One occurrence of a field: the index it belongs to (name and type), the entries it adds to it, and the length it
adds to its total. -/
structure Job where
  name : Bytes
  ty : UInt8
  entries : List (RV × MemPtr)
  total : UInt64
  deriving DecidableEq, Repr

/-- The indexes that a list of jobs needs, in the order of first use. -/
def indexesOf (js : List Job) : List (Bytes × UInt8) := firstOccurrences (js.map (fun j => (j.name, j.ty)))

/-- The entries that a list of jobs adds to an index. -/
def entriesOf (js : List Job) (name : Bytes) (ty : UInt8) : List (RV × MemPtr) :=
  js.flatMap (fun j => if j.name = name ∧ j.ty = ty then j.entries else [])

/-- The length that a list of jobs adds to the total of an index. -/
def totalOf : List Job → Bytes → UInt8 → UInt64
  | [], _, _ => 0
  | j :: js, name, ty => (if j.name = name ∧ j.ty = ty then j.total else 0) + totalOf js name ty

/-- `Holds data parse wd i s fm js`: the API shows an index file with metadata `fm` that holds exactly what the jobs
`js` add: one index per field name and type used, in the order of first use, with the width of its type, the summed
length, and exactly the entries of the jobs, each once, in ascending order. -/
def Holds (data : Bytes) (parse : Bytes → Bytes) (wd : UInt16 → UInt16) (i : IndexFile) (s : PF) (fm : FileMeta) (js : List Job) : Prop :=
  ∃ (is : List (LP × IndexMeta)) (c : Nat → List (RV × MemPtr)), Shows data parse wd i s fm is c ∧
    is.map (fun x => (x.2.fieldName, x.2.fieldType)) = indexesOf js ∧
    ∀ (k : Nat) (p : LP) (m : IndexMeta), is[k]? = some (p, m) →
      m = ⟨m.fieldName, m.fieldType, determineTypeByte m.fieldType, totalOf js m.fieldName m.fieldType⟩ ∧
      (c k).Perm (entriesOf js m.fieldName m.fieldType)

end Appendable.Spec
