import Verif.Spec.QueryJsonl
import Verif.Spec.SearchJsonl
/-! Searching a file of JSON texts. -/
namespace Appendable.Spec
open Appendable Tree

/-- A JSONL file with the lines `recs` (and perhaps an incomplete last one), indexed by `Synchronize` in any number of steps, with `name` among the search
headers and in at least one of the lines; the client has it and its index before it.  Both are below 1 GB (the index file may have 2 GB), and so are
the decomposed texts of the field.  Decomposition yields valid UTF-8 from valid UTF-8. -/
structure SearchJson (num : Bytes → Option UInt64) (nfkd : Bytes → Bytes) (hs : List Bytes) (data : Bytes) (i : IndexFile) (s : PF) (recs : List Rec)
    (tail name : Bytes) (db : TsDb) : Prop where
  run : SyncRun ⟨goLex num, nfkd⟩ hs data i s
  lines : IsLines data (recs.map Rec.text) tail
  ok : ∀ r ∈ recs, r.OK num hs
  size : data.length < 2 ^ 30
  sees : Sees db data s.file.bytes
  header : name ∈ hs
  some_ : ∃ r ∈ recs, textsOf name (r.fields num) ≠ []
  valid : ∀ t, ValidUtf8 t → ValidUtf8 (nfkd t)
  short : ∀ r ∈ recs, ∀ t ∈ textsOf name (r.fields num), t.length < 2 ^ 30 ∧ (nfkd t).length < 2 ^ 30

end Appendable.Spec
