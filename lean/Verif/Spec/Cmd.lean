import Verif.Model.Cmd
import Verif.Spec.Jsonl
/-! Histories of runs of the program. -/
namespace Appendable.Spec
open Appendable Tree

/-- `Runs env num data given index`: from no index file, runs of the program with `-jsonl` that came to their end, each with
search headers of its own and a data file that has only grown, lead to the index file `index`; `data` is the data file of the last
run, and `given` says for each of its complete lines which search headers the run had in which the line was first complete. -/
inductive Runs (env : JEnv) (num : Bytes → Option UInt64) : Bytes → List (List Bytes) → Bytes → Prop
  | none : Runs env num [] [] []
  | run {data more index index' : Bytes} {given : List (List Bytes)} {hs : List Bytes} {lines : List Bytes} {tail : Bytes}
      (hr : Runs env num data given index) (hl : IsLines (data ++ more) lines tail)
      (h : cmdRun env num .jsonl hs (data ++ more) index = (.ok (), index')) :
      Runs env num (data ++ more) (given ++ List.replicate (lines.length - given.length) hs) index'

/-- `RunsWith env num hs data index`: from no index file, runs of the program with `-jsonl` and the search headers `hs` that came to
their end, with a data file that has only grown to `data`, lead to the index file `index`. -/
inductive RunsWith (env : JEnv) (num : Bytes → Option UInt64) (hs : List Bytes) : Bytes → Bytes → Prop
  | none : RunsWith env num hs [] []
  | run {data more index index' : Bytes} (hr : RunsWith env num hs data index)
      (h : cmdRun env num .jsonl hs (data ++ more) index = (.ok (), index')) : RunsWith env num hs (data ++ more) index'

/-- What lines add to the index if each has its own search headers. -/
def givenJobs (nfkd : Bytes → Bytes) : Nat → List ((Bytes × List Field) × List Bytes) → List Job
  | _, [] => []
  | off, (x, hs) :: ls => linesJobs nfkd hs off [x] ++ givenJobs nfkd (off + x.1.length + 1) ls

/-- `index` is an index file, whichever way and with whichever headers it is opened, that holds what the jobs add. -/
def IndexHolds (data index : Bytes) (parse : Bytes → Bytes) (fm : FileMeta) (js : List Job) : Prop :=
  ∀ (f : File) (hs : List Bytes), f.bytes = index → f.budget = Option.none →
    ∃ i s f', IndexFile.openIndex .jsonl hs f = (.ok (i, s), f') ∧ Holds data parse id i s fm js

end Appendable.Spec
