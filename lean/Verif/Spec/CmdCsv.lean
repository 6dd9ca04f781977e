import Verif.Spec.Cmd
import Verif.Spec.Csv
/-! Histories of runs of the program with `-csv`. -/
namespace Appendable.Spec
open Appendable Tree

/-- `RunsCsv env num data seen index`: from no index file, runs of the program with `-csv` that came to their end, with a data file that has only grown
to `data`, lead to the index file `index`; `seen` are the data files of all runs. -/
inductive RunsCsv (env : JEnv) (num : Bytes → Option UInt64) : Bytes → List Bytes → Bytes → Prop
  | none : RunsCsv env num [] [] []
  | run {data more index index' : Bytes} {seen : List Bytes} {hs : List Bytes} (hr : RunsCsv env num data seen index)
      (h : cmdRun env num .csv hs (data ++ more) index = (.ok (), index')) : RunsCsv env num (data ++ more) ((data ++ more) :: seen) index'

end Appendable.Spec
