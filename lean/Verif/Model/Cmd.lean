import Verif.Model.Jsonl
import Verif.Model.Csv
/-! The program cmd/main.go. -/
namespace Appendable

/-- cmd/main.go:88-98 (which handler) and 123 `i.Synchronize(df.Bytes())`, i.e. pkg/appendable/index_file.go:192-194. -/
def cmdSync (env : JEnv) (num : Bytes → Option UInt64) : Format → IndexFile → Bytes → Act PF Unit
  | .jsonl, i, data => jsonlSync env i data
  | .csv, i, data => csvSync num i data

/-- cmd/main.go:81-150: one run of the program with the format flag `fmt`, the headers `hs` of the `-s` flags, the contents
`data` of the data file and the contents `index` of the index file (`[]` if there is none yet: it is created, 102).  The result
says whether the program came to its end; with it come the contents of the index file afterwards.  Every error is turned into a
panic (109-112, 123-125), and the mapping is shared with the file (pkg/mmap/mmap.go:33-48), so that what has been written up to
then stays.  Left out: flag parsing, log output, timings, profile and benchmark files, errors of opening and closing files. -/
def cmdRun (env : JEnv) (num : Bytes → Option UInt64) (fmt : Format) (hs : List Bytes) (data index : Bytes) : Res Unit × Bytes :=
  match IndexFile.openIndex fmt hs ⟨.mmap, index, 0, none⟩ with
  | (.ok (i, s), _) =>
    match cmdSync env num fmt i data s with
    | (.ok (), s') => (.ok (), s'.file.bytes)
    | (_, s') => (.panic, s'.file.bytes)
  | (_, f) => (.panic, f.bytes)

end Appendable
