import Verif.Model.Csv
import Verif.Spec.Jsonl
/-! What a CSV file without quotes says, and what its index should hold. -/
namespace Appendable.Spec
open Appendable Tree

/-- Texts with commas between them. -/
def joinCommas : List Bytes → Bytes
  | [] => []
  | [a] => a
  | a :: b :: l => a ++ 44 :: joinCommas (b :: l)

/-- `text` is the row of the fields `fs`, without quotes: the fields with commas between them, and possibly a carriage
return at the end.  (A row of one empty field, that is, an empty line, is none.) -/
def PlainRow (text : Bytes) (fs : List Bytes) : Prop :=
  (text = joinCommas fs ∨ text = joinCommas fs ++ [13]) ∧ joinCommas fs ≠ [] ∧
    ∀ f ∈ fs, (34 : UInt8) ∉ f ∧ (44 : UInt8) ∉ f ∧ (13 : UInt8) ∉ f

/-- The bytes of an ASCII text. -/
def asciiBytes (s : String) : Bytes := s.toList.map (fun c => UInt8.ofNat c.toNat)

/-- The value of a cell: nothing is null; then numbers (`num` are the texts of numbers); then the texts of booleans;
everything else is a string. -/
def cell (num : Bytes → Option UInt64) (v : Bytes) : Tok :=
  if v = [] then .null
  else match num v with
    | some bits => .num bits
    | none =>
      if v ∈ ["1", "t", "T", "TRUE", "true", "True"].map asciiBytes then .bool true
      else if v ∈ ["0", "f", "F", "FALSE", "false", "False"].map asciiBytes then .bool false
      else .str v

/-- What the fields of a row that lie from position `pos` on add to the index: each its value, as inferred from its
text, in the index of its header and type, pointing to its text. -/
def rowJobs (num : Bytes → Option UInt64) (line : MemPtr) : Nat → List Bytes → List Bytes → List Job
  | pos, h :: hs, v :: vs =>
    ⟨h, (kindOf (cell num v)).code, [(⟨⟨UInt64.ofNat pos, UInt32.ofNat v.length⟩, valueBytes (cell num v)⟩, line)], 0⟩ ::
      rowJobs num line (pos + v.length + 1) hs vs
  | _, _, _ => []

/-- What the rows from position `off` on add to the index. -/
def rowsJobs (num : Bytes → Option UInt64) (headers : List Bytes) : Nat → List (Bytes × List Bytes) → List Job
  | _, [] => []
  | off, (text, fs) :: rs =>
    rowJobs num ⟨UInt64.ofNat off, UInt32.ofNat text.length⟩ off headers fs ++ rowsJobs num headers (off + text.length + 1) rs

/-- `CsvRun num data seen i s`: the index file `i` in state `s` is reached from an empty file by opening it, successful
calls of `Synchronize` with a data file that only grows, and reopening; `data` is the data file of the last call, `seen`
the data files of all calls. -/
inductive CsvRun (num : Bytes → Option UInt64) : Bytes → List Bytes → IndexFile → PF → Prop
  | create {f f' : File} {hs : List Bytes} {i : IndexFile} {s : PF} (hf : f.bytes = []) (hb : f.budget = none)
      (h : IndexFile.openIndex .csv hs f = (.ok (i, s), f')) : CsvRun num [] [] i s
  | sync {data more : Bytes} {seen : List Bytes} {i : IndexFile} {s s' : PF} (hr : CsvRun num data seen i s)
      (h : csvSync num i (data ++ more) s = (.ok (), s')) : CsvRun num (data ++ more) ((data ++ more) :: seen) i s'
  | reopen {data : Bytes} {seen : List Bytes} {i i' : IndexFile} {s s' : PF} {f f' : File} {hs : List Bytes}
      (hr : CsvRun num data seen i s) (hb : f.bytes = s.file.bytes) (hu : f.budget = none)
      (h : IndexFile.openIndex .csv hs f = (.ok (i', s'), f')) : CsvRun num data seen i' s'

/-- A table without quotes, that the index supports: `hline` is its first line, with the distinct headers `headers` of
at most 236 bytes each; the rows after it are `rows` (text and fields); the first row has a field for every header, and
no row has more. -/
structure PlainTable (hline : Bytes) (headers : List Bytes) (rows : List (Bytes × List Bytes)) : Prop where
  header : PlainRow hline headers
  distinct : headers.Nodup
  names : ∀ h ∈ headers, h.length ≤ 236
  row : ∀ r ∈ rows, PlainRow r.1 r.2 ∧ r.1.length + 1 < 2 ^ 32 ∧ r.2.length ≤ headers.length
  first : ∀ r, rows.head? = some r → r.2.length = headers.length

end Appendable.Spec
