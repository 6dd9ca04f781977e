import Verif.Props.Jsonl
import Verif.Model.Json
import Verif.Lemmas.Quiet
/-! Concrete histories of `Synchronize`, and C37. -/
namespace Appendable
open Spec Tree

/-- A stand-in for `strconv.ParseFloat`: one-digit numbers 0, 1 and 2. -/
def jNum (b : Bytes) : Option UInt64 :=
  if b = [48] then some 0 else if b = [49] then some 0x3FF0000000000000 else if b = [50] then some 0x4000000000000000 else none

def jEnv : JEnv := ⟨goLex jNum, id⟩

/-- `{"a":"hi"}` -/
def jLine1 : Bytes := [123, 34, 97, 34, 58, 34, 104, 105, 34, 125]
/-- `{"a":1}` -/
def jLine2 : Bytes := [123, 34, 97, 34, 58, 49, 125]
/-- the first line and the beginning of the second -/
def jData1 : Bytes := jLine1 ++ 10 :: [123, 34, 97]
/-- the rest of the second -/
def jData2 : Bytes := [34, 58, 49, 125, 10]
def jHeaders : List Bytes := [[98]]

def jOpen : Res (IndexFile × PF) × File := IndexFile.openIndex .jsonl jHeaders wFile
def jI : IndexFile := (okVal jOpen.1).1
def jS0 : PF := (okVal jOpen.1).2
def jRun1 : Res Unit × PF := jsonlSync jEnv jI jData1 jS0
def jRun2 : Res Unit × PF := jsonlSync jEnv jI (jData1 ++ jData2) jRun1.2

set_option maxRecDepth 100000 in
theorem jOpen_ok : jOpen.1.isOk = true := by decide +kernel
set_option maxRecDepth 100000 in
theorem jRun1_ok : jRun1.1.isOk = true := by decide +kernel
set_option maxRecDepth 100000 in
theorem jRun2_ok : jRun2.1.isOk = true := by decide +kernel

theorem jOpen_eq : IndexFile.openIndex .jsonl jHeaders wFile = (.ok (jI, jS0), jOpen.2) := run_ok2 (r := jOpen) jOpen_ok
theorem jRun1_eq : jsonlSync jEnv jI jData1 jS0 = (.ok (), jRun1.2) := run_unit (r := jRun1) jRun1_ok
theorem jRun2_eq : jsonlSync jEnv jI (jData1 ++ jData2) jRun1.2 = (.ok (), jRun2.2) := run_unit (r := jRun2) jRun2_ok

theorem jSync0 : SyncRun jEnv jHeaders [] jI jS0 := .create (f := wFile) rfl rfl jOpen_eq

theorem jSync : SyncRun jEnv jHeaders (jData1 ++ jData2) jI jRun2.2 :=
  .sync (.sync (more := jData1) jSync0 jRun1_eq) jRun2_eq

/-- The fields of the two lines. -/
def jLf : List (Bytes × List Field) := [(jLine1, [⟨[97], .str [104, 105], 5, 9⟩]), (jLine2, [⟨[97], .num 0x3FF0000000000000, 5, 6⟩])]

theorem jToks1 : (jEnv.lex jLine1).toks = [(.lbrace, 1), (.str [97], 4), (.str [104, 105], 9), (.rbrace, 10)] := by decide +kernel
theorem jToks2 : (jEnv.lex jLine2).toks = [(.lbrace, 1), (.str [97], 4), (.num 0x3FF0000000000000, 6), (.rbrace, 7)] := by decide +kernel
theorem jToksV : (jEnv.lex [34, 104, 105, 34]).toks = [(.str [104, 105], 4)] := by decide +kernel

theorem jLines : IsLines (jData1 ++ jData2) (jLf.map (·.1)) [] := by
  refine ⟨by decide, by decide, by simp⟩

theorem jLinesOK : ∀ x ∈ jLf, LineFields jEnv.lex x.1 x.2 ∧ x.1.length < 2 ^ 32 ∧ ∀ f ∈ x.2, FieldOK jEnv.lex jHeaders x.1 f := by
  intro x hx
  rcases List.mem_cons.1 hx with rfl | hx
  · refine ⟨⟨1, _, [], jToks1, .scalar trivial .close⟩, by decide, ?_⟩
    intro f hf
    rcases List.mem_cons.1 hf with rfl | hf
    · refine ⟨by decide, fun h => absurd h (by decide), by decide, ?_⟩
      intro v hv; cases hv
      exact ⟨4, [], jToksV⟩
    · simp at hf
  · rcases List.mem_cons.1 hx with rfl | hx
    · refine ⟨⟨1, _, [], jToks2, .scalar trivial .close⟩, by decide, ?_⟩
      intro f hf
      rcases List.mem_cons.1 hf with rfl | hf
      · refine ⟨by decide, fun h => absurd h (by decide), by decide, ?_⟩
        intro v hv; cases hv
      · simp at hf
    · simp at hx

/-- Non-vacuity of C33, C34, C36: a file of two lines, synchronized in two steps that cut the second line, holds the
string and the number of the field `a`, at the positions of the values. -/
example : Holds (jData1 ++ jData2) jEnv.parse id jI jRun2.2 ⟨1, .jsonl, 19, 2⟩
    [⟨[97], 0, [(⟨⟨5, 4⟩, [104, 105]⟩, ⟨0, 10⟩)], 4⟩, ⟨[97], 3, [(⟨⟨16, 1⟩, [63, 240, 0, 0, 0, 0, 0, 0]⟩, ⟨11, 7⟩)], 1⟩] :=
  C36_fields_indexed jSync (by decide) jLines jLinesOK

/-- Non-vacuity of C35: the state after the first step. -/
example : jI.tree = ⟨4096, 0⟩ ∧ 8192 ≤ jRun1.2.file.bytes.length ∧ jRun1.2.file.budget = none ∧ (jI.metadata jRun1.2).1 = .ok ⟨1, .jsonl, 11, 1⟩ := by
  set_option maxRecDepth 100000 in
  decide +kernel

/-! ### C37 -/

/-- `x`, not an object -/
def jBad : Bytes := jLine2 ++ 10 :: 120 :: 10 :: []
/-- the same file with the second line repaired -/
def jGood : Bytes := jLine2 ++ 10 :: jLine1 ++ [10]

def jFail : Res Unit × PF := jsonlSync jEnv jI jBad jS0
def jRetry : Res Unit × PF := jsonlSync jEnv jI jGood jFail.2
def jFirst : Res Unit × PF := jsonlSync jEnv jI jGood jS0

set_option maxRecDepth 100000 in
theorem jFail_err : jFail.1 = .err (.msg "only json objects are supported at the root") := by decide +kernel
set_option maxRecDepth 100000 in
theorem jRetry_err : jRetry.1 = .err (.msg "key already exists") := by decide +kernel
set_option maxRecDepth 100000 in
theorem jFirst_ok : jFirst.1.isOk = true := by decide +kernel

/-- C37 is violated: the file `{"a":1}`, `x` fails at its second line; after the second line has been replaced by
`{"a":"hi"}`, `Synchronize` fails again (with "key already exists" for the first line), though it succeeds with the
same file on a fresh index. -/
theorem C37_retry_violated : ∃ (i : IndexFile) (s s1 : PF) (e1 e2 : Err), SyncRun jEnv jHeaders [] i s ∧
    jsonlSync jEnv i (jLine2 ++ 10 :: 120 :: 10 :: []) s = (.err e1, s1) ∧
    (jsonlSync jEnv i (jLine2 ++ 10 :: jLine1 ++ [10]) s1).1 = .err e2 ∧
    (jsonlSync jEnv i (jLine2 ++ 10 :: jLine1 ++ [10]) s).1.isOk = true :=
  ⟨jI, jS0, jFail.2, _, _, jSync0, run_err (r := jFail) jFail_err, jRetry_err, jFirst_ok⟩

/-- C37, partial: if the first new line is not an object (its first token is not a brace), `Synchronize` fails without
changing a byte, so that a later call works as if the failed one had not been made.  (Missing: failures in later
lines, where the property is violated.) -/
theorem C37_first_line_partial {env : JEnv} {i : IndexFile} {s : PF} {data : Bytes} {fm : FileMeta}
    (hm : (i.metadata s).1 = .ok fm) (hro : fm.readOffset.toNat ≤ data.length) {line rest : Bytes}
    (hl : data.drop fm.readOffset.toNat = line ++ 10 :: rest) (hn : (10 : UInt8) ∉ line)
    (hb : ∀ e r, (env.lex line).toks ≠ (.lbrace, e) :: r) :
    jsonlSync env i data s = (.err (.msg "only json objects are supported at the root"), (i.metadata s).2) ∧
      (i.metadata s).2.file.bytes = s.file.bytes := by
  have hmd : i.metadata s = (.ok fm, (i.metadata s).2) := Prod.ext hm rfl
  constructor
  · unfold jsonlSync
    rw [Act.bind_ok hmd]
    unfold syncLoop
    rw [if_neg (by omega), hl, indexNewline_line hn]
    simp only [List.take_left']
    have hh : handleLine env i data ⟨fm.readOffset, UInt32.ofNat line.length⟩ line (i.metadata s).2 =
        (.err (.msg "only json objects are supported at the root"), (i.metadata s).2) := by
      unfold handleLine
      rcases ht : (env.lex line).toks with _ | ⟨⟨t, e⟩, r⟩
      · rfl
      · cases t with
        | lbrace => exact absurd ht (hb e r)
        | _ => rfl
    rw [Act.bind_err (Act.bind_err hh)]
  · exact Quiet.fileMetadata i s

end Appendable
