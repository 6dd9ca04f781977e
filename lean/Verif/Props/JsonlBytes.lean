import Verif.Lemmas.AlikeRun
import Verif.Props.JsonlWitness
import Verif.Props.Stuck
import Verif.Props.SyncCrash
/-! C33: the bytes of the index file do not depend on the history. -/
namespace Appendable
open Spec

variable {env : JEnv} {hs : List Bytes} {i i' : IndexFile} {data : Bytes} {s s' : PF}

/-- C33: two histories that end with the same data file (one of them may be a single call of `Synchronize` on a new
index file, the other many calls at any byte boundaries, with any number of reopenings) end with index files of exactly
the same bytes. -/
theorem C33_incremental (hr : SyncRun env hs data i s) (hr' : SyncRun env hs data i' s') (hd : data.length < 2 ^ 64)
    {lf : List (Bytes × List Field)} {tail : Bytes} (hl : IsLines data (lf.map (·.1)) tail)
    (hx : ∀ x ∈ lf, LineFields env.lex x.1 x.2 ∧ x.1.length < 2 ^ 32 ∧ ∀ f ∈ x.2, FieldOK env.lex hs x.1 f) :
    s.file.bytes = s'.file.bytes :=
  syncRun_same hr hr' hd hl hx

/-- The two lines of the witness in one call. -/
def jOnce : Res Unit × PF := jsonlSync jEnv jI (jData1 ++ jData2) jS0

set_option maxRecDepth 100000 in
theorem jOnce_ok : jOnce.1.isOk = true := by decide +kernel

theorem jOnceRun : SyncRun jEnv jHeaders (jData1 ++ jData2) jI jOnce.2 :=
  SyncRun.sync (data := []) (more := jData1 ++ jData2) jSync0 (run_unit (r := jOnce) jOnce_ok)

/-- Non-vacuity of C33: two lines synchronized in two steps, the first of which cuts the second line, or in one. -/
example : jRun2.2.file.bytes = jOnce.2.file.bytes := C33_incremental jSync jOnceRun (by decide) jLines jLinesOK

/-- Non-vacuity of `C37_stuck_violated`: the two lines followed by the line `x`. -/
example : ∃ s1, jsonlSync jEnv jI ((jData1 ++ jData2) ++ ([120] ++ 10 :: [])) jS0 =
      (.err (.msg "only json objects are supported at the root"), s1) ∧
      (jsonlSync jEnv jI ((jData1 ++ jData2) ++ []) s1).1 = .err (.msg "key already exists") := by
  obtain ⟨s1, h1, h2, _⟩ := C37_stuck_violated (lf := []) (good := jLf) (tail := []) (p := jData1 ++ jData2) (more := jData1 ++ jData2) (bad := [120])
    (rest := []) jSync0 ⟨rfl, by simp, by simp⟩ rfl trivial jLines rfl jLinesOK (run_unit (r := jOnce) jOnce_ok) (by decide)
    (by intro e r h; exact absurd h (by rw [show (jEnv.lex [120]).toks = [] by decide +kernel]; simp)) (by decide)
  exact ⟨s1, h1, (h2 _ _ .same [] (by decide)).1⟩

/-- Non-vacuity of C87: the data file of two lines has become empty. -/
example : (jsonlSync jEnv jI [] jRun2.2).1 = .panic :=
  C87_history_violated jSync (by decide) jLines jLinesOK (by decide)

/-- There is a file with any given contents. -/
theorem file_with (b : Bytes) : ∃ file : File, file.bytes = b ∧ file.budget = none := ⟨⟨.mmap, b, 0, none⟩, rfl, rfl⟩

/-- Non-vacuity of `C93_crash_violated`: a crash during the first `Synchronize`, after both lines have been handled. -/
example : ∃ n, (jsonlSync jEnv jI (jData1 ++ jData2) (crashAfter n jS0)).1 ≠ .ok () ∧
    ∃ file i1 s1 file', file.bytes = (jsonlSync jEnv jI (jData1 ++ jData2) (crashAfter n jS0)).2.file.bytes ∧
      IndexFile.openIndex .jsonl jHeaders file = (.ok (i1, s1), file') ∧
      (jsonlSync jEnv i1 (jData1 ++ jData2) s1).1 = .err (.msg "key already exists") := by
  obtain ⟨n, h1, h2⟩ := C93_crash_violated (lf := []) (g := jLf) (g' := []) (tail := []) (data := []) (p := jData1 ++ jData2) (more := jData1 ++ jData2)
    jSync0 ⟨rfl, by simp, by simp⟩ rfl trivial rfl jLines (by decide) jLinesOK (run_unit (r := jOnce) jOnce_ok)
  refine ⟨n, h1, ?_⟩
  obtain ⟨file, e1, e2⟩ : ∃ file : File, file.bytes = (jsonlSync jEnv jI (jData1 ++ jData2) (crashAfter n jS0)).2.file.bytes ∧ file.budget = none :=
    file_with _
  obtain ⟨i1, s1, file', h3, h4⟩ := h2 file e1 e2
  have := (h4 _ _ .same [] (by decide)).1
  exact ⟨file, i1, s1, file', e1, h3, by simpa using this⟩

/-- Non-vacuity of `C93_crash_partial`. -/
example : ∃ w, ∀ n file i1 s1 file', file.bytes = (jsonlSync jEnv jI (jData1 ++ jData2) (crashAfter n jS0)).2.file.bytes → file.budget = none →
    IndexFile.openIndex .jsonl jHeaders file = (.ok (i1, s1), file') →
    w ≤ n → SyncRun jEnv jHeaders (jData1 ++ jData2) i1 s1 := by
  obtain ⟨w, h⟩ := C93_crash_partial (lf := []) (tail := []) (data := []) (more := jData1 ++ jData2) jSync0 (by decide) ⟨rfl, by simp, by simp⟩
    (by simp) (run_unit (r := jOnce) jOnce_ok)
  simp only [List.nil_append] at h
  exact ⟨w, fun n file i1 s1 file' a b c d => ((h n file i1 s1 file' a b c).2 d).2⟩

end Appendable
