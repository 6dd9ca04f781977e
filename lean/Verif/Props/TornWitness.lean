import Verif.Props.JsonlBytes
import Verif.Props.TornFile
import Verif.Props.SyncTorn
/-! Concrete cases for C94 and for `C31_every_long_name_violated`. -/
namespace Appendable
open Spec Tree

/-- Non-vacuity of `C94_field_violated`: the first field `a` of a new index file. -/
example : ∃ n, (∀ x, (wI.findOrCreate [97] 0 (crashAfter n wS0)).1 ≠ .ok x) ∧
    ∃ file i1 s1 file', file.bytes = (wI.findOrCreate [97] 0 (crashAfter n wS0)).2.file.bytes ∧
      IndexFile.openIndex .jsonl [] file = (.ok (i1, s1), file') ∧ (i1.findOrCreate [97] 0 s1).1 = .err (.msg "invalid metadata size") := by
  obtain ⟨n, h1, h2⟩ := C94_field_violated smallWidths_id (wRun0 []) rfl (by simp) wFind1_eq
  refine ⟨n, h1, ?_⟩
  obtain ⟨file, e1, e2⟩ : ∃ file : File, file.bytes = (wI.findOrCreate [97] 0 (crashAfter n wS0)).2.file.bytes ∧ file.budget = none :=
    file_with _
  obtain ⟨i1, s1, file', o1, o2, o3, _⟩ := h2 file [] e1 e2
  exact ⟨file, i1, s1, file', e1, o1, ((o3 s1 o2).1 [97] 0 (by simp)).1⟩

/-- Non-vacuity of `C31_every_long_name_violated`: a name of 249 bytes on a new index file. -/
example : (wI.findOrCreate (List.replicate 249 97) 0 wS0).1 = .err (.msg "metadata too large") := by
  obtain ⟨s1, h1, _⟩ := C31_every_long_name_violated smallWidths_id (wRun0 []) rfl (name := List.replicate 249 97) (by rw [List.length_replicate]; exact Nat.le_refl _) 0
    (by rw [(openIndex_freshBytes (f := wFile) rfl rfl wOpen_eq).2.2, freshBytes_length]; decide)
  rw [h1]

/-- Non-vacuity of `C94_file_violated` and `C94_file_partial`: a new file, and the process dies after three or after two writes. -/
example : ∃ f file file' : File, f.bytes = [] ∧ file.bytes = (IndexFile.openIndex .jsonl [] { f with budget := some 3 }).2.bytes ∧
    IndexFile.openIndex .jsonl [] file = (.err (.msg "invalid metadata size"), file') := by
  obtain ⟨f, hf, _⟩ := file_with []
  obtain ⟨file, e1, e2⟩ := file_with (IndexFile.openIndex .jsonl [] { f with budget := some 3 }).2.bytes
  obtain ⟨file', h, _⟩ := C94_file_violated hf .jsonl [] file e1 e2 .jsonl []
  exact ⟨f, file, file', hf, e1, h⟩

example : ∃ (f file : File) (i1 : IndexFile) (s1 : PF) (file' : File), f.bytes = [] ∧
    file.bytes = (IndexFile.openIndex .jsonl [] { f with budget := some 2 }).2.bytes ∧ IndexFile.openIndex .jsonl [] file = (.ok (i1, s1), file') := by
  obtain ⟨f, hf, _⟩ := file_with []
  obtain ⟨file, e1, e2⟩ := file_with (IndexFile.openIndex .jsonl [] { f with budget := some 2 }).2.bytes
  obtain ⟨i1, s1, file', h, _⟩ := C94_file_partial hf .jsonl [] (n := 2) (by decide) file e1 e2 []
  exact ⟨f, file, i1, s1, file', hf, e1, h⟩

/-- Non-vacuity of `C94_sync_violated`: a crash during the first `Synchronize` of the two lines of the witness. -/
example : ∃ n, (jsonlSync jEnv jI (jData1 ++ jData2) (crashAfter n jS0)).1 ≠ .ok () ∧
    ∃ file i1 s1 file', file.bytes = (jsonlSync jEnv jI (jData1 ++ jData2) (crashAfter n jS0)).2.file.bytes ∧
      IndexFile.openIndex .jsonl jHeaders file = (.ok (i1, s1), file') ∧
      (jsonlSync jEnv i1 (jData1 ++ jData2) s1).1 = .err (.msg "invalid metadata size") := by
  obtain ⟨n, h1, h2⟩ := C94_sync_violated (lf := []) (tail := []) (data := []) (text := jLine1) (rest := jLine2 ++ [10]) (more := jData1 ++ jData2)
    (p := jData1 ++ jData2) jSync0 ⟨rfl, by simp, by simp⟩ rfl (by decide) (by decide) (by decide) (by simp)
    (jLinesOK _ (by simp [jLf]; left; rfl)).1 (by simp) (run_unit (r := jOnce) jOnce_ok)
  refine ⟨n, h1, ?_⟩
  obtain ⟨file, e1, e2⟩ : ∃ file : File, file.bytes = (jsonlSync jEnv jI (jData1 ++ jData2) (crashAfter n jS0)).2.file.bytes ∧ file.budget = none :=
    file_with _
  obtain ⟨i1, s1, file', h3, h4⟩ := h2 file e1 e2
  have := (h4 _ _ .same [] (by decide)).1
  exact ⟨file, i1, s1, file', e1, h3, by simpa using this⟩

end Appendable
