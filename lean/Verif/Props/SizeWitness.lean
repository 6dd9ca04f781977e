import Verif.Props.Size
import Verif.Props.TsWitness
import Verif.Props.JsonlWitness
import Verif.Props.Csv
/-! Histories that meet the hypotheses of C101, C103 and C104. -/
namespace Appendable
open Spec Tree

/-- An index of 171 floats: the file has at most six pages, and the tree at most two levels. -/
example : ∃ s c n mp s' d, IndexRun wParse id bData wI s ⟨1, .jsonl, 0, 0⟩ [(bP, bM)] c ∧ (c 0).length = 171 ∧ s.file.bytes.length ≤ 4096 * 6 ∧
    (treeAt bData wParse 9 bP).root s = (.ok (some (n, mp)), s') ∧ Down (treeAt bData wParse 9 bP) s mp.offset d ∧ d ≤ 2 := by
  obtain ⟨s, c, h1, h2, h3⟩ := bRun
  have hl : (c 0).length = 171 := by rw [h3]; simp
  obtain ⟨n, mp, s', d, e1, e2, e3, e4⟩ := C101_index_depth (k := 0) (p := bP) (m := bM) smallWidths_id h1 rfl
    (fun hc => by rw [hc] at hl; simp at hl)
  refine ⟨s, c, n, mp, s', d, h1, hl, ?_, e1, (e2 d).2 rfl, Nat.le_of_not_lt (fun h => ?_)⟩
  · have := C103_size smallWidths_id h1 (by intro x hx; simp at hx; subst hx; decide)
    simp only [List.length_cons, List.length_nil, List.mapIdx_cons, List.mapIdx_nil, List.sum_cons, List.sum_nil, hl] at this
    refine Nat.le_trans this ?_
    show 4096 * (2 + (0 + 1) / 15 + (treePages 9 171 + 0)) ≤ _
    decide
  · have := e4 (by omega)
    have h53 : halfPage (id bM.width) = 53 := by decide
    rw [h53, hl] at this
    have : (53 + 1) ^ 1 ≤ (53 + 1) ^ (d - 2) := Nat.pow_le_pow_right (by omega) (by omega)
    omega

example : jRun2.2.file.bytes.length ≤ 4096 * jobsPages (linesJobs jEnv.nfkd jHeaders 0 jLf) :=
  C104_jsonl_size jSync (by decide) jLines jLinesOK

/-- Three indexes and four cells: at most five pages. -/
example : cRun2.2.file.bytes.length ≤ 4096 * 5 := by
  refine Nat.le_trans (C104_csv_size_partial (rows := [([120, 44, 49], [[120], [49]]), ([121, 44, 13], [[121], []])]) cSync (by decide) cTable (tail := [])
    ⟨by decide, by decide, by decide⟩ ?_) (by decide)
  intro d hd l t hc
  have h1 : IsLines cData1 [[97, 44, 98], [120, 44, 49]] [121] := ⟨by decide, by decide, by decide⟩
  have h2 : IsLines (cData1 ++ cData2) [[97, 44, 98], [120, 44, 49], [121, 44, 13]] [] := ⟨by decide, by decide, by decide⟩
  rcases List.mem_cons.1 hd with rfl | hd
  · have := (lines_unique hc h2).1; simp at this
  · rcases List.mem_cons.1 hd with rfl | hd
    · have := (lines_unique hc h1).1; simp at this
    · simp at hd

/-- `C41_succeeds_partial` and `C104_csv_per_byte_partial` apply: a fresh index accepts the whole table. -/
example : ∃ s', csvSync jNum cI ([] ++ (cData1 ++ cData2)) cS0 = (.ok (), s') ∧ s'.file.bytes.length ≤ 4096 * (2 + 2 * 12) := by
  have h2 : IsLines ([] ++ (cData1 ++ cData2)) [[97, 44, 98], [120, 44, 49], [121, 44, 13]] [] := ⟨by decide, by decide, by decide⟩
  obtain ⟨s', e⟩ := C41_succeeds_partial cSync0 (by decide) cTable h2 (by simp)
  refine ⟨s', e, C104_csv_per_byte_partial (CsvRun.sync cSync0 e) (by decide) cTable h2 ?_⟩
  intro d hd l t hc
  rcases List.mem_cons.1 hd with rfl | hd
  · have := (lines_unique hc h2).1; simp at this
  · simp at hd

end Appendable
