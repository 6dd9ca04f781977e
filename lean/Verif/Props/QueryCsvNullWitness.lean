import Verif.Props.QueryCsvNull
import Verif.Props.QueryWitness
/-! A concrete CSV file with an empty cell: the hypotheses of C92_null_partial are met. -/
namespace Appendable
open Spec Tree

/-- `a,b`, newline, `xy,`, newline -/
def eData : Bytes := [97, 44, 98, 10, 120, 121, 44, 10]
def eRow : Bytes := [120, 121, 44]
def eRun : Res Unit × PF := csvSync jNum cI eData cS0
/-- A client that takes cells as they are. -/
def eDb : TsDb := ⟨serve eRun.2.file.bytes, serve eData, fun _ _ b => .ok b⟩

set_option maxRecDepth 100000 in
theorem eRun_ok : eRun.1.isOk = true ∧ eRun.2.file.bytes.length ≤ 2 ^ 31 := by decide +kernel

theorem eFile : CsvFile jNum eData [eData] cI eRun.2 [97, 44, 98] [[97], [98]] [(eRow, [[120, 121], []])] [] eDb where
  run := .sync (more := eData) cSync0 (run_unit (r := eRun) eRun_ok.1)
  table := {
    header := ⟨.inl rfl, by decide, by decide⟩
    distinct := by decide
    names := by decide
    row := by
      intro r hr
      rcases List.mem_cons.1 hr with rfl | hr
      · exact ⟨⟨.inl rfl, by decide, by decide⟩, by decide, by decide⟩
      · simp at hr
    first := by intro r hr; cases hr; rfl }
  lines := ⟨by decide, by decide, by decide⟩
  seen := by
    intro d hd l t hc
    have h1 : IsLines eData [[97, 44, 98], eRow] [] := ⟨by decide, by decide, by decide⟩
    rcases List.mem_cons.1 hd with rfl | hd
    · have := (lines_unique hc h1).1; simp at this
    · simp at hd
  size := by decide
  sees := ⟨serve_faithful _, serve_faithful _, eRun_ok.2⟩
  cells := fun _ _ => rfl

theorem eCells : cellsOf jNum [[97], [98]] [98] .null [(eRow, [[120, 121], []])] = [(.null, eRow)] ∧
    nullIndexBytes jNum [[97], [98]] [98] 4 [(eRow, [[120, 121], []])] ≤ 4096 := by decide +kernel

/-- Non-vacuity of C92_null_partial: `b == null` reads the row. -/
example : Returns eDb (fun b => .ok b) ⟨[⟨[98], .eq, .null⟩], none, none, none⟩ ⟨[eRow], none⟩ := by
  obtain ⟨out, ⟨h1, _⟩, h3⟩ := C92_null_partial eFile (q := ⟨[⟨[98], .eq, .null⟩], none, none, none⟩) rfl (by rw [eCells.1]; simp) (by decide)
    (.eq eCells.2) (fun b => .ok b)
  have hm : Meets .eq .null .null := rfl
  rw [eCells.1, List.filter_cons_of_pos (by simpa using hm)] at h1
  obtain rfl := List.perm_singleton.1 h1
  exact h3

end Appendable
