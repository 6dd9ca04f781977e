import Verif.Props.QueryCsv
import Verif.Props.QueryWitness
/-! A concrete CSV file to query: the hypotheses of C92 are met. -/
namespace Appendable
open Spec Tree

/-- `a,b`, newline, `xy,1`, newline -/
def kData : Bytes := [97, 44, 98, 10, 120, 121, 44, 49, 10]
def kRow : Bytes := [120, 121, 44, 49]
def kRun : Res Unit × PF := csvSync jNum cI kData cS0
/-- A client that takes cells as they are. -/
def kDb : TsDb := ⟨serve kRun.2.file.bytes, serve kData, fun _ _ b => .ok b⟩

set_option maxRecDepth 100000 in
theorem kRun_ok : kRun.1.isOk = true ∧ kRun.2.file.bytes.length ≤ 2 ^ 31 := by decide +kernel

theorem kFile : CsvFile jNum kData [kData] cI kRun.2 [97, 44, 98] [[97], [98]] [(kRow, [[120, 121], [49]])] [] kDb where
  run := .sync (more := kData) cSync0 (run_unit (r := kRun) kRun_ok.1)
  table := {
    header := ⟨.inl rfl, by decide, by decide⟩
    distinct := by decide
    names := by decide
    row := by
      intro r hr
      rcases List.mem_cons.1 hr with rfl | hr
      · exact ⟨⟨.inl rfl, by decide, by decide⟩, by decide, by decide⟩
      · simp at hr
    first := by intro r hr; cases hr; rfl }
  lines := ⟨by decide, by decide, by decide⟩
  seen := by
    intro d hd l t hc
    have h1 : IsLines kData [[97, 44, 98], kRow] [] := ⟨by decide, by decide, by decide⟩
    rcases List.mem_cons.1 hd with rfl | hd
    · have := (lines_unique hc h1).1; simp at this
    · simp at hd
  size := by decide
  sees := ⟨serve_faithful _, serve_faithful _, kRun_ok.2⟩
  cells := fun _ _ => rfl

/-- A query on one of the two columns. -/
def kWhere (name : Bytes) (op : TsOp) (v : JsVal) : TsQuery := ⟨[⟨name, op, v⟩], none, none, none⟩

theorem kCells : cellsOf jNum [[97], [98]] [97] (.str [120, 121]) [(kRow, [[120, 121], [49]])] = [(.str [120, 121], kRow)] ∧
    cellsOf jNum [[97], [98]] [98] (.num 0x3FF0000000000000) [(kRow, [[120, 121], [49]])] = [(.num 0x3FF0000000000000, kRow)] ∧
    textIndexBytes jNum [[97], [98]] [97] 4 [(kRow, [[120, 121], [49]])] ≤ 4096 := by decide +kernel

theorem kExact (op : TsOp) (hop : op = .eq ∨ op = .ge) : Exact op .asc (textIndexBytes jNum [[97], [98]] [97] 4 [(kRow, [[120, 121], [49]])]) .asc := by
  rcases hop with rfl | rfl
  · exact .eq kCells.2.2
  · exact .above (.inl rfl) kCells.2.2

theorem kLong : ∀ r ∈ [(kRow, [[120, 121], [(49 : UInt8)]])], ∀ x ∈ [[(97 : UInt8)], [98]].zip r.2, x.1 = [97] → kindOf (cell jNum x.2) = .string → 2 ≤ x.2.length := by
  decide

/-- Non-vacuity of C92_text_partial: `a == "xy"` and `a >= "xy"` read the row. -/
example (op : TsOp) (hop : op = .eq ∨ op = .ge) : Returns kDb (fun b => .ok b) (kWhere [97] op (.str [120, 121])) ⟨[kRow], none⟩ := by
  obtain ⟨out, ⟨h1, _⟩, h3⟩ := C92_text_partial kFile (q := kWhere [97] op (.str [120, 121])) rfl (by rw [kCells.1]; simp) kLong (kExact op hop) (fun b => .ok b)
  have hm : Meets op (.str [120, 121]) (.str [120, 121]) := by
    rcases hop with rfl | rfl
    · rfl
    · exact .inr rfl
  rw [kCells.1, List.filter_cons_of_pos (by simpa using hm)] at h1
  obtain rfl := List.perm_singleton.1 h1
  exact h3

/-- Non-vacuity of C92_rows_violated: with a `JSON.parse` that only knows JSON, the query throws. -/
example {V : Type} (env : JsEnv V) (json : ∀ t, ¬ IsJson t → ∃ e, env.parse t = .err e) (fields : Option (List Bytes)) :
    ∃ e, Returns kDb (fun row => handleSelect env row fields) (kWhere [97] .eq (.str [120, 121])) ⟨[], some e⟩ := by
  refine C92_rows_violated kFile (q := kWhere [97] .eq (.str [120, 121])) (op := .eq) (v := [120, 121]) rfl ⟨(.str [120, 121], kRow), by rw [kCells.1]; exact List.mem_cons_self, rfl⟩ kLong (kExact .eq (.inl rfl)) ?_ env json fields
  intro r hr
  rcases List.mem_cons.1 hr with rfl | hr
  · refine ⟨by decide, fun ws rest hw he => ?_⟩
    cases ws with
    | nil => simp [kRow] at he
    | cons c ws =>
      simp only [kRow, List.cons_append, List.cons.injEq] at he
      have := hw c (by simp)
      rw [← he.1] at this
      simp at this
  · simp at hr

/-- Such a `JSON.parse` exists. -/
example : ∃ env : JsEnv Unit, ∀ t, ¬ IsJson t → ∃ e, env.parse t = .err e := ⟨⟨fun _ => .err (.msg "SyntaxError"), fun _ => (), fun _ => false⟩, fun _ _ => ⟨_, rfl⟩⟩

/-- Non-vacuity of C92_number_violated: `b == 1` does not find the row. -/
example : IsCsvAnswer jNum [[97], [98]] [98] .eq (.num 0x3FF0000000000000) [(kRow, [[120, 121], [49]])] .asc [(.num 0x3FF0000000000000, kRow)] ∧
    Returns kDb (fun b => .ok b) (kWhere [98] .eq (.num 0x3FF0000000000000)) ⟨[], none⟩ :=
  C92_number_violated kFile rfl rfl (.inl rfl) kCells.2.1 (by decide) (by decide +kernel) _

end Appendable
