import Verif.Props.QueryJsonl
import Verif.Props.SearchWitness
import Verif.Props.Select
/-! A concrete JSONL file to query: the hypotheses of C82-C84 are met. -/
namespace Appendable
open Spec Tree

/-- `"x x"` -/
def qLit : Lit := [.plain 120, .plain 32, .plain 120]
/-- The lines `{"a":"x x"}` and `{}` as JSON texts. -/
def qRecs : List Rec := [⟨[], [], .cons [] [.plain 97] [] [] (.str qLit) [] .nil, []⟩, ⟨[], [], .nil, []⟩]

/-- A client whose JSON parser is the model's. -/
def qReader (b : Bytes) : Res Bytes :=
  match (goLex (fun _ => none) b).toks with
  | (.str v, _) :: _ => .ok v
  | _ => .err (.msg "SyntaxError")
def qDb' : TsDb := ⟨serve qRun.2.file.bytes, serve qData, fun _ _ => qReader⟩

theorem qRecs_fields : qRecs.map (fun r => (r.text, r.fields (fun _ => none))) = qLf := by decide +kernel

theorem qRecs_ok (hs : List Bytes) : ∀ r ∈ qRecs, r.OK (fun _ => none) hs := by
  intro r hr
  rcases List.mem_cons.1 hr with rfl | hr
  · refine ⟨by simp [Ws], by simp [Ws], ?_, by simp [Members.Tight, Doc.Tight], ?_, ?_⟩
    · simp [Doc.WF, Members.WF, Ws, Lit.WF, Chr.WF, Scalar, qLit]
    · intro f hf
      have h : f = ⟨[97], .str [120, 32, 120], 5, 10⟩ := by
        have : (qRecs.head (by simp [qRecs])).fields (fun _ => none) = [⟨[97], .str [120, 32, 120], 5, 10⟩] := by decide +kernel
        unfold qRecs at this
        rw [List.head_cons] at this
        rw [this] at hf
        simpa using hf
      rw [h]; decide
    · intro f hf _
      have h : f = ⟨[97], .str [120, 32, 120], 5, 10⟩ := by
        have : (qRecs.head (by simp [qRecs])).fields (fun _ => none) = [⟨[97], .str [120, 32, 120], 5, 10⟩] := by decide +kernel
        unfold qRecs at this
        rw [List.head_cons] at this
        rw [this] at hf
        simpa using hf
      exact ⟨_, by rw [h]⟩
  · rcases List.mem_cons.1 hr with rfl | hr
    · refine ⟨by simp [Ws], by simp [Ws], by simp [Doc.WF, Members.WF, Ws], by simp [Members.Tight], ?_, ?_⟩ <;>
      · intro f hf
        simp [Rec.fields, Doc.fields, Members.fields] at hf
    · simp at hr

/-- The file can be queried. -/
theorem qQuery : QueryFile (fun _ => none) id [[97]] qData qI qRun.2 qRecs [] qDb' := by
  refine ⟨qSync, ⟨by decide +kernel, by decide +kernel, by simp⟩, qRecs_ok _, by decide, ⟨serve_faithful _, serve_faithful _, qRun_ok.2.1⟩, ?_⟩
  intro ws l h1 h2
  obtain ⟨e, r, h⟩ := goLex_string (num := fun _ => none) h1 h2
  show qReader _ = _
  unfold qReader
  rw [h]

/-- `a == "x x"` -/
def qWhere (op : TsOp) (v : JsVal) : TsQuery := ⟨[⟨[97], op, v⟩], none, none, none⟩

theorem qValues : valuesOf (fun _ => none) [97] (.str [120, 32, 120]) qRecs = [(.str [120, 32, 120], qLine)] ∧
    indexBytes (fun _ => none) id [[97]] [97] (.str [120, 32, 120]) qRecs ≤ 4096 ∧
    valuesOf (fun _ => none) [97] (.bool true) qRecs = [] := by decide +kernel

/-- Non-vacuity of C82: `a == "x x"` and `a >= "x x"` return the line. -/
example (op : TsOp) (hop : op = .eq ∨ op = .ge) : Returns qDb' (fun b => .ok b) (qWhere op (.str [120, 32, 120])) ⟨[qLine], none⟩ := by
  have hex : Exact op .asc (indexBytes (fun _ => none) id [[97]] [97] (.str [120, 32, 120]) qRecs) .asc := by
    rcases hop with rfl | rfl
    · exact .eq qValues.2.1
    · exact .above (.inl rfl) qValues.2.1
  obtain ⟨out, ⟨h1, _⟩, h3⟩ := C82_query_partial qQuery (q := qWhere op (.str [120, 32, 120])) rfl rfl (by rw [qValues.1]; simp) hex (fun b => .ok b)
  have hm : Meets op (.str [120, 32, 120]) (.str [120, 32, 120]) := by
    rcases hop with rfl | rfl
    · rfl
    · exact .inr rfl
  rw [qValues.1, List.filter_cons_of_pos (by simpa using hm)] at h1
  obtain rfl := List.perm_singleton.1 h1
  exact h3

/-- A client's `JSON.parse` for the two lines. -/
def qJs : JsEnv Nat := ⟨fun b => if b = qLine then .ok [([97], 1)] else .ok [], fun _ => 7, fun _ => false⟩

theorem qReads : ∀ r ∈ qRecs, ReadsJson qJs (fun _ => 1) r := by
  intro r hr
  rcases List.mem_cons.1 hr with rfl | hr
  · refine ⟨[([97], 1)], by decide +kernel, by simp, fun k => ?_⟩
    have hk : Lit.value [.plain 97] = [97] := by decide
    unfold Rec.member
    simp only [Members.list, List.reverse_singleton, List.lookup, hk]
    by_cases h : k = [97]
    · subst h; rfl
    · simp [beq_eq_false_iff_ne.2 h]
  · rcases List.mem_cons.1 hr with rfl | hr
    · exact ⟨[], by decide +kernel, by simp, fun k => rfl⟩
    · simp at hr

/-- Non-vacuity of `C85_query_partial`: `a == "x x"` with `select a`. -/
example : ∃ (out : List (Tok × Bytes)) (rows : List (JsObject Nat)), IsAnswer (fun _ => none) [97] .eq (.str [120, 32, 120]) qRecs .asc out ∧
    Returns qDb' (fun line => handleSelect qJs line (some [[97]])) ⟨[⟨[97], .eq, .str [120, 32, 120]⟩], none, some [[97]], none⟩ ⟨rows, none⟩ ∧
    rows.length = out.length ∧ ∀ (k : Nat) (x : Tok × Bytes) (row : JsObject Nat), out[k]? = some x → rows[k]? = some row →
      ∃ r ∈ qRecs, x.2 = r.text ∧ Projects (fun _ => 1) r [[97]] row :=
  C85_query_partial qQuery qReads (q := ⟨[⟨[97], .eq, .str [120, 32, 120]⟩], none, some [[97]], none⟩) rfl rfl
    (by rw [qValues.1]; simp) (.eq qValues.2.1) rfl (by simp) (by decide +kernel)

/-- C83 applies to it. -/
example : ∃ out, IsAnswer (fun _ => none) [97] .eq (.str [120, 32, 120]) qRecs .asc out ∧
    (Returns qDb' (fun b => .ok b) (qWhere .eq (.str [120, 32, 120])) (rowsFor (fun b => .ok b) (out.map (·.2))) ∨
      ∃ fail, Returns qDb' (fun b => .ok b) (qWhere .eq (.str [120, 32, 120])) ⟨[], fail⟩) :=
  C83_equality_sound qQuery rfl rfl _

/-- C84 is violated: `a == true` throws a `TypeError` on this file. -/
theorem C84_concrete_violated : Returns qDb' (fun b => .ok b) (qWhere .eq (.bool true)) ⟨[], some (.msg "TypeError")⟩ :=
  C84_violated qQuery (q := qWhere .eq (.bool true)) (w := .bool true) rfl rfl qValues.2.2
    ⟨_, List.mem_cons_self, ⟨[97], .str [120, 32, 120], 5, 10⟩, by decide +kernel, rfl⟩ _

/-- `C36_json` applies. -/
example : Holds qData (JEnv.parse ⟨goLex (fun _ => none), id⟩) id qI qRun.2 ⟨1, .jsonl, 15, 2⟩ (linesJobs id [[97]] 0 qLf) := by
  have := C36_json qSync (by decide) (recs := qRecs) (tail := []) qQuery.lines (qRecs_ok _)
  rw [qRecs_fields] at this
  exact this

/-- `C80_json` applies: a fresh index without search headers accepts the file; and so does `C104_json`. -/
example : ∃ i s, SyncRun ⟨goLex (fun _ => none), id⟩ [] [] i s ∧
    ∃ s', jsonlSync ⟨goLex (fun _ => none), id⟩ i ([] ++ qData) s = (.ok (), s') ∧
      s'.file.bytes.length ≤ 4096 * (2 + 5 * qData.length) := by
  obtain ⟨s', e1, _⟩ := openIndex_fresh [] (JEnv.parse ⟨goLex (fun _ => none), id⟩) (fun m => m.width) (f := wFile) rfl rfl .jsonl []
  have hr : SyncRun ⟨goLex (fun _ => none), id⟩ [] [] _ s' := .create (f := wFile) rfl rfl e1
  obtain ⟨s2, e2⟩ := C80_json hr (more := qData) (by decide) (recs := qRecs) (tail := []) qQuery.lines (qRecs_ok _)
  exact ⟨_, _, hr, s2, e2, C104_json (data := [] ++ qData) (SyncRun.sync (more := qData) hr e2) (by decide) (recs := qRecs) (tail := []) qQuery.lines (qRecs_ok _)⟩

end Appendable
