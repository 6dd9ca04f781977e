import Verif.Props.Cmd
import Verif.Props.CmdStuck
import Verif.Props.JsonlWitness
/-! A concrete history of runs of the program, for C95. -/
namespace Appendable
open Spec Tree

/-- The first run: the line `{"a":"hi"}`, no search headers. -/
def cmdFirst : Res Unit × Bytes := cmdRun jEnv jNum .jsonl [] (jLine1 ++ [10]) []

set_option maxRecDepth 100000 in
theorem cmdFirst_ok : (cmdFirst.1.isOk && !cmdFirst.2.isEmpty) = true := by decide +kernel

theorem cmdFirst_eq : cmdRun jEnv jNum .jsonl [] (jLine1 ++ [10]) [] = (.ok (), cmdFirst.2) := by
  have := cmdFirst_ok
  simp only [Bool.and_eq_true] at this
  exact run_unit (r := cmdFirst) this.1

theorem cmdLines : IsLines (jLine1 ++ [10]) [jLine1] [] := ⟨by decide, by decide, by simp⟩

theorem cmdRuns : Runs jEnv jNum (jLine1 ++ [10]) [[]] cmdFirst.2 := by
  obtain ⟨ix, hix⟩ : ∃ ix, ix = cmdFirst.2 := ⟨_, rfl⟩
  have h : cmdRun jEnv jNum .jsonl [] ([] ++ (jLine1 ++ [10])) [] = (.ok (), ix) := by rw [List.nil_append, hix]; exact cmdFirst_eq
  rw [← hix]
  have := Runs.run (data := []) (more := jLine1 ++ [10]) .none cmdLines h
  simpa only [List.nil_append, List.length_cons, List.length_nil, Nat.zero_add, Nat.sub_zero, List.replicate] using this

def cmdLf : List ((Bytes × List Field) × List Bytes) := [((jLine1, [⟨[97], .str [104, 105], 5, 9⟩]), [])]

theorem cmdLinesOK : ∀ x ∈ cmdLf, LineFields jEnv.lex x.1.1 x.1.2 ∧ x.1.1.length < 2 ^ 32 ∧ ∀ f ∈ x.1.2, FieldOK jEnv.lex x.2 x.1.1 f := by
  intro x hx
  obtain rfl := List.mem_singleton.1 hx
  refine ⟨⟨1, _, [], jToks1, .scalar trivial .close⟩, by decide, ?_⟩
  intro f hf
  obtain rfl := List.mem_singleton.1 hf
  refine ⟨by decide, by simp, by decide, ?_⟩
  intro v hv; cases hv
  exact ⟨4, [], jToksV⟩

/-- Non-vacuity of `C95_again_violated`: running again, now with the search header `a`, leaves the index as it is. -/
theorem cmdSecond : cmdRun jEnv jNum .jsonl [[97]] (jLine1 ++ [10]) cmdFirst.2 = (.ok (), cmdFirst.2) := by
  have hne : cmdFirst.2 ≠ [] := by
    have := cmdFirst_ok
    simp only [Bool.and_eq_true, Bool.not_eq_true'] at this
    intro hc
    rw [hc] at this
    exact absurd this.2 (by simp)
  have := C95_again_violated (lf := cmdLf) (more := []) cmdRuns hne (by decide) cmdLines (by rw [List.append_nil]; exact cmdLines) rfl cmdLinesOK [[97]]
  simpa using this

/-- Non-vacuity of `C95_headers_partial` and `C95_old_lines_violated`: after that second run, whose search header is `a`, the index
holds the text `hi` of the one line, but no n-gram index of `a` has an entry for the line. -/
example : Runs jEnv jNum (jLine1 ++ [10]) [[]] cmdFirst.2 ∧ ∃ fm js, IndexHolds (jLine1 ++ [10]) cmdFirst.2 jEnv.parse fm js ∧
    ∀ e ∈ entriesOf js [97] FieldType.trigram.code, e.2.offset ≠ 0 := by
  have h := Runs.run (data := jLine1 ++ [10]) (more := []) (hs := [[97]]) cmdRuns (by simpa using cmdLines) (by simpa using cmdSecond)
  have h : Runs jEnv jNum (jLine1 ++ [10]) [[]] cmdFirst.2 := by simpa using h
  exact ⟨h, C95_old_lines_violated (lf := cmdLf) h (by decide) cmdLines rfl cmdLinesOK (a := []) (b := []) rfl (by simp) (.inr (.inr rfl))⟩

example : IndexHolds (jLine1 ++ [10]) cmdFirst.2 jEnv.parse ⟨1, .jsonl, 11, 1⟩
    [⟨[97], FieldType.string.code, [(⟨⟨5, 4⟩, [104, 105]⟩, ⟨0, 10⟩)], 4⟩] :=
  C95_headers_partial (lf := cmdLf) cmdRuns (by decide) cmdLines rfl cmdLinesOK

theorem cmdFirst_ne : cmdFirst.2 ≠ [] := by
  have := cmdFirst_ok
  simp only [Bool.and_eq_true, Bool.not_eq_true'] at this
  intro hc
  rw [hc] at this
  exact absurd this.2 (by simp)

def cmdGood : List (Bytes × List Field) := [(jLine1, [⟨[97], .str [104, 105], 5, 9⟩])]

theorem cmdGoodOK : ∀ x ∈ cmdGood, LineFields jEnv.lex x.1 x.2 ∧ x.1.length < 2 ^ 32 ∧ ∀ f ∈ x.2, FieldOK jEnv.lex [] x.1 f := by
  intro x hx
  obtain rfl := List.mem_singleton.1 hx
  exact cmdLinesOK _ (List.mem_singleton.2 rfl)

/-- Non-vacuity of `C33_program`: whichever runs lead to that data file, the index file is the one of the single run. -/
example : ∀ index', RunsWith jEnv jNum [] (jLine1 ++ [10]) index' → index' ≠ [] → cmdFirst.2 = index' := by
  have h : RunsWith jEnv jNum [] ([] ++ (jLine1 ++ [10])) cmdFirst.2 := .run .none (by rw [List.nil_append]; exact cmdFirst_eq)
  rw [List.nil_append] at h
  exact fun index' hr hne => C33_program h cmdFirst_ne hr hne (by decide) (lf := cmdGood) cmdLines cmdGoodOK

/-- Non-vacuity of `C37_program_violated`: the line `{"a":"hi"}` followed by the line `x`. -/
example : ∃ stuck, cmdRun jEnv jNum .jsonl [] ((jLine1 ++ [10]) ++ ([120] ++ 10 :: [])) [] = (.panic, stuck) ∧
    cmdRun jEnv jNum .jsonl [] ((jLine1 ++ [10]) ++ []) stuck = (.panic, stuck) := by
  obtain ⟨ix, hix⟩ : ∃ ix, ix = cmdFirst.2 := ⟨_, rfl⟩
  obtain ⟨st, h1, h2⟩ := C37_program_violated (env := jEnv) (num := jNum) (hs := []) (lf := []) (good := cmdGood) (tail := []) (p := jLine1 ++ [10]) (more := jLine1 ++ [10])
    (bad := [120]) (rest := []) (index := []) (index' := ix) .none ⟨rfl, by simp, by simp⟩ rfl trivial cmdLines rfl cmdGoodOK
    (by rw [hix]; exact cmdFirst_eq) (by decide)
    (by intro e r h; exact absurd h (by rw [show (jEnv.lex [120]).toks = [] by decide +kernel]; simp)) (by decide)
  exact ⟨st, h1, h2 [] (by decide)⟩

end Appendable
