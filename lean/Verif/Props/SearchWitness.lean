import Verif.Props.SearchJsonl
import Verif.Props.TsWitness
/-! A concrete file to search: the hypotheses of C76-C79 are met, and the violations are real. -/
namespace Appendable
open Spec Tree

/-- No numbers in this file. -/
def qEnv : JEnv := ⟨goLex (fun _ => none), id⟩

/-- `{"a":"x x"}` -/
def qLine : Bytes := [123, 34, 97, 34, 58, 34, 120, 32, 120, 34, 125]
/-- `{}` -/
def qLine' : Bytes := [123, 125]
def qData : Bytes := qLine ++ 10 :: qLine' ++ [10]
def qOpen : Res (IndexFile × PF) × File := IndexFile.openIndex .jsonl [[97]] wFile
def qI : IndexFile := (okVal qOpen.1).1
def qS0 : PF := (okVal qOpen.1).2
def qRun : Res Unit × PF := jsonlSync qEnv qI qData qS0

set_option maxRecDepth 100000 in
theorem qOpen_ok : qOpen.1.isOk = true := by decide +kernel
set_option maxRecDepth 100000 in
theorem qRun_all : (qRun.1.isOk && (decide (qRun.2.file.bytes.length ≤ 2 ^ 31) && decide (qRun.2.file.bytes.take 4 = [0, 0, 0, 0]))) = true := by decide +kernel

theorem qRun_ok : qRun.1.isOk = true ∧ qRun.2.file.bytes.length ≤ 2 ^ 31 ∧ qRun.2.file.bytes.take 4 = [0, 0, 0, 0] := by
  have := qRun_all
  simp only [Bool.and_eq_true, decide_eq_true_eq] at this
  exact this

theorem qOpen_eq : IndexFile.openIndex .jsonl [[97]] wFile = (.ok (qI, qS0), qOpen.2) := run_ok2 (r := qOpen) qOpen_ok
theorem qRun_eq : jsonlSync qEnv qI qData qS0 = (.ok (), qRun.2) := run_unit (r := qRun) qRun_ok.1
theorem qSync : SyncRun qEnv [[97]] qData qI qRun.2 := .sync (data := []) (more := qData) (.create (f := wFile) rfl rfl qOpen_eq) qRun_eq

def qLf : List (Bytes × List Field) := [(qLine, [⟨[97], .str [120, 32, 120], 5, 10⟩]), (qLine', [])]
def qDb : TsDb := ⟨serve qRun.2.file.bytes, serve qData, fun _ _ _ => .err (.msg "unused")⟩

theorem qToks : (qEnv.lex qLine).toks = [(.lbrace, 1), (.str [97], 4), (.str [120, 32, 120], 10), (.rbrace, 11)] := by decide +kernel
theorem qToksV : (qEnv.lex [34, 120, 32, 120, 34]).toks = [(.str [120, 32, 120], 5)] := by decide +kernel

theorem qToks' : (qEnv.lex qLine').toks = [(.lbrace, 1), (.rbrace, 2)] := by decide +kernel

/-- The file can be searched. -/
theorem qFile : SearchFile qEnv [[97]] qData qI qRun.2 qLf [] [97] qDb := by
  refine ⟨qSync, ⟨by decide, by decide, by simp⟩, ?_, by decide, by simp, ⟨_, List.mem_cons_self, by decide⟩, ?_, ⟨serve_faithful _, serve_faithful _, qRun_ok.2.1⟩⟩
  · intro x hx
    rcases List.mem_cons.1 hx with rfl | hx
    · refine ⟨⟨1, _, [], qToks, .scalar trivial .close⟩, by decide, ?_⟩
      intro f hf
      rcases List.mem_cons.1 hf with rfl | hf
      · refine ⟨by decide, fun _ => ⟨_, rfl⟩, by decide, ?_⟩
        intro v hv; cases hv
        exact ⟨5, [], qToksV⟩
      · simp at hf
    · rcases List.mem_cons.1 hx with rfl | hx
      · exact ⟨⟨1, _, [], qToks', .close⟩, by decide, by simp⟩
      · simp at hx
  · intro x hx t ht
    rcases List.mem_cons.1 hx with rfl | hx
    · have : t = [120, 32, 120] := by
        have h : textsOf [97] [⟨[97], .str [120, 32, 120], 5, 10⟩] = [[120, 32, 120]] := by decide
        rw [h] at ht
        simpa using ht
      subst this
      exact ⟨by decide, ⟨[120, 32, 120], by intro r hr; left; revert r; decide, by decide⟩, by decide⟩
    · rcases List.mem_cons.1 hx with rfl | hx
      · simp [textsOf] at ht
      · simp at hx

/-- the phrase `xy`, n-grams of one character -/
def qSearch1 : TsSearch := ⟨[97], [120, 121], some (1, 1)⟩
/-- the phrase `xy` without a configuration: n-grams of one and two characters -/
def qSearch2 : TsSearch := ⟨[97], [120, 121], none⟩

theorem qAsks1 : Asks qSearch1 [97] [120, 121] 1 1 := ⟨rfl, rfl, rfl, by decide, by decide, by decide, by unfold Ascii; decide⟩
theorem qAsks2 : Asks qSearch2 [97] [120, 121] 1 2 := ⟨rfl, rfl, rfl, by decide, by decide, by decide, by unfold Ascii; decide⟩

theorem qGrams : ngrams 1 [120, 121] = [[120], [121]] ∧ ngrams 2 [120, 121] = [[120, 121]] ∧
    gramsOf qEnv.nfkd [97] 1 qLf = [([120], qLine), ([120], qLine)] ∧ gramsOf qEnv.nfkd [97] 2 qLf = [] := by decide +kernel

theorem qFilled : Filled qEnv.nfkd [97] [120, 121] 1 1 qLf := by
  intro n h1 h2 _
  obtain rfl : n = 1 := by omega
  rw [qGrams.2.2.1]; simp

theorem qOne : OnePage qEnv.nfkd [[97]] [97] [120, 121] 1 1 qLf := by
  intro n h1 h2 _
  obtain rfl : n = 1 := by omega
  decide +kernel

/-- Non-vacuity of C76: the line is found. -/
example (rand : Nat → Nat) : ∃ rows : List (Bytes × Option Rat), Finds qDb (nanArith id) asciiLower rand qSearch1 ⟨rows, none⟩ ∧
    ∀ line, line ∈ rows.map (·.1) ↔ line = qLine := by
  obtain ⟨rows, h1, h2⟩ := C76_found_partial (A := nanArith id) qFile qAsks1 qFilled qOne asciiLower_ok rand
  refine ⟨rows, h1, fun line => (h2 line).trans ⟨?_, ?_⟩⟩
  · rintro ⟨x, hx, rfl, hm⟩
    rcases List.mem_cons.1 hx with rfl | hx
    · rfl
    · rcases List.mem_cons.1 hx with rfl | hx
      · obtain ⟨t, ht, _⟩ := hm
        simp [textsOf] at ht
      · simp at hx
  · rintro rfl
    exact ⟨_, List.mem_cons_self, rfl, [120, 32, 120], by decide, 1, [120], by decide, by decide, by rw [qGrams.1]; simp, by decide +kernel⟩

/-- C76 is violated: the line matches the phrase `xy` (it contains `x`), but the default search for it throws. -/
theorem C76_violated : LineMatches qEnv.nfkd [97] [120, 121] 1 2 [⟨[97], .str [120, 32, 120], 5, 10⟩] ∧
    ∀ (S : Type) (A : ScoreArith S) (rand : Nat → Nat), Finds qDb A asciiLower rand qSearch2 ⟨[], some (.msg "empty node")⟩ := by
  refine ⟨⟨[120, 32, 120], by decide, 1, [120], by decide, by decide, by rw [qGrams.1]; simp, by decide +kernel⟩, fun S A rand => ?_⟩
  exact C76_empty_violated qFile qAsks2 (n := 2) (by decide) (by decide) (by rw [qGrams.2.1]; simp) qGrams.2.2.2 qRun_ok.2.2 asciiLower_ok rand

/-- Non-vacuity of C77: the one line of the file is returned twice, as `x` occurs twice. -/
example {S : Type} (A : ScoreArith S) (rand : Nat → Nat) : ∃ rows : List (Bytes × S), Finds qDb A asciiLower rand qSearch1 ⟨rows, none⟩ ∧
    rows.map (·.1) = [qLine, qLine] := by
  obtain ⟨rows, h1, h2⟩ := C77_multiplicity_partial (A := A) qFile qAsks1 qFilled qOne asciiLower_ok rand
  refine ⟨rows, h1, ?_⟩
  have : (tokensOf [120, 121] 1 1).flatMap (fun g => ((gramsOf qEnv.nfkd [97] g.1 qLf).filter (fun o => decide (o.1 = g.2))).map (·.2)) =
      List.replicate 2 qLine := by decide +kernel
  rw [this] at h2
  exact List.perm_replicate.1 h2

/-- the phrase `x x`, n-grams of one character -/
def qSearch3 : TsSearch := ⟨[97], [120, 32, 120], some (1, 1)⟩
theorem qAsks3 : Asks qSearch3 [97] [120, 32, 120] 1 1 := ⟨rfl, rfl, rfl, by decide, by decide, by decide, by unfold Ascii; decide⟩
theorem qGrams3 : ngrams 1 [120, 32, 120] = [[120], [120]] := by decide +kernel

theorem qFilled3 : Filled qEnv.nfkd [97] [120, 32, 120] 1 1 qLf := by
  intro n h1 h2 _
  obtain rfl : n = 1 := by omega
  rw [qGrams.2.2.1]; simp

theorem qOne3 : OnePage qEnv.nfkd [[97]] [97] [120, 32, 120] 1 1 qLf := by
  intro n h1 h2 _
  obtain rfl : n = 1 := by omega
  decide +kernel

/-- Non-vacuity of C79: the phrase `x x` has four hits, the file two lines, and a row has `NaN` for a score. -/
example (log : Rat → Rat) (rand : Nat → Nat) : ∃ rows : List (Bytes × Option Rat), Finds qDb (nanArith log) asciiLower rand qSearch3 ⟨rows, none⟩ ∧
    (qLine, none) ∈ rows := by
  obtain ⟨rows, h1, h2⟩ := C79_violated (log := log) qFile qAsks3 qFilled3 qOne3 asciiLower_ok (n := 1) (by decide) (by decide)
    (by unfold hitCount; rw [qGrams3, qGrams.2.2.1]; decide) rand
  exact ⟨rows, h1, h2 [120] (by rw [qGrams3]; simp) qLine (by rw [qGrams.2.2.1]; simp)⟩

/-- Non-vacuity of C79: the phrase `xy` has two hits, and all scores are numbers. -/
example (log : Rat → Rat) (rand : Nat → Nat) : ∃ rows : List (Bytes × Option Rat), Finds qDb (nanArith log) asciiLower rand qSearch1 ⟨rows, none⟩ ∧
    ∀ row ∈ rows, ∃ x, row.2 = some x := by
  refine C79_number_partial qFile qAsks1 qFilled asciiLower_ok rand (fun n h1 h2 => ?_)
  obtain rfl : n = 1 := by omega
  unfold hitCount; rw [qGrams.1, qGrams.2.2.1]; decide

theorem qWeight (log : Rat → Rat) : weight (nanArith log) 2 2 = some (log (1 / 5)) := by
  have h1 : (((2 : Int) : Rat) - ((2 : Nat) : Int) + 1 / 2) / (((2 : Nat) : Int) + 1 / 2) = 1 / 5 := by decide +kernel
  have h2 : (((1 : Int) : Rat) * (6 / 5 + 1)) / ((1 : Int) + 6 / 5) = 1 := by decide +kernel
  unfold weight
  simp only [nanArith, both]
  rw [h1, h2, if_pos (by decide +kernel)]
  show some (log (1 / 5) * 1) = _
  rw [Rat.mul_one]

/-- C78 is violated: searching the same file twice for `xy`, the same line gets the score `2 * log 0.2` in one search and `log 0.2` in
the other, depending on the random numbers. -/
theorem C78_violated (log : Rat → Rat) (hlog : log (1 / 5) ≠ 0) :
    ∃ (rand rand' : Nat → Nat) (rows rows' : List (Bytes × Option Rat)), Finds qDb (nanArith log) asciiLower rand qSearch1 ⟨rows, none⟩ ∧
      Finds qDb (nanArith log) asciiLower rand' qSearch1 ⟨rows', none⟩ ∧
      (qLine, some (2 * log (1 / 5))) ∈ rows ∧ (qLine, some (2 * log (1 / 5))) ∉ rows' ∧ (qLine, some (log (1 / 5))) ∈ rows' := by
  obtain ⟨⟨r1, rows1, h1, h2⟩, ⟨r2, rows2, h3, h4⟩⟩ := C78_order_violated (A := nanArith log) qFile qAsks1 qFilled qOne asciiLower_ok (a := [120]) (b := [121])
    qGrams.1 (la := [qLine, qLine]) (lb := []) (by rw [qGrams.2.2.1]; decide) (by rw [qGrams.2.2.1]; decide)
  have e1 : (nanArith log).add (some (log (1 / 5))) (some (log (1 / 5))) = some (2 * log (1 / 5)) := by
    show some (log (1 / 5) + log (1 / 5)) = _
    congr 1; grind
  have e2 : (nanArith log).add (nanArith log).zero (some (log (1 / 5))) = some (log (1 / 5)) := by
    show some ((0 : Rat) + log (1 / 5)) = _
    congr 1; grind
  have hw : weight (nanArith log) (qLf.length : Int) ([qLine, qLine].length + ([] : List Bytes).length) = some (log (1 / 5)) := qWeight log
  have hw' : weight (nanArith log) (qLf.length : Int) [qLine, qLine].length = some (log (1 / 5)) := qWeight log
  simp only [hw, hw', e1, e2, List.map_cons, List.map_nil, List.append_nil, List.nil_append] at h2 h4
  refine ⟨r1, r2, rows1, rows2, h1, h3, h2.mem_iff.2 (by simp), fun hm => ?_, h4.mem_iff.2 (by simp)⟩
  have := h4.mem_iff.1 hm
  simp only [List.mem_cons, List.not_mem_nil, or_false, or_self, Prod.mk.injEq, true_and, Option.some.injEq] at this
  exact hlog (by grind)

end Appendable
