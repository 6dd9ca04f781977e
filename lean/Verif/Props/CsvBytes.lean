import Verif.Lemmas.AlikeCsv
import Verif.Props.Csv
import Verif.Props.CsvLines
import Verif.Props.CsvStuck
/-! C41, the bytes of the index file. -/
namespace Appendable
open Spec Tree

variable {num : Bytes → Option UInt64} {i i' : IndexFile} {data : Bytes} {s s' : PF} {hline : Bytes} {headers : List Bytes}
  {rows : List (Bytes × List Bytes)} {ls seen seen' : List Bytes}

/-- C41: however the growing of the data file, the calls of `Synchronize` and reopening are interleaved, the bytes of the index file
depend only on the data file of the last call; for tables without quotes, and if no call saw exactly the header line. -/
theorem C41_bytes_partial (hr : CsvRun num data seen i s) (hr' : CsvRun num data seen' i' s') (hd : data.length < 2 ^ 64)
    (ht : PlainTable hline headers rows) {tail : Bytes} (hl : IsLines data ls tail) (hpre : ls <+: hline :: rows.map (·.1))
    (hs : ∀ d ∈ seen, ∀ l t, ¬ IsLines d [l] t) (hs' : ∀ d ∈ seen', ∀ l t, ¬ IsLines d [l] t) : s.file.bytes = s'.file.bytes :=
  csvRun_same hr hr' hd ht hl hpre hs hs'

/-- Non-vacuity: the table of `Props/Csv`, synchronized in two steps that cut the second row; whatever other history leads to the same
data file without a call that saw the header line alone, the bytes are the same. -/
example : ∀ i' s' seen', CsvRun jNum (cData1 ++ cData2) seen' i' s' → (∀ d ∈ seen', ∀ l t, ¬ IsLines d [l] t) → cRun2.2.file.bytes = s'.file.bytes := by
  intro i' s' seen' hr hs
  refine C41_bytes_partial (rows := [([120, 44, 49], [[120], [49]]), ([121, 44, 13], [[121], []])]) (ls := [[97, 44, 98], [120, 44, 49], [121, 44, 13]]) cSync hr (by decide) cTable (tail := [])
    ⟨by decide, by decide, by decide⟩ (List.prefix_refl _) ?_ hs
  intro d hd l t hc
  have h1 : IsLines cData1 [[97, 44, 98], [120, 44, 49]] [121] := ⟨by decide, by decide, by decide⟩
  have h2 : IsLines (cData1 ++ cData2) [[97, 44, 98], [120, 44, 49], [121, 44, 13]] [] := ⟨by decide, by decide, by decide⟩
  rcases List.mem_cons.1 hd with rfl | hd
  · have := (lines_unique hc h2).1; simp at this
  · rcases List.mem_cons.1 hd with rfl | hd
    · have := (lines_unique hc h1).1; simp at this
    · simp at hd

/-- The fresh index file of `Props/Csv`. -/
theorem cFresh : cI.tree = ⟨4096, 0⟩ ∧ cS0.file.bytes.length = 8192 ∧ cS0.file.budget = none ∧ (cI.metadata cS0).1 = .ok ⟨1, .csv, 0, 0⟩ := by
  obtain ⟨g1, g2, g3⟩ := openIndex_freshBytes (f := wFile) rfl rfl cOpen_eq
  obtain ⟨hi, _, is, c, hj⟩ := csvRun_is (ls := []) (tail := []) cSync0 (by decide) cTable ⟨rfl, by simp, by simp⟩ (List.nil_prefix) (by simp)
  obtain ⟨q, hq⟩ := hj.idx.metadata hi
  exact ⟨hi, by rw [g3, freshBytes_length], g2, by rw [hq]; rfl⟩

/-- Non-vacuity of C96: the header and one row (and the beginning of a second one) leave the number of entries at zero. -/
example : ∃ fm', (cI.metadata cRun1.2).1 = .ok fm' ∧ fm'.entries ≠ 0 + UInt64.ofNat 1 := by
  obtain ⟨g1, g2, g3, g4⟩ := cFresh
  exact C96_entries_violated (data := cData1) (old := []) (new := [[97, 44, 98], [120, 44, 49]]) (tail := [121]) g1 (by omega) (by omega) g3 g4 (by decide)
    ⟨by decide, by decide, by decide⟩ (by decide) (run_unit (r := cRun1) cRun1_ok) (rows := 1) (by decide) (by decide)

/-- Non-vacuity of C97: the header, a blank line, and a row. -/
example : (csvSync jNum cI [97, 44, 98, 10, 10, 120, 44, 49, 10] cS0).1 ≠ .ok () := by
  obtain ⟨g1, g2, g3, g4⟩ := cFresh
  exact C97_blank_violated (old := []) (new := [[97, 44, 98], [], [120, 44, 49]]) (tail := []) g4 (by decide)
    ⟨by decide, by decide, by decide⟩ (by decide) (l := []) (by simp) (.inl rfl)

/-! Non-vacuity of C99: the header `a`, the row `x` and a blank line. -/

def cBad : Res Unit × PF := csvSync jNum cI [97, 10, 120, 10, 10] cS0

def cBadMsg : Res Unit → Bool
  | .err (.msg _) => true
  | _ => false

set_option maxRecDepth 100000 in
theorem cBad_msg : cBadMsg cBad.1 = true := by decide +kernel

example : ∃ s1, csvSync jNum cI [97, 10, 120, 10, 10] cS0 = (.err (.msg "failed to read CSV record"), s1) ∧
    ∀ i' s', CsvRetried jNum [97, 10, 120, 10] cI s1 i' s' → ∀ rest', ([97, 10, 120, 10] ++ rest' : Bytes).length < 2 ^ 64 →
      (csvSync jNum i' ([97, 10, 120, 10] ++ rest') s').1 ≠ .ok () := by
  have hio : cBad.1 ≠ .err .io := by
    intro hc
    have := cBad_msg
    rw [hc] at this
    cases this
  exact C99_stuck_violated (p := [97, 10, 120, 10]) (rows := [([120], [[120]])]) (headers := [[97]]) (hline := [97]) (ls := []) (tail := []) (more := [97, 10, 120, 10])
    (bad := []) (rest := []) cSync0 (by simp)
    { header := ⟨.inl rfl, by decide, by decide⟩
      distinct := by decide
      names := by decide
      row := by
        intro r hr
        simp only [List.mem_singleton] at hr
        subst hr
        exact ⟨⟨.inl rfl, by decide, by decide⟩, by decide, by decide⟩
      first := by
        intro r hr
        simp only [List.head?_cons, Option.some.injEq] at hr
        subst hr
        rfl }
    (by decide) ⟨rfl, by simp, by simp⟩ ⟨by decide, by decide, by decide⟩ (by decide) (by simp) (by simp) (Spec.BlankLine.notARecord (.inl rfl)) (by decide) hio

end Appendable
