import Verif.Spec.CmdCsv
import Verif.Props.CmdStuck
import Verif.Props.Accepts
import Verif.Props.CsvBytes
/-! C41 and C80 for the program. -/
namespace Appendable
open Spec Tree

section
variable {env : JEnv} {num : Bytes → Option UInt64} {data index : Bytes} {seen : List Bytes}

theorem cmdRun_csv {hs : List Bytes} {index' : Bytes} (h : cmdRun env num .csv hs data index = (.ok (), index')) :
    ∃ i s f' s', IndexFile.openIndex .csv hs ⟨.mmap, index, 0, none⟩ = (.ok (i, s), f') ∧ csvSync num i data s = (.ok (), s') ∧ s'.file.bytes = index' := by
  unfold cmdRun at h
  split at h
  · rename_i i s f' ho
    split at h
    · rename_i s' hs'
      cases h
      exact ⟨i, s, f', s', ho, hs', rfl⟩
    · cases h
  · cases h

theorem runsCsv_open (hr : RunsCsv env num data seen index) {i : IndexFile} {s : PF} {f' : File} {hs : List Bytes}
    (h : IndexFile.openIndex .csv hs ⟨.mmap, index, 0, none⟩ = (.ok (i, s), f')) : CsvRun num data seen i s := by
  induction hr generalizing i s f' hs with
  | none => exact .create (f := ⟨.mmap, [], 0, none⟩) rfl rfl h
  | run hr hrun ih =>
    obtain ⟨i0, s0, f0, s1, g1, g2, g3⟩ := cmdRun_csv hrun
    exact .reopen (f := ⟨.mmap, _, 0, none⟩) (.sync (ih g1) g2) g3.symm rfl h

theorem runsCsv_last (hr : RunsCsv env num data seen index) : (data = [] ∧ seen = [] ∧ index = []) ∨ ∃ i s, CsvRun num data seen i s ∧ s.file.bytes = index := by
  cases hr with
  | none => exact .inl ⟨rfl, rfl, rfl⟩
  | run hr hrun =>
    obtain ⟨i0, s0, f0, s1, g1, g2, g3⟩ := cmdRun_csv hrun
    exact .inr ⟨i0, s1, .sync (runsCsv_open hr g1) g2, g3⟩

variable {hline : Bytes} {headers : List Bytes} {rows : List (Bytes × List Bytes)}

/-- C41 for the program (partial: tables without quotes, no run that sees exactly the header line): however the growing of the data file and the runs
with `-csv` are interleaved, the index file depends only on the final data file. -/
theorem C41_program_partial {index' : Bytes} {seen' : List Bytes} (hr : RunsCsv env num data seen index) (hr' : RunsCsv env num data seen' index')
    (hne : index ≠ []) (hne' : index' ≠ []) (hd : data.length < 2 ^ 64) (ht : PlainTable hline headers rows) {tail : Bytes}
    (hl : IsLines data (hline :: rows.map (·.1)) tail) (hs : ∀ d ∈ seen, ∀ l t, ¬ IsLines d [l] t) (hs' : ∀ d ∈ seen', ∀ l t, ¬ IsLines d [l] t) :
    index = index' := by
  obtain ⟨_, _, h⟩ | ⟨i, s, h1, rfl⟩ := runsCsv_last hr
  · exact absurd h hne
  obtain ⟨_, _, h⟩ | ⟨i', s', h2, rfl⟩ := runsCsv_last hr'
  · exact absurd h hne'
  exact C41_bytes_partial h1 h2 hd ht hl (List.prefix_refl _) hs hs'

/-- After any runs the index file can be opened. -/
theorem runsCsv_opens (hr : RunsCsv env num data seen index) (hd : data.length < 2 ^ 64) (ht : PlainTable hline headers rows) {ls : List Bytes} {tail : Bytes}
    (hl : IsLines data ls tail) (hpre : ls <+: hline :: rows.map (·.1)) (hs : ∀ d ∈ seen, ∀ l t, ¬ IsLines d [l] t) (flags : List Bytes) :
    ∃ i s f', IndexFile.openIndex .csv flags ⟨.mmap, index, 0, none⟩ = (.ok (i, s), f') := by
  obtain ⟨_, _, rfl⟩ | ⟨i, s, h1, rfl⟩ := runsCsv_last hr
  · obtain ⟨s', e1, _⟩ := openIndex_fresh [] (csvParse num) (fun _ => 0) (f := ⟨.mmap, [], 0, none⟩) rfl rfl .csv flags
    exact ⟨_, _, _, e1⟩
  · obtain ⟨_, _, is, c, hj⟩ := csvRun_is h1 hd ht hl hpre hs
    obtain ⟨s2, e1, _⟩ := (IndexSt.reopen hj.idx (f := ⟨.mmap, s.file.bytes, 0, none⟩) rfl rfl .csv flags).1 rfl rfl
    exact ⟨_, _, _, e1⟩

/-- C41 for the program (partial: as above): after any runs, a run with `-csv`, with any `-s` flags, on a grown table below 2^48 bytes comes to its end. -/
theorem C41_program_succeeds_partial (hr : RunsCsv env num data seen index) {more : Bytes} (hd : (data ++ more).length < 2 ^ 48)
    (ht : PlainTable hline headers rows) {tail : Bytes} (hl : IsLines (data ++ more) (hline :: rows.map (·.1)) tail)
    (hs : ∀ d ∈ seen, ∀ l t, ¬ IsLines d [l] t) (flags : List Bytes) :
    ∃ index', cmdRun env num .csv flags (data ++ more) index = (.ok (), index') := by
  obtain ⟨l0, t, hls⟩ := exists_lines data
  obtain ⟨ks, hks, hkt⟩ := lines_grow hls hl
  have hdl : data.length < 2 ^ 64 := by rw [List.length_append] at hd; omega
  obtain ⟨i, s, f', ho⟩ := runsCsv_opens hr hdl ht hls (by rw [hks]; exact List.prefix_append _ _) hs flags
  obtain ⟨s', h⟩ := C41_succeeds_partial (runsCsv_open hr ho) hd ht hl hs
  refine ⟨s'.file.bytes, ?_⟩
  unfold cmdRun
  rw [ho]
  simp only [cmdSync, h]

/-- C80 for the program (partial: as `C80_accepts_partial`): after any runs with the same search headers, a run with `-jsonl` on a grown file of
acceptable lines comes to its end. -/
theorem C80_program_partial {hs : List Bytes} (hr : RunsWith env num hs data index) {more : Bytes} (hd : (data ++ more).length < 2 ^ 44)
    {lf : List (Bytes × List Field)} {tail : Bytes} (hl : IsLines (data ++ more) (lf.map (·.1)) tail) (hx : ∀ x ∈ lf, LineFits env hs x) :
    ∃ index', cmdRun env num .jsonl hs (data ++ more) index = (.ok (), index') := by
  have hopen : ∃ i s f', IndexFile.openIndex .jsonl hs ⟨.mmap, index, 0, none⟩ = (.ok (i, s), f') := by
    by_cases hne : index = []
    · subst hne
      obtain ⟨s', e1, _⟩ := openIndex_fresh [] env.parse (fun m => id m.width) (f := ⟨.mmap, [], 0, none⟩) rfl rfl .jsonl hs
      exact ⟨_, _, _, e1⟩
    · obtain ⟨i, s, h1, rfl⟩ := runsWith_last hr hne
      obtain ⟨l0, t, hls⟩ := exists_lines data
      obtain ⟨ks, hks, hkt⟩ := lines_grow hls hl
      have hl0 : l0 = (lf.take l0.length).map (·.1) := by
        rw [List.map_take, hks, List.take_left]
      rw [hl0] at hls
      obtain ⟨_, is, c, hj⟩ := syncRun_is h1 (by rw [List.length_append] at hd; omega) hls
        (fun x hm => have hm := List.mem_of_mem_take hm; ⟨(hx x hm).fields, (hx x hm).short, (hx x hm).each⟩)
      obtain ⟨s2, e1, _⟩ := (IndexSt.reopen hj.idx (f := ⟨.mmap, s.file.bytes, 0, none⟩) rfl rfl .jsonl hs).1 rfl rfl
      exact ⟨_, _, _, e1⟩
  obtain ⟨i, s, f', ho⟩ := hopen
  obtain ⟨s', h⟩ := C80_accepts_partial (runsWith_open hr ho) hd hl hx
  refine ⟨s'.file.bytes, ?_⟩
  unfold cmdRun
  rw [ho]
  simp only [cmdSync, h]

end

/-- Non-vacuity: from no index file, the table of `Props/Csv`. -/
example (env : JEnv) : ∃ index, RunsCsv env jNum (cData1 ++ cData2) [cData1 ++ cData2] index ∧ (∀ d ∈ [cData1 ++ cData2], ∀ l t, ¬ IsLines d [l] t) := by
  obtain ⟨index, h⟩ := C41_program_succeeds_partial (env := env) (num := jNum) .none (more := cData1 ++ cData2) (by decide) cTable (tail := [])
    ⟨by decide, by decide, by decide⟩ (by simp) []
  have hr : RunsCsv env jNum ([] ++ (cData1 ++ cData2)) [[] ++ (cData1 ++ cData2)] index := .run .none h
  refine ⟨index, hr, ?_⟩
  intro d hd l t hc
  obtain rfl := List.mem_singleton.1 hd
  have h2 : IsLines (cData1 ++ cData2) [[97, 44, 98], [120, 44, 49], [121, 44, 13]] [] := ⟨by decide, by decide, by decide⟩
  have := (lines_unique hc h2).1
  simp at this

end Appendable
