import Verif.Props.Cmd
import Verif.Props.Stuck
/-! C33 and C37 for the program: runs with the same search headers. -/
namespace Appendable
open Spec Tree

section
variable {env : JEnv} {num : Bytes → Option UInt64} {hs : List Bytes} {data index : Bytes}

/-- Opening the index file that runs have left. -/
theorem runsWith_open (hr : RunsWith env num hs data index) {i : IndexFile} {s : PF} {f' : File}
    (h : IndexFile.openIndex .jsonl hs ⟨.mmap, index, 0, none⟩ = (.ok (i, s), f')) : SyncRun env hs data i s := by
  induction hr generalizing i s f' with
  | none => exact .create (f := ⟨.mmap, [], 0, none⟩) rfl rfl h
  | run hr hrun ih =>
    obtain ⟨i0, s0, f0, s1, g1, g2, g3⟩ := cmdRun_ok hrun
    exact .reopen (f := ⟨.mmap, _, 0, none⟩) (.sync (ih g1) g2) g3.symm rfl h

/-- The state of the index at the end of the last run. -/
theorem runsWith_last (hr : RunsWith env num hs data index) (hne : index ≠ []) : ∃ i s, SyncRun env hs data i s ∧ s.file.bytes = index := by
  cases hr with
  | none => exact absurd rfl hne
  | run hr hrun =>
    obtain ⟨i0, s0, f0, s1, g1, g2, g3⟩ := cmdRun_ok hrun
    exact ⟨i0, s1, .sync (runsWith_open hr g1) g2, g3⟩

/-- C33 for the program: however the growing of the data file and the runs with the same search headers are interleaved, the index
file depends only on the final data file. -/
theorem C33_program {index' : Bytes} (hr : RunsWith env num hs data index) (hne : index ≠ []) (hr' : RunsWith env num hs data index') (hne' : index' ≠ [])
    (hd : data.length < 2 ^ 64) {lf : List (Bytes × List Field)} {tail : Bytes} (hl : IsLines data (lf.map (·.1)) tail)
    (hx : ∀ x ∈ lf, LineFields env.lex x.1 x.2 ∧ x.1.length < 2 ^ 32 ∧ ∀ f ∈ x.2, FieldOK env.lex hs x.1 f) :
    index = index' := by
  obtain ⟨i, s, h1, rfl⟩ := runsWith_last hr hne
  obtain ⟨i', s', h2, rfl⟩ := runsWith_last hr' hne'
  exact syncRun_same h1 h2 hd hl hx

/-- C37 is violated for the program: if a line that is not an object follows new lines that are good and of which the first begins
with a string, number, boolean or null, then the run stops in the middle, and every later run with the same search headers stops
as well, whatever follows the good lines then, and leaves the index file as it is.  (With the good lines alone it would have come
to its end.) -/
theorem C37_program_violated (hr : RunsWith env num hs data index) {lf good : List (Bytes × List Field)} {tail p more text : Bytes} {f : Field} {fs : List Field}
    (hl : IsLines data (lf.map (·.1)) tail) (hg : good.head? = some (text, f :: fs)) (hv : isScalar f.tok)
    (hp : IsLines p ((lf ++ good).map (·.1)) []) (hpd : p = data ++ more)
    (hx : ∀ x ∈ lf ++ good, LineFields env.lex x.1 x.2 ∧ x.1.length < 2 ^ 32 ∧ ∀ f ∈ x.2, FieldOK env.lex hs x.1 f)
    {index' : Bytes} (hok : cmdRun env num .jsonl hs p index = (.ok (), index'))
    {bad rest : Bytes} (hbn : (10 : UInt8) ∉ bad) (hb : ∀ e r, (env.lex bad).toks ≠ (.lbrace, e) :: r)
    (hd : (p ++ (bad ++ 10 :: rest)).length < 2 ^ 64) :
    ∃ stuck, cmdRun env num .jsonl hs (p ++ (bad ++ 10 :: rest)) index = (.panic, stuck) ∧
      ∀ rest', (p ++ rest').length < 2 ^ 64 → cmdRun env num .jsonl hs (p ++ rest') stuck = (.panic, stuck) := by
  obtain ⟨i0, s0, f0, sg, g1, g2, _⟩ := cmdRun_ok hok
  obtain ⟨s2, h1, h2, h3⟩ := C37_stuck_violated (runsWith_open hr g1) hl hg hv hp hpd hx g2 hbn hb hd
  refine ⟨s2.file.bytes, ?_, fun rest' hd' => ?_⟩
  · unfold cmdRun
    rw [g1]
    simp only [cmdSync, h1]
  · obtain ⟨i3, s3, f3, ho⟩ := h3 ⟨.mmap, s2.file.bytes, 0, none⟩ rfl rfl
    obtain ⟨k1, k2⟩ := h2 _ _ (.reopen (f := ⟨.mmap, s2.file.bytes, 0, none⟩) .same rfl rfl ho) rest' hd'
    have k3 : jsonlSync env i3 (p ++ rest') s3 = (.err (.msg "key already exists"), (jsonlSync env i3 (p ++ rest') s3).2) := Prod.ext k1 rfl
    unfold cmdRun
    rw [ho]
    simp only [cmdSync]
    rw [k3]
    simp only
    rw [k2]

end
end Appendable
