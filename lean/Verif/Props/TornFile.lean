import Verif.Lemmas.Takes
/-! C94: a crash while an index file is created. -/
namespace Appendable
open Spec Tree

variable {f : File} {fmt : Format} {hs : List Bytes}

theorem Writes.newMulti : Writes LP.newMulti := by
  unfold LP.newMulti
  refine Writes.bind (Writes.lift _) (fun o => Writes.bind (Writes.seek _) (fun _ => Writes.bind (Writes.pfRead _) (fun x => ?_)))
  split
  split
  · exact Writes.bind (Writes.reset _ _) (fun _ => Writes.pure _)
  · exact Writes.pure _

theorem Writes.attachAt (fmt : Format) (hs : List Bytes) (m : LP) : Writes (IndexFile.attachAt fmt hs m) := by
  have h := Writes.attempt (k := fun r : Res LP => match r with
      | .err .eof => (do
          let created ← m.addNext
          let buf ← Act.lift (FileMeta.marshal ⟨currentVersion, fmt, 0, 0⟩)
          created.setMetadata buf
          return ⟨created, hs⟩ : Act PF IndexFile)
      | .err e => Act.throw e
      | .panic => Act.crash
      | .ok node => (do
          let buf ← node.metadata
          let m ← Act.lift (FileMeta.unmarshal buf)
          if m.version ≠ currentVersion then Act.throw (.msg "unsupported version")
          else if m.format ≠ fmt then Act.throw (.msg "unsupported format")
          else return ⟨node, hs⟩ : Act PF IndexFile)) (Writes.next m) (by
        intro r
        have h1 := Writes.addNext m
        have h2 := fun x => Writes.lpMetadata x
        have h3 := Writes.lpSetMetadata
        split <;> writes) rfl
  refine cast (congrArg Writes ?_) h
  funext s
  unfold IndexFile.attachAt
  generalize m.next s = x
  obtain ⟨r, s'⟩ := x
  cases r with
  | ok mp => rfl
  | err e => cases e <;> rfl
  | panic => rfl

theorem openIndex_bytes {f : File} {s : PF} {f1 : File} (h : PF.openFile f = (.ok s, f1)) :
    (IndexFile.openIndex fmt hs f).2 = (IndexFile.attach fmt hs s).2.file := by
  unfold IndexFile.openIndex
  rw [h]
  simp only
  rcases IndexFile.attach fmt hs s with ⟨r, t⟩
  cases r <;> rfl

/-- The states on the way to a new index file. -/
structure Making (fmt : Format) (f : File) (s1 s2 s3 s4 s5 : PF) : Prop where
  openF : ∀ k, PF.openFile { f with budget := some (1 + k) } = (.ok (withBudget (some k) s1), (withBudget (some k) s1).file)
  b1 : s1.file.bytes = List.replicate pageSize 0
  v1 : s1.Valid []
  multi : LP.newMulti s1 = (.ok (headAt pageSize), s2)
  multiTakes : Takes 1 LP.newMulti s1
  b2 : s2.file.bytes = headBytes
  slots : SlotsIn s2 [] [pageSize] 0 []
  head : HeadMade fmt s2 s3 s4 s5
  whole : ∀ hs, IndexFile.openIndex fmt hs { f with budget := none } = (.ok (⟨fileSlot, hs⟩, s5), s5.file)

/-- After the page of the free list has been written. -/
theorem multi_made {s1 : PF} (e2 : s1.Valid []) (e5 : s1.file.budget = none) (e3 : s1.file.bytes = List.replicate pageSize 0) :
    ∃ s2, LP.newMulti s1 = (.ok (headAt pageSize), s2) ∧ SlotsIn s2 [] [pageSize] 0 [] ∧ s2.file.bytes = headBytes ∧ Takes 1 LP.newMulti s1 := by
  obtain ⟨s2, g1, g2, g3, g4, g5⟩ := newMulti_fresh e2 e5 (by rw [e3, List.length_replicate])
  have g6 := newMulti_bytes e5 (by rw [e3, List.length_replicate]) g1
  rw [e3] at g6
  exact ⟨s2, g1, g2, g6, newMulti_takes e5 (by rw [e3, List.length_replicate]) g1⟩

theorem making (hf : f.bytes = []) (fmt : Format) : ∃ s1 s2 s3 s4 s5, Making fmt f s1 s2 s3 s4 s5 := by
  obtain ⟨s1, e1, e2, e3, e4, e5, _⟩ := openFile_empty { f with budget := none } hf rfl
  obtain ⟨s2, g1, g2, g3, g4⟩ := multi_made e2 e5 e3
  obtain ⟨s3, s4, s5, h⟩ := head_made g2 g3 fmt
  refine ⟨s1, s2, s3, s4, s5, fun k => ?_, e3, e2, g1, g4, g3, g2, h, fun hs => ?_⟩
  · have h1 := openFile_new (f := { f with budget := some (1 + k) }) hf (by simp)
    have h2 := openFile_new (f := { f with budget := none }) hf (by simp)
    rw [e1] at h2
    have h3 := (Prod.mk.inj h2).1
    have h3 : s1 = _ := Res.ok.inj h3
    rw [h1, h3]
    simp [withBudget]
  · unfold IndexFile.openIndex
    rw [e1]
    simp only
    unfold IndexFile.attach
    rw [Act.bind_ok g1, h.attach]

/-- What is left of a new index file after `n` writes. -/
theorem Making.left {s1 s2 s3 s4 s5 : PF} (h : Making fmt f s1 s2 s3 s4 s5) (n : Nat) (hf : f.bytes = []) :
    (IndexFile.openIndex fmt hs { f with budget := some n }).2.bytes =
      match n with
      | 0 => []
      | 1 => List.replicate pageSize 0
      | 2 => headBytes
      | 3 => s4.file.bytes
      | _ + 4 => freshBytes fmt := by
  match n with
  | 0 =>
    have hseek0 : File.seekStart 0 { f with budget := some 0 } = (.ok 0, { f with pos := 0, budget := some 0 }) := File.seekStart_ok (o := 0) (Nat.zero_le _)
    have hread : File.read pageSize { f with pos := 0, budget := some 0 } = (.ok ([], true), { f with pos := 0, budget := some 0 }) := by
      unfold File.read
      cases hk : f.kind
      · simp [hf]
      · simp [hf, pageSize]
    have : PF.openFile { f with budget := some 0 } = (.err .io, { f with pos := 0, budget := some 0 }) := by
      unfold PF.openFile
      rw [Act.bind_ok hseek0, Act.bind_ok hread]
      simp only [if_true]
      rw [Act.bind_err (e := .io) (s' := { f with pos := 0, budget := some 0 }) (by
        refine Act.bind_err ?_
        unfold File.write
        simp)]
    unfold IndexFile.openIndex
    rw [this]
    exact hf
  | 1 =>
    rw [openIndex_bytes (h.openF 0)]
    unfold IndexFile.attach
    refine ((Writes.bind Writes.newMulti (fun x => Writes.attachAt _ _ _)).stop (withBudget (some 0) s1) rfl).1.trans h.b1
  | 2 =>
    rw [openIndex_bytes (h.openF 1)]
    unfold IndexFile.attach
    have := h.multiTakes 0
    rw [h.multi] at this
    rw [Act.bind_ok this]
    exact (h.head.attach_zero hs).trans h.b2
  | 3 =>
    rw [openIndex_bytes (h.openF 2)]
    unfold IndexFile.attach
    have := h.multiTakes 1
    rw [h.multi] at this
    rw [Act.bind_ok this]
    exact h.head.attach_one hs
  | k + 4 =>
    show _ = freshBytes fmt
    rw [show k + 4 = 1 + (1 + (2 + k)) by omega, openIndex_bytes (h.openF _)]
    unfold IndexFile.attach
    have := h.multiTakes (2 + k)
    rw [h.multi] at this
    rw [Act.bind_ok this, h.head.attach_budget]
    exact h.head.b5

/-- C94 is violated, for the file: if the process dies after the third write of creating an index file, the file can never be
opened again, with any format and any search headers: `NewIndexFile` fails with "invalid metadata size" and changes nothing. -/
theorem C94_file_violated (hf : f.bytes = []) (fmt : Format) (hs : List Bytes) :
    ∀ file, file.bytes = (IndexFile.openIndex fmt hs { f with budget := some 3 }).2.bytes → file.budget = none → ∀ fmt' hs',
      ∃ file', IndexFile.openIndex fmt' hs' file = (.err (.msg "invalid metadata size"), file') ∧ file'.bytes = file.bytes := by
  intro file hfb hfu fmt' hs'
  obtain ⟨s1, s2, s3, s4, s5, h⟩ := making hf fmt
  rw [h.left 3 hf] at hfb
  obtain ⟨free, ps, cnt, h1⟩ := h.head.slots
  obtain ⟨t, e1, e2, e3, e4, e5, _⟩ := openFile_valid' h1.valid file hfb
  have hinv : MetaInv t.file.bytes ps cnt [[]] := by rw [e3, hfb]; exact h1.inv
  obtain ⟨q1, g1⟩ := newMulti_ok hinv
  obtain ⟨tl, htl, _, hc1⟩ := hinv.firstSlot
  obtain ⟨r, hr⟩ := hinv.first
  have hch := hinv.chain
  have hpg := hinv.pages
  rw [hr] at hch hpg
  have hlk := chain_linked_head hch hpg hinv.cle (fun _ => hc1)
  rw [← hr, htl, List.map_cons] at hlk
  obtain ⟨⟨q2, g2⟩, _⟩ := hlk.1 (t.upd t.file.bytes q1) rfl
  obtain ⟨q3, g3⟩ := hinv.metadata (k := 0) (x := (pageSize, 0)) (d := []) (by rw [htl]; rfl) rfl
    (s := (t.upd t.file.bytes q1).upd t.file.bytes q2) rfl
  refine ⟨(t.upd t.file.bytes q3).file, ?_, e3⟩
  unfold IndexFile.openIndex
  rw [e1]
  simp only
  unfold IndexFile.attach
  rw [Act.bind_ok g1]
  unfold IndexFile.attachAt
  rw [g2]
  simp only
  rw [Act.bind_ok g3]
  rfl

/-- C94, for the file, for a crash after any other number of writes (there are four): the file can be opened again, and it then
has the same bytes as one that was created without a crash. -/
theorem C94_file_partial (hf : f.bytes = []) (fmt : Format) (hs : List Bytes) {n : Nat} (hn : n ≠ 3) :
    ∀ file, file.bytes = (IndexFile.openIndex fmt hs { f with budget := some n }).2.bytes → file.budget = none → ∀ hs',
      ∃ i1 s1 file', IndexFile.openIndex fmt hs' file = (.ok (i1, s1), file') ∧
        s1.file.bytes = (IndexFile.openIndex fmt hs { f with budget := none }).2.bytes := by
  intro file hfb hfu hs'
  obtain ⟨s1, s2, s3, s4, s5, h⟩ := making hf fmt
  rw [h.left n hf] at hfb
  rw [h.whole hs, h.head.b5]
  match n with
  | 0 =>
    obtain ⟨s', e1, _⟩ := openIndex_fresh [] id (fun _ => 0) hfb hfu fmt hs'
    exact ⟨_, _, _, e1, (openIndex_freshBytes hfb hfu e1).2.2⟩
  | 1 =>
    obtain ⟨t1, e1, e2, e3, e4, e5, _⟩ := openFile_valid' h.v1 file (by rw [h.b1]; exact hfb)
    obtain ⟨t2, g1, g2, g3, _⟩ := multi_made e2 (by rw [e5, hfu]) (by rw [e3]; exact hfb)
    obtain ⟨t3, t4, t5, k⟩ := head_made g2 g3 fmt
    refine ⟨⟨fileSlot, hs'⟩, t5, t5.file, ?_, k.b5⟩
    unfold IndexFile.openIndex
    rw [e1]
    simp only
    unfold IndexFile.attach
    rw [Act.bind_ok g1, k.attach]
  | 2 =>
    have hfb2 : file.bytes = s2.file.bytes := by rw [h.b2]; exact hfb
    obtain ⟨t1, e1, e2, e3, e4, e5, _⟩ := openFile_valid' h.slots.valid file hfb2
    have hbb : t1.file.bytes = s2.file.bytes := by rw [e3, hfb2]
    have hsl : SlotsIn t1 [] [pageSize] 0 [] := ⟨e2, by rw [e5, hfu], fun p hp => by
      have := h.slots.live p hp; unfold Live at *; rw [hbb]; exact this, by rw [hbb]; exact h.slots.inv⟩
    obtain ⟨q, g1⟩ := newMulti_ok hsl.inv
    have hsl2 : SlotsIn (t1.upd t1.file.bytes q) [] [pageSize] 0 [] :=
      ⟨(Frame.upd_pos hsl.valid hsl.budget q []).valid, hsl.budget, hsl.live, hsl.inv⟩
    obtain ⟨t3, t4, t5, k⟩ := head_made hsl2 (by rw [upd_bytes, hbb, h.b2]) fmt
    refine ⟨⟨fileSlot, hs'⟩, t5, t5.file, ?_, k.b5⟩
    unfold IndexFile.openIndex
    rw [e1]
    simp only
    unfold IndexFile.attach
    rw [Act.bind_ok g1, k.attach]
  | 3 => exact absurd rfl hn
  | k + 4 =>
    have hfb2 : file.bytes = s5.file.bytes := by rw [h.head.b5]; exact hfb
    have hfe : ({ f with budget := none } : File).bytes = [] := hf
    obtain ⟨s', e1, e2⟩ := openIndex_fresh [] id (fun _ => 0) hfe rfl fmt hs
    rw [h.whole hs] at e1
    cases e1
    obtain ⟨r1, _⟩ := e2.reopen hfb2 hfu fmt hs'
    obtain ⟨t, g1, _, g3, _⟩ := r1 rfl rfl
    exact ⟨_, _, _, g1, by rw [g3, hfb2, h.head.b5]⟩

end Appendable
