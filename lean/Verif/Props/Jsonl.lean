import Verif.Lemmas.JsonlObj
/-! C33-C37: `Synchronize` of the JSONL handler. -/
namespace Appendable
open Spec Tree

/-! ### Lemmas about the slot of the file metadata -/

theorem fileSlot_at {s : PF} (h1 : 8192 ≤ s.file.bytes.length) (h2 : s.file.bytes.length < 2 ^ 63) : AtSlot s.file.bytes fileSlot 4096 0 :=
  ⟨rfl, rfl, by omega, rfl, by unfold pageSize; omega, h2⟩

/-- Writing what is there. -/
theorem setMetadata_same {s : PF} {m : LP} {p k : Nat} (h : AtSlot s.file.bytes m p k) (hb : s.file.budget = none) {d : Bytes} {s1 : PF}
    (hd : m.metadata s = (.ok d, s1)) : s1.file.bytes = s.file.bytes ∧ s1.file.budget = none ∧ ∃ s2, m.setMetadata d s1 = (.ok (), s2) ∧ s2.file.bytes = s.file.bytes := by
  obtain ⟨f1, f2, f3⟩ := h.fit
  obtain ⟨n, hn⟩ : ∃ n, s.file.bytes[slotPos p k + 12]? = some n := ⟨_, List.getElem?_eq_getElem (by omega)⟩
  have := lp_metadata_ok h hn
  rw [this] at hd
  have hlt := n.toNat_lt
  by_cases h255 : n = 255
  · rw [if_pos h255] at hd; cases hd
  · rw [if_neg h255] at hd
    cases hd
    have hn' : n.toNat ≠ 255 := fun hc => h255 (UInt8.toNat.inj hc)
    have hsl : (slice s.file.bytes (slotPos p k + 13) n.toNat).length = n.toNat := slice_length (by omega)
    refine ⟨rfl, hb, ?_⟩
    obtain ⟨q, hq⟩ := lp_setMetadata_ok (s := s.upd s.file.bytes (slotPos p k + 272)) h hb (d := slice s.file.bytes (slotPos p k + 13) n.toNat) (by omega)
    refine ⟨_, hq, ?_⟩
    simp only [upd_bytes]
    rw [hsl]
    apply List.ext_getElem?
    intro j
    rw [writeAt_getElem? _ (by omega)]
    simp only [List.length_cons, hsl]
    split
    · rfl
    · split
      · rename_i hj1 hj2
        rcases Nat.lt_or_ge (slotPos p k + 12) j with hj | hj
        · obtain ⟨a, rfl⟩ : ∃ a, j = slotPos p k + 13 + a := ⟨j - (slotPos p k + 13), by omega⟩
          rw [show slotPos p k + 13 + a - (slotPos p k + 12) = a + 1 by omega, List.getElem?_cons_succ]
          unfold slice
          rw [List.getElem?_take, if_pos (by omega), List.getElem?_drop]
        · have : j = slotPos p k + 12 := by omega
          subst this
          rw [Nat.sub_self, hn]
          simp
      · rfl

/-- What was written is read. -/
theorem metadata_after_set {s s' : PF} {m : LP} {p k : Nat} (h : AtSlot s.file.bytes m p k) (hb : s.file.budget = none) {d : Bytes}
    (hd : d.length < 255) (hs : m.setMetadata d s = (.ok (), s')) :
    AtSlot s'.file.bytes m p k ∧ s'.file.budget = none ∧ ∃ q, m.metadata s' = (.ok d, s'.upd s'.file.bytes q) := by
  obtain ⟨f1, f2, f3⟩ := h.fit
  obtain ⟨q, hq⟩ := lp_setMetadata_ok h hb (d := d) (by omega)
  rw [hq] at hs
  cases hs
  have hl : (writeAt s.file.bytes (slotPos p k + 12) (UInt8.ofNat d.length :: d)).length = s.file.bytes.length := by
    rw [writeAt_length (by omega)]; simp only [List.length_cons]; omega
  have hat : AtSlot (writeAt s.file.bytes (slotPos p k + 12) (UInt8.ofNat d.length :: d)) m p k := h.of_length hl
  refine ⟨hat, hb, ?_⟩
  have hn : (writeAt s.file.bytes (slotPos p k + 12) (UInt8.ofNat d.length :: d))[slotPos p k + 12]? = some (UInt8.ofNat d.length) := by
    rw [writeAt_getElem? _ (by omega)]
    rw [if_neg (by omega), if_pos (by simp)]
    simp
  have := lp_metadata_ok (s := s.upd (writeAt s.file.bytes (slotPos p k + 12) (UInt8.ofNat d.length :: d)) q) hat hn
  have hnn : (UInt8.ofNat d.length).toNat = d.length := by rw [UInt8.toNat_ofNat']; omega
  rw [if_neg (by intro hc; rw [hc] at hnn; simp at hnn; omega), hnn] at this
  simp only [upd_bytes] at this
  have hsl : slice (writeAt s.file.bytes (slotPos p k + 12) (UInt8.ofNat d.length :: d)) (slotPos p k + 13) d.length = d := by
    apply List.ext_getElem?
    intro j
    rw [slice_getElem?]
    split
    · rw [writeAt_getElem? _ (by omega), if_neg (by omega), if_pos (by simp only [List.length_cons]; omega),
        show slotPos p k + 13 + j - (slotPos p k + 12) = j + 1 by omega, List.getElem?_cons_succ]
    · rw [List.getElem?_eq_none (by omega)]
  rw [hsl] at this
  exact ⟨_, this⟩

theorem fileMeta_bytes_small (fm : FileMeta) : fm.bytes.length ≤ 252 := by
  rw [FileMeta.bytes_length]; have := putUvarint_length_le fm.entries; omega

variable {env : JEnv} {hs : List Bytes} {i : IndexFile} {data : Bytes} {s : PF}

/-- C35: a successful `Synchronize`, in whatever state the index file is: if the recorded offset was just after some
complete lines `old` of the data file, it is now just after all complete lines, and the number of entries has grown by
the number of new complete lines; and every new complete line is a JSON object. -/
theorem C35_complete_lines (hi : i.tree = ⟨4096, 0⟩) (h1 : 8192 ≤ s.file.bytes.length) (h2 : s.file.bytes.length < 2 ^ 63)
    (hb : s.file.budget = none) {fm : FileMeta} (hm : (i.metadata s).1 = .ok fm) (hd : data.length < 2 ^ 64) {old new : List Bytes} {tail : Bytes}
    (hl : IsLines data (old ++ new) tail) (hro : fm.readOffset.toNat = (fileOf old []).length) {s' : PF}
    (h : jsonlSync env i data s = (.ok (), s')) :
    (i.metadata s').1 = .ok { fm with readOffset := UInt64.ofNat (fileOf (old ++ new) []).length, entries := fm.entries + UInt64.ofNat new.length } ∧
      ∀ l ∈ new, ∃ fs, LineFields env.lex l fs := by
  unfold jsonlSync at h
  obtain ⟨m, s1, g1, h⟩ := Act.bind_ok_iff.1 h
  rw [g1] at hm
  cases hm
  obtain ⟨m', s3, g2, h⟩ := Act.bind_ok_iff.1 h
  have hgr : GrowF s.file s3.file := by
    have a1 := (Mono.fileMetadata i).grow s
    rw [g1] at a1
    have a2 := (Mono.syncLoop (env := env) (i := i) (data := data) (data.length + 1) fm).grow s1
    rw [g2] at a2
    exact a1.trans a2
  have hda : data = fileOf old [] ++ fileOf new tail := by rw [hl.1, fileOf_append]
  obtain ⟨rfl, q2, _⟩ := syncLoop_ok hl.2.2 hd new old hda (fun x hx => hl.2.1 x (by simp [hx]))
    (UInt64.toNat.inj (by
      rw [hro, UInt64.toNat_ofNat', Nat.mod_eq_of_lt]
      rw [hda, List.length_append] at hd; omega)) g2
  refine ⟨?_, q2⟩
  have hat := fileSlot_at (s := s3) (by have := hgr.1; omega) (hgr.2.2 h2)
  generalize hfm' : ({ fm with readOffset := UInt64.ofNat (fileOf (old ++ new) []).length, entries := fm.entries + UInt64.ofNat new.length } : FileMeta) = fm' at *
  unfold IndexFile.setMetadata at h
  rw [Act.bind_ok (a := fm'.bytes) (s' := s3) (by rw [FileMeta.marshal_eq]; rfl), hi] at h
  obtain ⟨_, _, q, hq⟩ := metadata_after_set hat (hgr.2.1 hb) (by have := fileMeta_bytes_small fm'; omega) h
  unfold IndexFile.metadata
  rw [hi]
  have hq' : LP.metadata ⟨4096, 0⟩ s' = _ := hq
  rw [Act.bind_ok hq', fileMeta_lift]

/-- C34: synchronizing again after a successful `Synchronize`, with the same or a longer data file that has no further
complete line, succeeds and changes no byte of the index file; whatever the state of the index file was before. -/
theorem C34_again (hi : i.tree = ⟨4096, 0⟩) (h1 : 8192 ≤ s.file.bytes.length) (h2 : s.file.bytes.length < 2 ^ 63)
    (hb : s.file.budget = none) {fm : FileMeta} (hm : (i.metadata s).1 = .ok fm) {more : Bytes} (hd : (data ++ more).length < 2 ^ 64)
    {old new : List Bytes} {tail tail' : Bytes}
    (hl : IsLines data (old ++ new) tail) (hro : fm.readOffset.toNat = (fileOf old []).length) {s' : PF}
    (h : jsonlSync env i data s = (.ok (), s')) (hl' : IsLines (data ++ more) (old ++ new) tail') :
    ∃ s'', jsonlSync env i (data ++ more) s' = (.ok (), s'') ∧ s''.file.bytes = s'.file.bytes := by
  unfold jsonlSync at h
  obtain ⟨m, s1, g1, h⟩ := Act.bind_ok_iff.1 h
  rw [g1] at hm
  cases hm
  obtain ⟨m', s3, g2, h⟩ := Act.bind_ok_iff.1 h
  have hgr : GrowF s.file s3.file := by
    have a1 := (Mono.fileMetadata i).grow s
    rw [g1] at a1
    have a2 := (Mono.syncLoop (env := env) (i := i) (data := data) (data.length + 1) fm).grow s1
    rw [g2] at a2
    exact a1.trans a2
  have hda : data = fileOf old [] ++ fileOf new tail := by rw [hl.1, fileOf_append]
  have hdl : data.length < 2 ^ 64 := by rw [List.length_append] at hd; omega
  obtain ⟨hm', q2, _⟩ := syncLoop_ok hl.2.2 hdl new old hda (fun x hx => hl.2.1 x (by simp [hx]))
    (UInt64.toNat.inj (by
      rw [hro, UInt64.toNat_ofNat', Nat.mod_eq_of_lt]
      rw [hda, List.length_append] at hdl; omega)) g2
  have hro' : m'.readOffset = UInt64.ofNat (fileOf (old ++ new) []).length := by rw [hm']
  have hat := fileSlot_at (s := s3) (by have := hgr.1; omega) (hgr.2.2 h2)
  unfold IndexFile.setMetadata at h
  rw [Act.bind_ok (a := m'.bytes) (s' := s3) (by rw [FileMeta.marshal_eq]; rfl), hi] at h
  obtain ⟨k1, k2, q, hq⟩ := metadata_after_set hat (hgr.2.1 hb) (by have := fileMeta_bytes_small m'; omega) h
  obtain ⟨r1, r2, s4, r3, r4⟩ := setMetadata_same k1 k2 hq
  refine ⟨s4, ?_, r4⟩
  have hn : m'.readOffset.toNat = (fileOf (old ++ new) []).length := by
    rw [hro', UInt64.toNat_ofNat', Nat.mod_eq_of_lt]
    rw [hl'.1, fileOf_tail _ tail', List.length_append] at hd; omega
  have hloop : syncLoop env i (data ++ more) ((data ++ more).length + 1) m' (s'.upd s'.file.bytes q) = (.ok m', s'.upd s'.file.bytes q) := by
    unfold syncLoop
    have hdr : (data ++ more).drop (fileOf (old ++ new) []).length = tail' := by
      rw [hl'.1, fileOf_tail _ tail', List.drop_left']; rfl
    rw [if_neg (by rw [hn, hl'.1, fileOf_tail _ tail', List.length_append]; omega), hn, hdr, indexNewline_none.2 hl'.2.2]
    rfl
  unfold jsonlSync
  have hmd : i.metadata s' = (.ok m', s'.upd s'.file.bytes q) := by
    unfold IndexFile.metadata
    rw [hi]
    have hq' : LP.metadata ⟨4096, 0⟩ s' = _ := hq
    rw [Act.bind_ok hq', fileMeta_lift]
  rw [Act.bind_ok hmd, Act.bind_ok hloop]
  unfold IndexFile.setMetadata
  rw [Act.bind_ok (a := m'.bytes) (s' := s'.upd s'.file.bytes q) (by rw [FileMeta.marshal_eq]; rfl), hi]
  exact r3

/-- C36: after any history of successful calls of `Synchronize` (with a data file that grows, at any byte boundaries,
and with any number of reopenings) whose complete lines are objects with fields that the index supports, the index
holds exactly what the fields of the complete lines add to it: for every field name and type that occurs one index,
whose entries are exactly one for each scalar occurrence (the value bytes, the position of the value in the file, and
the position of the line), and the n-grams for searched fields; the recorded offset is the end of the last complete
line, and the entry count the number of complete lines. -/
theorem C36_fields_indexed (hr : SyncRun env hs data i s) (hd : data.length < 2 ^ 64) {lf : List (Bytes × List Field)} {tail : Bytes}
    (hl : IsLines data (lf.map (·.1)) tail)
    (hx : ∀ x ∈ lf, LineFields env.lex x.1 x.2 ∧ x.1.length < 2 ^ 32 ∧ ∀ f ∈ x.2, FieldOK env.lex hs x.1 f) :
    Holds data env.parse id i s ⟨1, .jsonl, UInt64.ofNat (fileOf (lf.map (·.1)) []).length, UInt64.ofNat lf.length⟩
      (linesJobs env.nfkd hs 0 lf) := by
  obtain ⟨rfl, is, c, hj⟩ := syncRun_is hr hd hl hx
  exact hj.holds rfl

/-- C36: `Synchronize` on such a file succeeds, except if an n-gram would be stored twice at the same position, or if
the index file comes near the largest possible size, which it does not if the entries have room on half of the pages. -/
theorem C36_succeeds (hr : SyncRun env hs data i s) {more : Bytes} (hd : (data ++ more).length < 2 ^ 64) {lf : List (Bytes × List Field)} {tail : Bytes}
    (hl : IsLines (data ++ more) (lf.map (·.1)) tail)
    (hx : ∀ x ∈ lf, LineFields env.lex x.1 x.2 ∧ x.1.length < 2 ^ 32 ∧ ∀ f ∈ x.2, FieldOK env.lex hs x.1 f) :
    (∃ s', jsonlSync env i (data ++ more) s = (.ok (), s')) ∨
    (∃ s', jsonlSync env i (data ++ more) s = (.err (.msg "key already exists"), s') ∧ ¬ Distinct (linesJobs env.nfkd hs 0 lf)) ∨
    (∃ s', jsonlSync env i (data ++ more) s = (.err .io, s') ∧ 2 ^ 63 ≤ 2 * s'.file.bytes.length + 4096 ∧
      2 ^ 63 ≤ 8192 * jobsPages (linesJobs env.nfkd hs 0 lf) + 4096) := by
  obtain ⟨ls, t, hls⟩ := exists_lines data
  obtain ⟨ks, hks, hkt⟩ := lines_grow hls hl
  obtain ⟨old, new, rfl, ho, hn⟩ := map_fst_append hks
  rw [List.length_append] at hd
  obtain ⟨rfl, is, c, hj⟩ := syncRun_is hr (lf := old) (tail := t) (by omega) (by rw [ho]; exact hls) (fun x hx' => hx x (by simp [hx']))
  rcases syncSteps (fm := ⟨1, .jsonl, 0, 0⟩) (i := ⟨fileSlot, hs⟩) rfl rfl (by rw [List.length_append]; omega) hl
    (fun x hx' => hx x (by simp [hx'])) (hj.grow more) with ⟨a, s1, is', c', e1, _⟩ | ⟨s1, e1, e2⟩ | ⟨s1, e1, e2⟩
  · exact .inl ⟨s1, e1⟩
  · exact .inr (.inl ⟨s1, e1, e2⟩)
  · exact .inr (.inr ⟨s1, e1, e2.1, by
      have h1 : 2 ^ 63 ≤ 8192 * jobPages (linesJobs env.nfkd hs 0 (old ++ new)) + 4096 := e2.2 narrow_id
      have h2 := jobPages_le (linesJobs env.nfkd hs 0 (old ++ new))
      omega⟩)

/-- C33, what the API shows (the bytes: `C33_incremental` in Props/JsonlBytes): two histories that end with the same data
file, whatever their steps, end with index files that hold the same, namely the metadata and entries of the lines. -/
theorem C33_same_answers {i' : IndexFile} {s' : PF} (hr : SyncRun env hs data i s) (hr' : SyncRun env hs data i' s') (hd : data.length < 2 ^ 64)
    {lf : List (Bytes × List Field)} {tail : Bytes} (hl : IsLines data (lf.map (·.1)) tail)
    (hx : ∀ x ∈ lf, LineFields env.lex x.1 x.2 ∧ x.1.length < 2 ^ 32 ∧ ∀ f ∈ x.2, FieldOK env.lex hs x.1 f) :
    i = i' ∧ ∃ fm js, Holds data env.parse id i s fm js ∧ Holds data env.parse id i' s' fm js := by
  obtain ⟨rfl, is, c, hj⟩ := syncRun_is hr hd hl hx
  obtain ⟨rfl, is', c', hj'⟩ := syncRun_is hr' hd hl hx
  exact ⟨rfl, _, _, hj.holds rfl, hj'.holds rfl⟩

/-- C34 for any history: no new complete line, no change. -/
theorem C34_noop (hr : SyncRun env hs data i s) {more : Bytes} (hd : (data ++ more).length < 2 ^ 64) {lf : List (Bytes × List Field)} {tail tail' : Bytes}
    (hl : IsLines data (lf.map (·.1)) tail) (hl' : IsLines (data ++ more) (lf.map (·.1)) tail')
    (hx : ∀ x ∈ lf, LineFields env.lex x.1 x.2 ∧ x.1.length < 2 ^ 32 ∧ ∀ f ∈ x.2, FieldOK env.lex hs x.1 f) :
    ∃ s', jsonlSync env i (data ++ more) s = (.ok (), s') ∧ s'.file.bytes = s.file.bytes := by
  have hdl : data.length < 2 ^ 64 := by rw [List.length_append] at hd; omega
  obtain ⟨rfl, is, c, hj⟩ := syncRun_is hr hdl hl hx
  obtain ⟨q, hq⟩ := hj.idx.fileSlotMd
  have hat : AtSlot s.file.bytes fileSlot 4096 0 := by
    obtain ⟨⟨free, ps, cnt, E, P, h1, h2⟩, h3⟩ := hj.idx
    obtain ⟨tl, htl, _⟩ := h1.first
    obtain ⟨m1, m2, _⟩ := places_mem (p := pageSize) (i := 0) (by rw [htl]; simp) h1.slots.inv.cle
    exact h1.slots.inv.pages.atSlot m1 m2
  obtain ⟨r1, r2, s4, r3, r4⟩ := setMetadata_same hat hj.idx.budget hq
  refine ⟨s4, ?_, r4⟩
  generalize hm : (⟨1, .jsonl, UInt64.ofNat (fileOf (lf.map (·.1)) []).length, UInt64.ofNat lf.length⟩ : FileMeta) = m at *
  have hn : m.readOffset.toNat = (fileOf (lf.map (·.1)) []).length := by
    rw [← hm]
    simp only [UInt64.toNat_ofNat']
    rw [Nat.mod_eq_of_lt]
    rw [hl'.1, fileOf_tail _ tail', List.length_append] at hd; omega
  have hloop : syncLoop env ⟨fileSlot, hs⟩ (data ++ more) ((data ++ more).length + 1) m (s.upd s.file.bytes q) = (.ok m, s.upd s.file.bytes q) := by
    unfold syncLoop
    have hdr : (data ++ more).drop (fileOf (lf.map (·.1)) []).length = tail' := by
      rw [hl'.1, fileOf_tail _ tail', List.drop_left']; rfl
    rw [if_neg (by rw [hn, hl'.1, fileOf_tail _ tail', List.length_append]; omega), hn, hdr, indexNewline_none.2 hl'.2.2]
    rfl
  unfold jsonlSync
  obtain ⟨q', hq'⟩ := hj.idx.metadata (i := ⟨fileSlot, hs⟩) rfl
  have hmd : (⟨fileSlot, hs⟩ : IndexFile).metadata s = (.ok m, s.upd s.file.bytes q) := by
    unfold IndexFile.metadata
    rw [Act.bind_ok hq, fileMeta_lift]
  rw [Act.bind_ok hmd, Act.bind_ok hloop]
  unfold IndexFile.setMetadata
  rw [Act.bind_ok (a := m.bytes) (s' := s.upd s.file.bytes q) (by rw [FileMeta.marshal_eq]; rfl)]
  exact r3

end Appendable
