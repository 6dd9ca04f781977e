import Verif.Lemmas.AlikeJsonl
/-! The bytes of the index file after any history of `Synchronize`: the same as after handling the complete lines one
after the other on a new index file, up to the file metadata. -/
namespace Appendable
open Spec Tree

/-! ### The file metadata -/

theorem uvarintLoop_length_mono (fuel : Nat) {a b : Nat} (h : a ≤ b) : (uvarintLoop fuel a).length ≤ (uvarintLoop fuel b).length := by
  induction fuel generalizing a b with
  | zero => simp [uvarintLoop]
  | succ fuel ih =>
    unfold uvarintLoop
    split
    · split <;> simp
    · rw [if_neg (by omega)]
      simp only [List.length_cons]
      have := ih (a := a / 128) (b := b / 128) (Nat.div_le_div_right h)
      omega

/-- The 21 bytes that the file metadata occupies at most. -/
def headOf (fm : FileMeta) : Bytes := (UInt8.ofNat fm.bytes.length :: fm.bytes) ++ List.replicate (20 - fm.bytes.length) 0

theorem fileMeta_len (fm : FileMeta) : fm.bytes.length ≤ 20 := by
  rw [FileMeta.bytes_length]; have := putUvarint_length_le fm.entries; omega

theorem headOf_length (fm : FileMeta) : (headOf fm).length = 21 := by
  have := fileMeta_len fm
  unfold headOf; simp only [List.length_append, List.length_cons, List.length_replicate]; omega

theorem headIs_headOf (fm : FileMeta) : HeadIs (headOf fm) fm := by
  refine ⟨?_, fileMeta_len fm⟩
  unfold headOf
  rw [List.take_left']; rfl

theorem fileMeta_len_mono {a b : FileMeta} (h : a.entries.toNat ≤ b.entries.toNat) : a.bytes.length ≤ b.bytes.length := by
  rw [FileMeta.bytes_length, FileMeta.bytes_length]
  have := uvarintLoop_length_mono 9 h
  unfold putUvarint; omega

/-- Overwriting the metadata by longer metadata. -/
theorem headOf_over {B : Bytes} {fm fm' : FileMeta} (hB : 8192 ≤ B.length) (h : slice B 4117 21 = headOf fm) (hl : fm.bytes.length ≤ fm'.bytes.length) :
    slice (writeAt B 4117 (UInt8.ofNat fm'.bytes.length :: fm'.bytes)) 4117 21 = headOf fm' := by
  have l1 := fileMeta_len fm
  have l2 := fileMeta_len fm'
  apply List.ext_getElem?
  intro j
  rw [slice_getElem?]
  by_cases hj : j < 21
  · rw [if_pos hj, writeAt_getElem? _ (by omega)]
    by_cases hk : j < fm'.bytes.length + 1
    · rw [if_neg (by omega), if_pos (by simp only [List.length_cons]; omega)]
      unfold headOf
      rw [List.getElem?_append_left (by simp only [List.length_cons]; omega)]
      rw [Nat.add_sub_cancel_left]
    · rw [if_neg (by omega), if_neg (by simp only [List.length_cons]; omega)]
      have := congrArg (fun l => l[j]?) h
      simp only [slice_getElem?, if_pos hj] at this
      rw [this]
      unfold headOf
      rw [List.getElem?_append_right (by simp only [List.length_cons]; omega), List.getElem?_append_right (by simp only [List.length_cons]; omega),
        List.getElem?_replicate, List.getElem?_replicate, if_pos (by simp only [List.length_cons]; omega), if_pos (by simp only [List.length_cons]; omega)]
  · rw [if_neg hj, List.getElem?_eq_none (by rw [headOf_length]; omega)]

/-! ### A new index file -/

/-- The bytes of a new index file. -/
def freshBytes (fmt : Format) : Bytes :=
  writeAt (writeAt (List.replicate pageSize 0 ++ LP.emptyPage 0) 4104 [1]) 4117
    (UInt8.ofNat (FileMeta.bytes ⟨currentVersion, fmt, 0, 0⟩).length :: FileMeta.bytes ⟨currentVersion, fmt, 0, 0⟩)

theorem writeAt_length_inside {l : Bytes} {off : Nat} {b : Bytes} (h : off + b.length ≤ l.length) : (writeAt l off b).length = l.length := by
  unfold writeAt
  simp only [List.length_append, List.length_take, List.length_drop, List.length_replicate]
  omega

theorem freshBytes_length (fmt : Format) : (freshBytes fmt).length = 8192 := by
  have h0 : (List.replicate pageSize (0 : UInt8) ++ LP.emptyPage 0).length = 8192 := by rw [List.length_append, emptyPage_length, List.length_replicate]; rfl
  have h1 := fileMeta_len ⟨currentVersion, fmt, 0, 0⟩
  have h2 : (writeAt (List.replicate pageSize (0 : UInt8) ++ LP.emptyPage 0) 4104 [1]).length = 8192 := by
    rw [writeAt_length_inside (by rw [h0]; simp), h0]
  unfold freshBytes
  rw [writeAt_length_inside, h2]
  rw [h2]; simp only [List.length_cons]; omega

set_option maxRecDepth 100000 in
theorem freshBytes_head (fmt : Format) : slice (freshBytes fmt) 4117 21 = headOf ⟨currentVersion, fmt, 0, 0⟩ := by
  cases fmt <;> decide +kernel

theorem newMulti_bytes {s : PF} (hb : s.file.budget = none) (hl : s.file.bytes.length = pageSize) {m : LP} {s' : PF}
    (h : LP.newMulti s = (.ok m, s')) : s'.file.bytes = s.file.bytes ++ LP.emptyPage 0 := by
  unfold LP.newMulti at h
  have hp : PF.page 0 = .ok ((pageSize : Nat) : Int) := by decide
  have hread : PF.read pageSize (s.upd s.file.bytes pageSize) = (.ok ([], true), s.upd s.file.bytes pageSize) := by
    unfold PF.read
    rw [Act.bind_ok (onFile_run (File.seekCur_ok (by simp only [upd_pos, upd_bytes]; omega)))]
    rw [tmod_nat, if_neg (by simp only [upd_pos]; rw [Nat.mod_self]; omega)]
    exact onFile_run (File.read_eof (by unfold pageSize; omega) (by simp only [upd_pos, upd_bytes]; omega))
  have h63 : pageSize < 2 ^ 62 := by decide
  obtain ⟨a2, p2, w2⟩ := write_ok (s := s.upd s.file.bytes pageSize) (b := LP.emptyPage 0) hb
    (by simp only [upd_pos, upd_bytes]; omega) (by simp only [upd_pos]; rw [emptyPage_length]; omega)
    (by simp only [upd_pos]; rw [emptyPage_length, Nat.mod_self]; omega)
  have hb2 : writeAt s.file.bytes pageSize (LP.emptyPage 0) = s.file.bytes ++ LP.emptyPage 0 := by
    have := writeAt_end s.file.bytes (LP.emptyPage 0); rw [hl] at this; exact this
  simp only [upd_bytes, upd_pos, upd_upd, hb2] at w2
  have hu : (UInt64.ofNat (u64OfInt ((pageSize : Nat) : Int))).toNat = pageSize := by decide
  have hreset : LP.reset ⟨UInt64.ofNat (u64OfInt ((pageSize : Nat) : Int)), 255⟩ 0 (s.upd s.file.bytes pageSize) =
      (.ok (), s.upd (s.file.bytes ++ LP.emptyPage 0) p2) := by
    unfold LP.reset
    rw [Act.bind_ok (seekU64_ok hu (by simp only [upd_bytes]; omega) (by omega))]
    simp only [upd_bytes, upd_upd]
    rw [Act.bind_ok w2]; rfl
  rw [Act.bind_ok (a := ((pageSize : Nat) : Int)) (s' := s) (by rw [hp]; rfl)] at h
  simp only at h
  rw [Act.bind_ok (seek_ok (by omega)), Act.bind_ok hread] at h
  simp only [if_true] at h
  rw [Act.bind_ok hreset] at h
  cases h
  rfl

theorem openIndex_freshBytes {f f' : File} (hf : f.bytes = []) (hb : f.budget = none) {fmt : Format} {hs : List Bytes} {i : IndexFile} {s : PF}
    (h : IndexFile.openIndex fmt hs f = (.ok (i, s), f')) : s.Valid [] ∧ s.file.budget = none ∧ s.file.bytes = freshBytes fmt := by
  obtain ⟨s1, e1, e2, e3, e4, e5, _⟩ := openFile_empty f hf hb
  obtain ⟨s2, g1, g2, g3, g4, g5⟩ := newMulti_fresh e2 e5 (by rw [e3, List.length_replicate])
  have g6 := newMulti_bytes e5 (by rw [e3, List.length_replicate]) g1
  rw [e3] at g6
  have hlk := chain_linked_head g2.inv.chain g2.inv.pages (by omega) (by simp)
  obtain ⟨q, hq⟩ := hlk s2 rfl
  have hlen : s2.file.bytes.length = 8192 := by rw [g4]; rfl
  obtain ⟨s3, hs3⟩ : ∃ s3, s3 = s2.upd s2.file.bytes q := ⟨_, rfl⟩
  have hb3 : s3.file.bytes = s2.file.bytes := by rw [hs3]; rfl
  have hbu3 : s3.file.budget = none := by rw [hs3]; exact g2.budget
  have hv3 : s3.Valid [] := by rw [hs3]; exact (Frame.upd_pos g2.valid g2.budget q []).valid
  rw [← hs3] at hq
  have hlv : Live s3 [] pageSize := by
    refine ⟨Nat.mod_self _, Nat.le_refl _, ?_, by simp⟩
    rw [hb3, hlen]; decide
  have hon : OnPage s3.file.bytes (headAt pageSize) pageSize := by
    rw [hb3]; exact g2.inv.pages.onPage (by simp) 255
  have hhd : Hdr s3.file.bytes pageSize 0 (UInt64.ofNat (2 ^ 64 - 1)) := by
    rw [hb3]; exact g2.inv.chain.last
  obtain ⟨n, q1, hw⟩ := write_ok (s := s3.upd s3.file.bytes 4104) (b := [1]) hbu3
    (by simp only [upd_pos, upd_bytes]; rw [hb3, hlen]; omega) (by simp only [upd_pos, List.length_cons, List.length_nil]; omega)
    (by simp only [upd_pos, List.length_cons, List.length_nil]; unfold pageSize; omega)
  simp only [upd_bytes, upd_pos, upd_upd] at hw
  have hadd : (headAt pageSize).addNext s3 = (.ok fileSlot, s3.upd (writeAt s3.file.bytes 4104 [1]) q1) := by
    unfold LP.addNext
    rw [Act.bind_ok (lp_count_ok hon hhd), if_neg (by decide), if_pos (by decide),
      Act.bind_ok (seekU64_ok (x := (headAt pageSize).offset + 8) (n := 4104) (by decide) (by simp only [upd_bytes]; rw [hb3, hlen]; omega) (by omega))]
    rw [show ((s3.upd s3.file.bytes (pageSize + 9)).upd (s3.upd s3.file.bytes (pageSize + 9)).file.bytes 4104) =
        s3.upd s3.file.bytes 4104 from rfl, show ((0 : UInt8) + 1) = 1 from rfl, Act.bind_ok hw]
    rfl
  have hfr := Frame.write hv3 hbu3 hlv (r := 8) (b := [1]) (by simp; unfold pageSize; omega) q1
  obtain ⟨s4, hs4⟩ : ∃ s4, s4 = s3.upd (writeAt s3.file.bytes 4104 [1]) q1 := ⟨_, rfl⟩
  have hv4 : s4.Valid [] := by rw [hs4]; exact hfr.1.valid
  have hbu4 : s4.file.budget = none := by rw [hs4]; exact hbu3
  have hb4 : s4.file.bytes = writeAt s3.file.bytes 4104 [1] := by rw [hs4]; rfl
  have hl4 : s4.file.bytes.length = 8192 := by rw [hb4, writeAt_length_inside] <;> rw [hb3, hlen]; simp
  rw [← hs4] at hadd
  have hlv4 : Live s4 [] pageSize := by
    refine ⟨Nat.mod_self _, Nat.le_refl _, ?_, by simp⟩
    rw [hl4]; decide
  have hat : AtSlot s4.file.bytes fileSlot pageSize 0 := by
    exact ⟨by decide, by decide, by decide, Nat.mod_self _, by rw [hl4]; decide, hv4.small⟩
  generalize hfm : (⟨currentVersion, fmt, 0, 0⟩ : FileMeta) = fm at *
  have hl := fileMeta_len fm
  obtain ⟨q2, hq2⟩ := lp_setMetadata_ok hat hbu4 (d := fm.bytes) (by omega)
  have hfw := Frame.write hv4 hbu4 hlv4 (r := 21) (b := UInt8.ofNat fm.bytes.length :: fm.bytes) (by simp only [List.length_cons]; unfold pageSize; omega) q2
  have hatt : IndexFile.openIndex fmt hs f = (.ok (⟨fileSlot, hs⟩, s4.upd (writeAt s4.file.bytes (slotPos pageSize 0 + 12) (UInt8.ofNat fm.bytes.length :: fm.bytes)) q2),
      (s4.upd (writeAt s4.file.bytes (slotPos pageSize 0 + 12) (UInt8.ofNat fm.bytes.length :: fm.bytes)) q2).file) := by
    unfold IndexFile.openIndex
    rw [e1]; simp only
    unfold IndexFile.attach
    rw [Act.bind_ok g1]
    unfold IndexFile.attachAt
    simp only [hq]
    rw [Act.bind_ok hadd, hfm, Act.bind_ok (a := fm.bytes) (s' := s4) (by rw [FileMeta.marshal_eq]; rfl), Act.bind_ok hq2]
    rfl
  rw [hatt] at h
  cases h
  refine ⟨hfw.1.valid, hbu4, ?_⟩
  simp only [upd_bytes]
  rw [hb4, hb3, g6]
  unfold freshBytes
  rw [hfm]
  rfl

/-! ### The lines one after the other -/

section
variable {env : JEnv} {hs : List Bytes} {H1 H2 : Bytes} {fm2 : FileMeta} {data more : Bytes} {s s2 : PF} {fm : FileMeta} {is : List (LP × IndexMeta)}
  {c : Nat → List Entry} {js : List Job} {i : IndexFile}

/-- Handle the lines that begin at `off` in the data file `D`. -/
def linesProg (env : JEnv) (i : IndexFile) (D : Bytes) : Nat → List Bytes → Act PF Unit
  | _, [] => pure ()
  | off, l :: ls => do
    handleLine env i D ⟨UInt64.ofNat off, UInt32.ofNat l.length⟩ l
    linesProg env i D (off + l.length + 1) ls

theorem linesProg_append {D : Bytes} (l1 l2 : List Bytes) {off : Nat} {s s' t : PF} (h1 : linesProg env i D off l1 s = (.ok (), s'))
    (h2 : linesProg env i D (off + (fileOf l1 []).length) l2 s' = (.ok (), t)) : linesProg env i D off (l1 ++ l2) s = (.ok (), t) := by
  induction l1 generalizing off s with
  | nil =>
    cases h1
    have e : (fileOf [] []).length = 0 := by simp [fileOf]
    rw [e] at h2
    exact h2
  | cons l ls ih =>
    unfold linesProg at h1
    obtain ⟨x, s1, e1, e2⟩ := Act.bind_okE h1
    rw [List.cons_append]
    unfold linesProg
    rw [Act.bind_ok e1]
    refine ih e2 ?_
    have e : (fileOf (l :: ls) []).length = l.length + 1 + (fileOf ls []).length := by
      rw [fileOf_cons]; simp only [List.length_append, List.length_cons]; omega
    rw [e] at h2
    rw [show off + l.length + 1 + (fileOf ls []).length = off + (l.length + 1 + (fileOf ls []).length) by omega]
    exact h2

theorem lineSteps2 (hH : HeadIs H2 fm2) (ha : Alike H1 H2 s s2) (hi : i.tree = fileSlot) (hsi : i.searchHeaders = hs) {off : Nat} {line : MemPtr}
    {x : Bytes × List Field} (hl : LineAt data off x.1 line) (hx : LineOK env hs x) (h : JIs data env.parse id s fm is c js) :
    Steps2 H1 H2 data env.parse id fm (handleLine env i data line x.1) (handleLine env i (data ++ more) line x.1) s s2
      (js ++ x.2.flatMap (fieldJobs env.nfkd hs off line)) (fun _ is' => Handles is is') := by
  obtain ⟨⟨e, l, r, h1, h2⟩, h3, h4⟩ := hx
  unfold handleLine
  rw [h1]
  refine Steps2.bind (objSteps2 hH ha hi hsi hl h2 h4 _ (Nat.le_succ _) h) (Part.refl _) ?_
  rintro a s' is' c' h' ⟨⟨e', rfl⟩, hh⟩ t' ha'
  exact Steps2.pure ha' h' hh

/-- What the loop of `Synchronize` does to one file, handling the lines does to the other. -/
theorem loopSteps2 (hH : HeadIs H2 fm2) (ha : Alike H1 H2 s s2) (hi : i.tree = fileSlot) (hsi : i.searchHeaders = hs) (hd : data.length < 2 ^ 64)
    {tail : Bytes} (ht : (10 : UInt8) ∉ tail) (lf : List (Bytes × List Field)) (pre : List Bytes)
    (hda : data = fileOf pre [] ++ fileOf (lf.map (·.1)) tail) (hno : ∀ x ∈ lf, (10 : UInt8) ∉ x.1) (hx : ∀ x ∈ lf, LineOK env hs x)
    {fuel : Nat} (hfu : lf.length < fuel) {m m' : FileMeta} (hro : m.readOffset = UInt64.ofNat (fileOf pre []).length)
    (h : JIs data env.parse id s fm is c js) {s' : PF} (hr : syncLoop env i data fuel m s = (.ok m', s')) :
    ∃ t', linesProg env i (data ++ more) (fileOf pre []).length (lf.map (·.1)) s2 = (.ok (), t') ∧ Alike H1 H2 s' t' := by
  induction lf generalizing pre fuel m s s2 is c js with
  | nil =>
    obtain ⟨fuel, rfl⟩ : ∃ k, fuel = k + 1 := ⟨fuel - 1, by simp at hfu; omega⟩
    have hn : m.readOffset.toNat = (fileOf pre []).length := by
      rw [hro, UInt64.toNat_ofNat', Nat.mod_eq_of_lt]
      rw [hda, List.length_append] at hd; omega
    unfold syncLoop at hr
    have hdr : data.drop (fileOf pre []).length = tail := by
      rw [hda, List.drop_left']
      · simp [fileOf]
      · rfl
    rw [if_neg (by rw [hn, hda, List.length_append]; omega), hn, hdr, indexNewline_none.2 ht] at hr
    cases hr
    exact ⟨s2, rfl, ha⟩
  | cons x lf ih =>
    obtain ⟨fuel, rfl⟩ : ∃ k, fuel = k + 1 := ⟨fuel - 1, by simp at hfu; omega⟩
    simp only [List.length_cons] at hfu
    have hlen : data.length = (fileOf pre []).length + (x.1.length + 1 + (fileOf (lf.map (·.1)) tail).length) := by
      rw [hda, List.map_cons, fileOf_cons]; simp only [List.length_append, List.length_cons]; omega
    have hn : m.readOffset.toNat = (fileOf pre []).length := by
      rw [hro, UInt64.toNat_ofNat', Nat.mod_eq_of_lt]; omega
    have hdr : data.drop (fileOf pre []).length = x.1 ++ 10 :: fileOf (lf.map (·.1)) tail := by
      rw [hda, List.drop_left', List.map_cons, fileOf_cons]
      rfl
    unfold syncLoop at hr
    rw [if_neg (by rw [hn]; omega), hn, hdr, indexNewline_line (hno x (by simp))] at hr
    simp only [List.take_left'] at hr
    have hla : LineAt data (fileOf pre []).length x.1 ⟨m.readOffset, UInt32.ofNat x.1.length⟩ := by
      refine ⟨?_, by omega, (hx x (by simp)).2.1, hd, by rw [hro]⟩
      rw [hdr, List.take_left']; rfl
    obtain ⟨k1, k2⟩ := lineSteps2 (more := more) hH ha hi hsi hla (hx x (by simp)) h
    obtain ⟨u, s1, e1, e2⟩ := Act.bind_okE hr
    obtain ⟨t1, f1, f2⟩ := k2 _ _ e1
    rcases k1 with ⟨a, s3, is', c', g1, g2, g3⟩ | ⟨s3, g1, _⟩ | ⟨s3, g1, _⟩
    · rw [g1] at e1; cases e1
      have hp : (fileOf (pre ++ [x.1]) []).length = (fileOf pre []).length + x.1.length + 1 := by
        rw [fileOf_append]; simp [fileOf]; omega
      obtain ⟨t', j1, j2⟩ := ih f2 (pre ++ [x.1]) (m := { m with readOffset := m.readOffset + UInt64.ofNat x.1.length + 1, entries := m.entries + 1 }) (by
          rw [hda, List.map_cons, fileOf_cons, fileOf_append]; simp [fileOf]) (fun y hy => hno y (by simp [hy])) (fun y hy => hx y (by simp [hy]))
        (fuel := fuel) (by omega) (by
          rw [hp, hro, UInt64.ofNat_add, UInt64.ofNat_add]; rfl) g2 e2
      refine ⟨t', ?_, j2⟩
      rw [List.map_cons]
      unfold linesProg
      rw [← hro, Act.bind_ok f1, ← hp]
      exact j1
    · rw [g1] at e1; cases e1
    · rw [g1] at e1; cases e1

/-- Changing the file metadata of the first file. -/
theorem Alike.setHead (ha : Alike H1 H2 s s2) {fm' : FileMeta} (h1 : H1 = headOf fm)
    (hle : fm.entries.toNat ≤ fm'.entries.toNat) {i : IndexFile} (hit : i.tree = fileSlot) {s' : PF} (h : i.setMetadata fm' s = (.ok (), s')) :
    Alike (headOf fm') H2 s' s2 := by
  have hat : AtSlot s.file.bytes fileSlot pageSize 0 :=
    ⟨by decide, by decide, by decide, Nat.mod_self _, by have := ha.two; unfold pageSize; omega, ha.v1.small⟩
  have hl := fileMeta_len fm'
  obtain ⟨q, hq⟩ := lp_setMetadata_ok hat ha.b1 (d := fm'.bytes) (by omega)
  unfold IndexFile.setMetadata at h
  rw [hit, Act.bind_ok (a := fm'.bytes) (s' := s) (by rw [FileMeta.marshal_eq]; rfl), hq] at h
  cases h
  have h0 := ha.two
  have hlv : Live s [] pageSize := ⟨Nat.mod_self _, Nat.le_refl _, by unfold pageSize; omega, by simp⟩
  have hfw := Frame.write ha.v1 ha.b1 hlv (r := 21) (b := UInt8.ofNat fm'.bytes.length :: fm'.bytes) (by simp only [List.length_cons]; unfold pageSize; omega) q
  have e : slotPos pageSize 0 + 12 = 4117 := rfl
  have e' : pageSize + 21 = 4117 := rfl
  rw [e'] at hfw
  rw [e]
  refine ⟨hfw.1.valid, ha.v2, ha.b1, ha.b2, ?_, ?_, ?_, ?_, ha.h2⟩
  · simp only [upd_bytes]; rw [hfw.2, ha.len]
  · simp only [upd_bytes]; rw [hfw.2]; exact h0
  · intro k hk
    simp only [upd_bytes]
    rw [ha.same k hk, writeAt_getElem?_out (by omega) (by simp only [List.length_cons]; omega)]
  · simp only [upd_bytes]
    exact headOf_over h0 (by rw [ha.h1, h1]) (fileMeta_len_mono hle)

end

/-! ### Histories -/

variable {env : JEnv} {hs : List Bytes} {i : IndexFile} {data : Bytes} {s : PF}

/-- The entries of the metadata after a history: the number of complete lines. -/
def metaOf (lf : List (Bytes × List Field)) : FileMeta := ⟨1, .jsonl, UInt64.ofNat (fileOf (lf.map (·.1)) []).length, UInt64.ofNat lf.length⟩

theorem fileOf_length_ge (ls : List Bytes) (t : Bytes) : ls.length ≤ (fileOf ls t).length := by
  induction ls with
  | nil => simp
  | cons l ls ih => rw [fileOf_cons]; simp only [List.length_append, List.length_cons]; omega

theorem syncRun_bytes (hr : SyncRun env hs data i s) {lf : List (Bytes × List Field)} {tail : Bytes} {more : Bytes} (hd : (data ++ more).length < 2 ^ 64)
    (hl : IsLines data (lf.map (·.1)) tail) (hx : ∀ x ∈ lf, LineOK env hs x) {t0 : PF} (hv : t0.Valid []) (hbu : t0.file.budget = none)
    (hb : t0.file.bytes = freshBytes .jsonl) :
    ∃ t, linesProg env ⟨fileSlot, hs⟩ (data ++ more) 0 (lf.map (·.1)) t0 = (.ok (), t) ∧ Alike (headOf (metaOf lf)) (headOf (metaOf [])) s t := by
  induction hr generalizing lf tail more with
  | @create f f' i s hf hfb h =>
    have : IsLines [] [] [] := ⟨rfl, by simp, by simp⟩
    obtain ⟨u1, u2⟩ := lines_unique hl this
    rw [List.map_eq_nil_iff] at u1
    subst u1
    obtain ⟨g1, g2, g3⟩ := openIndex_freshBytes hf hfb h
    have hh := freshBytes_head .jsonl
    refine ⟨t0, rfl, g1, hv, g2, hbu, by rw [g3, hb], by rw [g3, freshBytes_length]; omega, fun k _ => by rw [g3, hb], by rw [g3]; exact hh, by rw [hb]; exact hh⟩
  | @sync data more0 i s s' hr h ih =>
    obtain ⟨ls, t, hls⟩ := exists_lines data
    obtain ⟨ks, hks, hkt⟩ := lines_grow hls hl
    obtain ⟨old, new, rfl, ho, hn⟩ := map_fst_append hks
    have hlo : IsLines data (old.map (·.1)) t := by rw [ho]; exact hls
    have hd1 : data.length < 2 ^ 64 := by simp only [List.length_append] at hd; omega
    have hd2 : (data ++ more0).length < 2 ^ 64 := by simp only [List.length_append] at hd ⊢; omega
    obtain ⟨rfl, is, c, hj⟩ := syncRun_is hr hd1 hlo (fun x hx' => hx x (by simp [hx']))
    obtain ⟨t1, k1, k2⟩ := ih (lf := old) (tail := t) (more := more0 ++ more) (by rw [← List.append_assoc]; exact hd) hlo
      (fun x hx' => hx x (by simp [hx']))
    rw [← List.append_assoc] at k1
    have hj' := hj.grow more0
    obtain ⟨q, hq⟩ := hj'.idx.metadata (i := ⟨fileSlot, hs⟩) rfl
    unfold jsonlSync at h
    rw [Act.bind_ok hq] at h
    obtain ⟨m', s1, e1, e2⟩ := Act.bind_okE h
    have ha : Alike (headOf (metaOf old)) (headOf (metaOf [])) (s.upd s.file.bytes q) t1 := k2.upd q t1.file.pos
    have hju : JIs (data ++ more0) env.parse id (s.upd s.file.bytes q) _ is c _ := ⟨hj'.idx.upd q, hj'.done⟩
    have hd0 : data ++ more0 = fileOf (old.map (·.1)) [] ++ fileOf (new.map (·.1)) tail := by
      rw [hl.1, List.map_append, fileOf_append]
    have hno : ∀ x ∈ new, (10 : UInt8) ∉ x.1 := fun x hx => hl.2.1 x.1 (by
      simp only [List.map_append, List.mem_append, List.mem_map]; exact .inr ⟨x, hx, rfl⟩)
    have hle : new.length < (data ++ more0).length + 1 := by
      have := fileOf_length_ge (new.map (·.1)) tail
      rw [List.length_map] at this
      rw [hd0, List.length_append]; omega
    obtain ⟨t', j1, j2⟩ := loopSteps2 (more := more) (headIs_headOf (metaOf [])) ha rfl rfl hd2 hl.2.2 new (old.map (·.1)) hd0 hno
      (fun x hx' => hx x (by simp [hx'])) hle rfl hju e1
    have hlp := loopSteps (i := ⟨fileSlot, hs⟩) rfl rfl hd2 hl.2.2 new (old.map (·.1)) hd0 hno
      (fun x hx' => hx x (by simp [hx'])) hle (m := metaOf old) rfl hju
    rcases hlp with ⟨a, s3, is', c', g1, g2, g3, _⟩ | ⟨s3, g1, _⟩ | ⟨s3, g1, _⟩
    · rw [show syncLoop env ⟨fileSlot, hs⟩ (data ++ more0) ((data ++ more0).length + 1) (metaOf old) (s.upd s.file.bytes q) = _ from e1] at g1
      cases g1
      have hm : m' = metaOf (old ++ new) := by
        rw [g3]; unfold metaOf
        simp only [List.map_append, List.length_append, UInt64.ofNat_add]
      refine ⟨t', by rw [List.map_append]; exact linesProg_append _ _ k1 (by rw [Nat.zero_add]; exact j1), ?_⟩
      rw [← hm]
      refine j2.setHead (fm := metaOf old) rfl ?_ rfl e2
      rw [hm]
      have hb1 := fileOf_length_ge ((old ++ new).map (·.1)) tail
      rw [← hl.1, List.length_map, List.length_append] at hb1
      unfold metaOf
      simp only [List.length_append, UInt64.toNat_ofNat']
      rw [Nat.mod_eq_of_lt (by omega), Nat.mod_eq_of_lt (by omega)]
      omega
    · rw [show syncLoop env ⟨fileSlot, hs⟩ (data ++ more0) ((data ++ more0).length + 1) (metaOf old) (s.upd s.file.bytes q) = _ from e1] at g1
      cases g1
    · rw [show syncLoop env ⟨fileSlot, hs⟩ (data ++ more0) ((data ++ more0).length + 1) (metaOf old) (s.upd s.file.bytes q) = _ from e1] at g1
      cases g1
  | @reopen data i i' s s' f f' hr hbf hu h ih =>
    have hd1 : data.length < 2 ^ 64 := by simp only [List.length_append] at hd; omega
    obtain ⟨rfl, is, c, hj⟩ := syncRun_is hr hd1 hl hx
    obtain ⟨t, k1, k2⟩ := ih hd hl hx
    refine ⟨t, k1, ?_⟩
    obtain ⟨⟨free, ps, cnt, E, P, h1, h2⟩, h3⟩ := hj.idx
    have hfr := valid_free k2.v1 h1.slots.valid
    subst hfr
    obtain ⟨s1, e1, e2, e3, e4, e5, _⟩ := openFile_valid' h1.slots.valid f hbf
    have hbb : s1.file.bytes = s.file.bytes := by rw [e3, hbf]
    have hbud : s1.file.budget = none := by rw [e5, hu]
    have hlive : ∀ p, Live s [] p → Live s1 [] p := by intro p hp; unfold Live at *; rw [hbb]; exact hp
    have hinv : IdxInv True data env.parse (fun m => id m.width) s1 (metaOf lf) (is.map (·.2)) c [] ps cnt E P := by
      refine ⟨⟨e2, hbud, fun p hp => hlive p (h1.slots.live p hp), by rw [hbb]; exact h1.slots.inv⟩, ?_, h1.out, fun hst => (h1.used hst).same (by rw [hbb])⟩
      exact h1.forest.frame e2 hbud hlive (by rw [hbb]; omega) (by rw [hbb]; simp) (by rw [hbb]; simp)
    obtain ⟨q, hq⟩ := attach_existing hinv .jsonl hs
    rw [if_neg (fun hc => hc rfl), if_neg (fun hc => hc rfl)] at hq
    unfold IndexFile.openIndex at h
    rw [e1] at h
    simp only at h
    rw [hq] at h
    cases h
    have hfin : Alike (headOf (metaOf lf)) (headOf (metaOf [])) s1 t :=
      ⟨e2, k2.v2, hbud, k2.b2, by rw [hbb]; exact k2.len, by rw [hbb]; exact k2.two, by rw [hbb]; exact k2.same, by rw [hbb]; exact k2.h1, k2.h2⟩
    exact hfin.upd q t.file.pos

/-- Two histories with the same data file end with the same bytes. -/
theorem syncRun_same {i' : IndexFile} {s' : PF} (hr : SyncRun env hs data i s) (hr' : SyncRun env hs data i' s') (hd : data.length < 2 ^ 64)
    {lf : List (Bytes × List Field)} {tail : Bytes} (hl : IsLines data (lf.map (·.1)) tail) (hx : ∀ x ∈ lf, LineOK env hs x) :
    s.file.bytes = s'.file.bytes := by
  obtain ⟨f, hf1, hf2⟩ : ∃ f : File, f.bytes = [] ∧ f.budget = none := ⟨⟨.mmap, [], 0, none⟩, rfl, rfl⟩
  obtain ⟨t0, e1, _⟩ := openIndex_fresh [] env.parse (fun m => id m.width) hf1 hf2 .jsonl hs
  obtain ⟨g1, g2, g3⟩ := openIndex_freshBytes hf1 hf2 e1
  obtain ⟨t, k1, k2⟩ := syncRun_bytes hr (more := []) (by simpa using hd) hl hx g1 g2 g3
  obtain ⟨t', k1', k2'⟩ := syncRun_bytes hr' (more := []) (by simpa using hd) hl hx g1 g2 g3
  rw [k1] at k1'
  cases k1'
  apply List.ext_getElem?
  intro k
  by_cases hk : k < 4117 ∨ 4138 ≤ k
  · rw [← k2.same k hk, ← k2'.same k hk]
  · have := k2.h1.trans k2'.h1.symm
    have := congrArg (fun l => l[k - 4117]?) this
    simp only [slice_getElem?, if_pos (show k - 4117 < 21 by omega)] at this
    rw [show 4117 + (k - 4117) = k by omega] at this
    exact this

end Appendable
