import Verif.Lemmas.IndexApi
import Verif.Lemmas.Quiet
/-! C107, C108: `NewIndexFile` on a file that is not an index file, or a damaged one. -/
namespace Appendable
open Spec PF

theorem act_pure_then {σ α β : Type} (a : α) (g : α → Act σ β) (s : σ) : ((pure a : Act σ α) >>= g) s = g a s := rfl

/-- `NewPageFile` on a file of at least one page. -/
theorem openFile_any {f : File} (hl : pageSize ≤ f.bytes.length) :
    (f.bytes.length % pageSize ≠ 0 → openFile f =
      (.err (.msg "file size is not a multiple of the page size"), { f with pos := f.bytes.length })) ∧
    (f.bytes.length % pageSize = 0 → ∃ s, openFile f = (.ok s, s.file) ∧ s.file = { f with pos := f.bytes.length }) := by
  have hps : 0 < pageSize := by decide
  have hseek0 : File.seekStart 0 f = (.ok 0, { f with pos := 0 }) := File.seekStart_ok (o := 0) (Nat.zero_le _)
  have hread : File.read pageSize { f with pos := 0 }
      = (.ok (slice f.bytes 0 pageSize, false), { f with pos := 0 + pageSize }) := by
    rw [File.read_ok hps (by simpa using hl)]
  have hend := File.seekEnd_ok { f with pos := 0 + pageSize }
  simp only at hend
  unfold openFile
  rw [Act.bind_ok hseek0, Act.bind_ok hread]
  simp only [Bool.false_eq_true, if_false]
  constructor
  · intro hm
    rw [act_pure_then, Act.bind_ok hend, tmod_nat, if_pos (fun h => hm (by exact_mod_cast h))]
    rfl
  · intro hm
    rw [act_pure_then, Act.bind_ok hend, tmod_nat, if_neg (by simp [hm]), Act.bind_ok (Act.get_run _)]
    exact ⟨_, rfl, rfl⟩

/-- `NewPageFile` never panics. -/
theorem openFile_calm (f : File) : (openFile f).1 ≠ .panic := by
  by_cases hl : pageSize ≤ f.bytes.length
  · obtain ⟨h1, h2⟩ := openFile_any hl
    by_cases hm : f.bytes.length % pageSize = 0
    · obtain ⟨s, e, _⟩ := h2 hm; rw [e]; simp
    · rw [h1 hm]; simp
  · have hseek0 : File.seekStart 0 f = (.ok 0, { f with pos := 0 }) := File.seekStart_ok (o := 0) (Nat.zero_le _)
    obtain ⟨d, eof, f1, hr, hp⟩ : ∃ d eof f1, File.read pageSize { f with pos := 0 } = (.ok (d, eof), f1) ∧ f1.pos ≤ f1.bytes.length := by
      unfold File.read
      cases hk : f.kind
      · simp only
        split
        · exact ⟨_, _, _, rfl, by simp⟩
        · refine ⟨_, _, _, rfl, ?_⟩
          simp only [List.drop_zero, List.length_take]; omega
      · simp only
        rw [if_neg (by omega)]
        refine ⟨_, _, _, rfl, ?_⟩
        simp only [List.drop_zero, List.length_take]; omega
    unfold openFile
    rw [Act.bind_ok hseek0, Act.bind_ok hr]
    simp only
    have hrest : ∀ (a : List Int × Nat × Nat) (g : File), ((do
        let n ← File.seekEnd 0
        if n.tmod pageSize ≠ 0 then Act.throw (.msg "file size is not a multiple of the page size")
        else do
          let f ← Act.get
          return ⟨f, a.1, a.2.1, a.2.2, (n / pageSize).toNat⟩ : Act File PF) g).1 ≠ .panic := by
      intro a g
      rw [Act.bind_ok (File.seekEnd_ok g)]
      split
      · simp [Act.throw]
      · rw [Act.bind_ok (Act.get_run _)]; simp [Pure.pure]
    cases eof
    · simp only [Bool.false_eq_true, if_false]
      rw [act_pure_then]
      exact hrest _ _
    · simp only [if_true]
      rcases hw : File.write (d ++ List.replicate (pageSize - d.length) 0) f1 with ⟨r, f2⟩
      cases r with
      | ok n =>
        rw [Act.bind_ok (s' := f2) (a := (List.replicate ringSize 0, 0, 0)) (by rw [Act.bind_ok hw]; rfl)]
        exact hrest _ _
      | err e =>
        rw [Act.bind_err (e := e) (s' := f2) (by rw [Act.bind_err hw])]
        simp
      | panic =>
        exfalso
        unfold File.write at hw
        split at hw
        · simp at hw
        · split at hw
          · simp at hw
          · simp only at hw
            split at hw
            · rw [if_neg (by omega)] at hw; simp at hw
            · simp at hw

/-- The handle of the slot list. -/
theorem head_onPage {B : Bytes} (h2 : 2 * pageSize ≤ B.length) (h63 : B.length < 2 ^ 63) : OnPage B (headAt pageSize) pageSize :=
  ⟨by decide, by decide, by omega, h63⟩

theorem file_atSlot {B : Bytes} (h2 : 2 * pageSize ≤ B.length) (h63 : B.length < 2 ^ 63) : AtSlot B fileSlot pageSize 0 :=
  ⟨by decide, by decide, by decide, by decide, by omega, h63⟩

/-- Whatever is on the first meta page can be read as a header. -/
theorem hdr_any {B : Bytes} {p : Nat} {c : UInt8} (h : p + 8 ≤ B.length) (hc : B[p + 8]? = some c) :
    Hdr B p c (UInt64.ofNat (leNat (slice B p 8))) := by
  refine ⟨?_, hc⟩
  have hl : (slice B p 8).length = 8 := slice_length h
  have h1 := leBytes_leNat (slice B p 8)
  rw [hl] at h1
  have h2 := leNat_lt (slice B p 8)
  rw [hl] at h2
  rw [UInt64.toNat_ofNat_of_lt' (by simpa [UInt64.size] using h2), h1]

/-- `NewMultiBPTree` on a file of at least two pages. -/
theorem newMulti_two {s : PF} (h2 : 2 * pageSize ≤ s.file.bytes.length) :
    LP.newMulti s = (.ok (headAt pageSize), s.upd s.file.bytes (2 * pageSize)) := by
  have hp : PF.page 0 = .ok ((pageSize : Nat) : Int) := by decide
  unfold LP.newMulti
  rw [Act.bind_ok (a := ((pageSize : Nat) : Int)) (s' := s) (by rw [hp]; rfl)]
  simp only
  rw [Act.bind_ok (seek_ok (by omega)), Act.bind_ok (Appendable.read_ok (s := s.upd s.file.bytes pageSize) (n := pageSize) (by decide)
    (by simp only [upd_pos, upd_bytes]; omega) (by simp only [upd_pos]; rw [Nat.mod_self]; omega))]
  simp only [Bool.false_eq_true, if_false]
  rfl

/-- `NewMultiBPTree` on a file of one page. -/
theorem newMulti_page {s : PF} (hb : s.file.budget = none) (hl : s.file.bytes.length = pageSize) :
    ∃ q, LP.newMulti s = (.ok (headAt pageSize), s.upd (s.file.bytes ++ LP.emptyPage 0) q) := by
  have hp : PF.page 0 = .ok ((pageSize : Nat) : Int) := by decide
  have hread : PF.read pageSize (s.upd s.file.bytes pageSize) = (.ok ([], true), s.upd s.file.bytes pageSize) := by
    unfold PF.read
    rw [Act.bind_ok (onFile_run (File.seekCur_ok (by simp only [upd_pos, upd_bytes]; omega)))]
    rw [tmod_nat, if_neg (by simp only [upd_pos]; rw [Nat.mod_self]; omega)]
    exact onFile_run (File.read_eof (by unfold pageSize; omega) (by simp only [upd_pos, upd_bytes]; omega))
  have h63 : pageSize < 2 ^ 62 := by decide
  obtain ⟨a2, p2, w2⟩ := Appendable.write_ok (s := s.upd s.file.bytes pageSize) (b := LP.emptyPage 0) hb
    (by simp only [upd_pos, upd_bytes]; omega) (by simp only [upd_pos]; rw [emptyPage_length]; omega)
    (by simp only [upd_pos]; rw [emptyPage_length, Nat.mod_self]; omega)
  have hb2 : writeAt s.file.bytes pageSize (LP.emptyPage 0) = s.file.bytes ++ LP.emptyPage 0 := by
    have := writeAt_end s.file.bytes (LP.emptyPage 0); rw [hl] at this; exact this
  simp only [upd_bytes, upd_pos, upd_upd, hb2] at w2
  have hu : (UInt64.ofNat (u64OfInt ((pageSize : Nat) : Int))).toNat = pageSize := by decide
  refine ⟨p2, ?_⟩
  unfold LP.newMulti
  rw [Act.bind_ok (a := ((pageSize : Nat) : Int)) (s' := s) (by rw [hp]; rfl)]
  simp only
  rw [Act.bind_ok (seek_ok (by omega)), Act.bind_ok hread]
  simp only [if_true]
  rw [Act.bind_ok (a := ()) (s' := s.upd (s.file.bytes ++ LP.emptyPage 0) p2)]
  · rfl
  · unfold LP.reset
    rw [Act.bind_ok (seekU64_ok hu (by simp only [upd_bytes]; omega) (by omega))]
    simp only [upd_bytes, upd_upd]
    rw [Act.bind_ok w2]; rfl

/-- `NewIndexFile` where the slot list seems to be empty: a first slot is added. -/
theorem attachAt_empty {s : PF} (hb : s.file.budget = none) (h2 : 2 * pageSize ≤ s.file.bytes.length)
    (h63 : s.file.bytes.length < 2 ^ 63) (hh : Hdr s.file.bytes pageSize 0 0xFFFFFFFFFFFFFFFF) (fmt : Format) (hs : List Bytes) :
    ∃ q, IndexFile.attachAt fmt hs (headAt pageSize) s = (.ok ⟨fileSlot, hs⟩,
      s.upd (writeAt (writeAt s.file.bytes (pageSize + 8) [1]) (pageSize + 21)
        (UInt8.ofNat (FileMeta.bytes ⟨currentVersion, fmt, 0, 0⟩).length :: FileMeta.bytes ⟨currentVersion, fmt, 0, 0⟩)) q) := by
  have hon := head_onPage h2 h63
  obtain ⟨q, hq⟩ := lp_next_ok hon hh
  rw [if_neg (by decide), if_pos rfl] at hq
  generalize hfm : (⟨currentVersion, fmt, 0, 0⟩ : FileMeta) = fm
  obtain ⟨n, q2, hw⟩ := Appendable.write_ok (s := s.upd s.file.bytes (pageSize + 8)) (b := [1]) hb
    (by simp only [upd_pos, upd_bytes]; unfold pageSize at *; omega)
    (by simp only [upd_pos, List.length_cons, List.length_nil]; unfold pageSize at *; omega)
    (by simp only [upd_pos, List.length_cons, List.length_nil]; unfold pageSize at *; omega)
  simp only [upd_bytes, upd_pos, upd_upd] at hw
  have hadd : (headAt pageSize).addNext (s.upd s.file.bytes q) = (.ok fileSlot, s.upd (writeAt s.file.bytes (pageSize + 8) [1]) q2) := by
    unfold LP.addNext
    rw [Act.bind_ok (lp_count_ok (s := s.upd s.file.bytes q) hon hh), if_neg (by decide), if_pos (by decide),
      Act.bind_ok (seekU64_ok (n := pageSize + 8) (by decide) (by simp only [upd_bytes]; unfold pageSize at *; omega) (by decide))]
    simp only [upd_bytes, upd_upd]
    rw [show (0 : UInt8) + 1 = 1 from rfl, Act.bind_ok hw]
    rfl
  have hlen : (writeAt s.file.bytes (pageSize + 8) [1]).length = s.file.bytes.length := by
    rw [writeAt_length (by unfold pageSize at *; omega)]
    simp only [List.length_cons, List.length_nil]; unfold pageSize at *; omega
  have hl : fm.bytes.length ≤ 255 := by
    rw [FileMeta.bytes_length]; have := putUvarint_length_le fm.entries; omega
  obtain ⟨q3, hq3⟩ := lp_setMetadata_ok (s := s.upd (writeAt s.file.bytes (pageSize + 8) [1]) q2) (m := fileSlot) (p := pageSize) (i := 0)
    (file_atSlot (by rw [upd_bytes, hlen]; exact h2) (by rw [upd_bytes, hlen]; exact h63)) hb hl
  refine ⟨q3, ?_⟩
  unfold IndexFile.attachAt
  simp only [hq]
  rw [Act.bind_ok hadd, hfm, Act.bind_ok (a := fm.bytes) (by rw [FileMeta.marshal_eq]; rfl), Act.bind_ok hq3]
  rfl

/-- `NewIndexFile` where the first slot is in use. -/
theorem attachAt_slot {s : PF} (h2 : 2 * pageSize ≤ s.file.bytes.length)
    (h63 : s.file.bytes.length < 2 ^ 63) {c n : UInt8} (hc : s.file.bytes[pageSize + 8]? = some c) (hc0 : c ≠ 0)
    (hn : s.file.bytes[pageSize + 21]? = some n) (fmt : Format) (hs : List Bytes) :
    ∃ q, IndexFile.attachAt fmt hs (headAt pageSize) s = (if n = 255 then .panic else
        (FileMeta.unmarshal (slice s.file.bytes (pageSize + 22) n.toNat)).bind fun m =>
          if m.version ≠ currentVersion then .err (.msg "unsupported version")
          else if m.format ≠ fmt then .err (.msg "unsupported format") else .ok ⟨fileSlot, hs⟩,
      s.upd s.file.bytes q) := by
  have hon := head_onPage h2 h63
  obtain ⟨q, hq⟩ := lp_next_ok hon (hdr_any (by unfold pageSize at *; omega) hc)
  have hpos : (headAt pageSize).index + 1 < c := by
    rw [show (headAt pageSize).index + 1 = 0 from rfl, UInt8.lt_iff_toNat_lt]
    have : c.toNat ≠ 0 := fun h => hc0 (UInt8.toNat.inj h)
    simp; omega
  rw [if_pos hpos, show (⟨(headAt pageSize).offset, (headAt pageSize).index + 1⟩ : LP) = fileSlot from rfl] at hq
  have hmd := lp_metadata_ok (s := s.upd s.file.bytes q) (n := n) (file_atSlot h2 h63) hn
  have e1 : slotPos pageSize 0 + 13 = pageSize + 22 := rfl
  simp only [upd_bytes, upd_upd, e1] at hmd
  unfold IndexFile.attachAt
  rw [hq]
  simp only
  by_cases h255 : n = 255
  · rw [if_pos h255] at hmd ⊢
    rw [Act.bind_panic hmd]; exact ⟨_, rfl⟩
  · rw [if_neg h255] at hmd ⊢
    rw [Act.bind_ok hmd]
    cases hu : FileMeta.unmarshal (slice s.file.bytes (pageSize + 22) n.toNat) with
    | ok m =>
      show ∃ q, ((pure m : Act PF FileMeta) >>= _) _ = _
      rw [act_pure_then]
      simp only [Res.bind]
      by_cases h3 : m.version ≠ currentVersion
      · rw [if_pos h3, if_pos h3]; exact ⟨_, rfl⟩
      · rw [if_neg h3, if_neg h3]
        by_cases h4 : m.format ≠ fmt
        · rw [if_pos h4, if_pos h4]; exact ⟨_, rfl⟩
        · rw [if_neg h4, if_neg h4]; exact ⟨_, rfl⟩
    | err e => exact ⟨_, rfl⟩
    | panic => exact ⟨_, rfl⟩

theorem attach_of {s s1 : PF} {m : LP} {fmt : Format} {hs : List Bytes} (h : LP.newMulti s = (.ok m, s1)) :
    IndexFile.attach fmt hs s = IndexFile.attachAt fmt hs m s1 := by
  unfold IndexFile.attach
  rw [Act.bind_ok h]

/-- `NewIndexFile` on an opened file, in parts. -/
theorem openIndex_of {f : File} {s : PF} {fmt : Format} {hs : List Bytes} (h : openFile f = (.ok s, s.file)) :
    (IndexFile.openIndex fmt hs f).2 = (IndexFile.attach fmt hs s).2.file ∧
    (∀ i s', IndexFile.attach fmt hs s = (.ok i, s') → IndexFile.openIndex fmt hs f = (.ok (i, s'), s'.file)) ∧
    (∀ e s', IndexFile.attach fmt hs s = (.err e, s') → IndexFile.openIndex fmt hs f = (.err e, s'.file)) ∧
    (∀ s', IndexFile.attach fmt hs s = (.panic, s') → IndexFile.openIndex fmt hs f = (.panic, s'.file)) := by
  unfold IndexFile.openIndex
  rw [h]
  simp only
  refine ⟨?_, fun i s' e => by rw [e], fun e' s' e => by rw [e], fun s' e => by rw [e]⟩
  split <;> rename_i e <;> rw [e]

/-- C107, files of at least one page: if the size is not a multiple of the page size, the file is refused and no byte
changes.  Missing: shorter files, see `C107_short_violated`. -/
theorem C107_size_partial (f : File) (fmt : Format) (hs : List Bytes) (hl : 4096 ≤ f.bytes.length) (hm : f.bytes.length % 4096 ≠ 0) :
    ∃ f', IndexFile.openIndex fmt hs f = (.err (.msg "file size is not a multiple of the page size"), f') ∧ f'.bytes = f.bytes := by
  have := (openFile_any hl).1 hm
  unfold IndexFile.openIndex
  rw [this]
  exact ⟨_, rfl, rfl⟩

/-- C107 is violated by short files: a memory-mapped file of fewer than 4096 bytes is refused, but only after its content
has been appended to it a second time, with zeros up to a page. -/
theorem C107_short_violated (f : File) (fmt : Format) (hs : List Bytes) (hk : f.kind = .mmap) (hb : f.budget = none)
    (h0 : f.bytes ≠ []) (hl : f.bytes.length < 4096) :
    ∃ f', IndexFile.openIndex fmt hs f = (.err (.msg "file size is not a multiple of the page size"), f') ∧
      f'.bytes = f.bytes ++ (f.bytes ++ List.replicate (4096 - f.bytes.length) 0) := by
  have hpos : 0 < f.bytes.length := List.length_pos_iff.2 h0
  have hseek0 : File.seekStart 0 f = (.ok 0, { f with pos := 0 }) := File.seekStart_ok (o := 0) (Nat.zero_le _)
  have hread : File.read pageSize { f with pos := 0 } = (.ok (f.bytes, true), { f with pos := f.bytes.length }) := by
    unfold File.read
    simp only [hk]
    rw [if_neg (by omega)]
    simp only [List.drop_zero, Nat.zero_add]
    rw [List.take_of_length_le (by unfold pageSize; omega)]
    simp only [decide_eq_true (show f.bytes.length < pageSize by unfold pageSize; omega)]
  obtain ⟨n, p, hw⟩ := File.write_ok (f := { f with pos := f.bytes.length })
    (b := f.bytes ++ List.replicate (pageSize - f.bytes.length) 0) hb (Nat.le_refl _)
    (by simp only [List.length_append, List.length_replicate]; unfold pageSize; omega)
  simp only [writeAt_end] at hw
  have hlen : (f.bytes ++ (f.bytes ++ List.replicate (pageSize - f.bytes.length) 0)).length = f.bytes.length + pageSize := by
    simp only [List.length_append, List.length_replicate]; unfold pageSize; omega
  have hend := File.seekEnd_ok { f with bytes := f.bytes ++ (f.bytes ++ List.replicate (pageSize - f.bytes.length) 0), pos := p }
  have ho : openFile f = (.err (.msg "file size is not a multiple of the page size"),
      { f with bytes := f.bytes ++ (f.bytes ++ List.replicate (pageSize - f.bytes.length) 0), pos := f.bytes.length + pageSize }) := by
    unfold openFile
    rw [Act.bind_ok hseek0, Act.bind_ok hread]
    simp only [if_true]
    rw [Act.bind_ok (s' := { f with bytes := f.bytes ++ (f.bytes ++ List.replicate (pageSize - f.bytes.length) 0), pos := p })
      (a := (List.replicate ringSize 0, 0, 0)) (by rw [Act.bind_ok hw]; rfl)]
    simp only
    rw [Act.bind_ok hend, tmod_nat, if_pos]
    · simp only [hlen]; rfl
    · intro hc
      have hc' : (f.bytes ++ (f.bytes ++ List.replicate (pageSize - f.bytes.length) 0)).length % pageSize = 0 := by exact_mod_cast hc
      rw [hlen] at hc'
      unfold pageSize at hc'
      omega
  unfold IndexFile.openIndex
  rw [ho]
  exact ⟨_, rfl, rfl⟩

/-- C107, files of at least two pages: unless the second page begins with eight bytes 255 and a zero (the mark of an
empty list of slots), opening changes no byte, whatever the outcome.  Missing: files of one page and files with this
mark, see `C107_page_violated` and `C107_mark_violated`. -/
theorem C107_untouched_partial (f : File) (fmt : Format) (hs : List Bytes) (hl : 8192 ≤ f.bytes.length)
    (h63 : f.bytes.length < 2 ^ 63) (hn : ¬ ((f.bytes.drop 4096).take 8 = List.replicate 8 255 ∧ f.bytes[4104]? = some 0)) :
    (IndexFile.openIndex fmt hs f).2.bytes = f.bytes := by
  by_cases hm : f.bytes.length % 4096 = 0
  · obtain ⟨s, e, es⟩ := (openFile_any (show pageSize ≤ f.bytes.length by unfold pageSize; omega)).2 hm
    rw [(openIndex_of e).1]
    have hsb : s.file.bytes = f.bytes := by rw [es]
    rw [← hsb] at hl h63 hn ⊢
    have h2 : 2 * pageSize ≤ s.file.bytes.length := hl
    unfold IndexFile.attach
    rw [Act.bind_ok (newMulti_two h2)]
    obtain ⟨c, hc⟩ : ∃ c, s.file.bytes[pageSize + 8]? = some c := ⟨_, List.getElem?_eq_getElem (by unfold pageSize; omega)⟩
    obtain ⟨q, hq⟩ := lp_next_ok (s := s.upd s.file.bytes (2 * pageSize)) (head_onPage h2 h63) (hdr_any (by unfold pageSize at *; simp only [upd_bytes]; omega) hc)
    unfold IndexFile.attachAt
    rw [hq]
    by_cases h1 : (headAt pageSize).index + 1 < c
    · rw [if_pos h1]
      simp only
      refine Eq.trans (Quiet.bind (Quiet.lpMetadata _) (fun _ => Quiet.bind (Quiet.lift _) fun m => Quiet.ite (Quiet.throw _)
        (Quiet.ite (Quiet.throw _) (Quiet.pure _))) _) rfl
    · rw [if_neg h1]
      have hc0 : c = 0 := by
        rw [show (headAt pageSize).index + 1 = 0 from rfl, UInt8.lt_iff_toNat_lt] at h1
        exact UInt8.toNat.inj (by simpa using h1)
      subst hc0
      rw [if_neg]
      · simp only
        refine Eq.trans (Quiet.bind (Quiet.lpMetadata _) (fun _ => Quiet.bind (Quiet.lift _) fun m => Quiet.ite (Quiet.throw _)
          (Quiet.ite (Quiet.throw _) (Quiet.pure _))) _) rfl
      · intro hx
        refine hn ⟨?_, hc⟩
        have hd := hdr_any (B := s.file.bytes) (p := pageSize) (by unfold pageSize at *; omega) hc
        have := hd.next
        simp only [upd_bytes] at hx
        rw [hx] at this
        unfold slice at this
        exact this
  · obtain ⟨f', e, hb⟩ := C107_size_partial f fmt hs (by omega) hm
    rw [e]; exact hb

/-- C107 is violated by files of one page: every file of exactly 4096 bytes is taken for an index file without indexes,
whatever it contains, and gets a second page. -/
theorem C107_page_violated (f : File) (fmt : Format) (hs : List Bytes) (hb : f.budget = none) (hl : f.bytes.length = 4096) :
    ∃ i s, IndexFile.openIndex fmt hs f = (.ok (i, s), s.file) ∧ s.file.bytes.length = 8192 ∧ s.file.bytes.take 4096 = f.bytes := by
  obtain ⟨s, e, es⟩ := (openFile_any (show pageSize ≤ f.bytes.length by unfold pageSize; omega)).2 (by rw [hl]; rfl)
  have hsb : s.file.bytes = f.bytes := by rw [es]
  have hbs : s.file.budget = none := by rw [es]; exact hb
  obtain ⟨q, hq⟩ := newMulti_page hbs (by rw [hsb, hl]; rfl)
  have hlen : (s.file.bytes ++ LP.emptyPage 0).length = 8192 := by
    rw [List.length_append, emptyPage_length, hsb, hl]; rfl
  have hhd : Hdr (s.file.bytes ++ LP.emptyPage 0) pageSize 0 0xFFFFFFFFFFFFFFFF := by
    have hps : pageSize = s.file.bytes.length := by rw [hsb, hl]; rfl
    refine ⟨?_, ?_⟩
    · unfold slice
      rw [hps, List.drop_left]
      unfold LP.emptyPage
      rw [List.append_assoc, List.take_append_of_le_length (by simp)]
      rfl
    · rw [hps, List.getElem?_append_right (by omega), Nat.add_sub_cancel_left]
      unfold LP.emptyPage
      rw [List.append_assoc, List.getElem?_append_right (by simp)]
      rfl
  obtain ⟨q2, hq2⟩ := attachAt_empty (s := s.upd (s.file.bytes ++ LP.emptyPage 0) q) hbs (by rw [upd_bytes, hlen]; decide)
    (by rw [upd_bytes, hlen]; decide) hhd fmt hs
  have ha := (attach_of hq).trans hq2
  have hml : (FileMeta.bytes ⟨currentVersion, fmt, 0, 0⟩).length ≤ 20 := by
    rw [FileMeta.bytes_length]; have := putUvarint_length_le (FileMeta.entries ⟨currentVersion, fmt, 0, 0⟩); omega
  refine ⟨_, _, (openIndex_of e).2.1 _ _ ha, ?_, ?_⟩
  · simp only [upd_bytes, upd_upd]
    have h1 : (writeAt (s.file.bytes ++ LP.emptyPage 0) (pageSize + 8) [1]).length = 8192 := by
      rw [writeAt_length (by rw [hlen]; decide), hlen]; decide
    rw [writeAt_length (by rw [h1]; decide), h1]
    simp only [List.length_cons]; unfold pageSize; omega
  · simp only [upd_bytes, upd_upd]
    have h1 : (writeAt (s.file.bytes ++ LP.emptyPage 0) (pageSize + 8) [1]).length = 8192 := by
      rw [writeAt_length (by rw [hlen]; decide), hlen]; decide
    rw [show ∀ l : Bytes, l.take 4096 = slice l 0 4096 from fun _ => rfl]
    rw [slice_writeAt_disjoint (by rw [h1]; decide) (by unfold pageSize; omega),
      slice_writeAt_disjoint (by rw [hlen]; decide) (by unfold pageSize; omega)]
    show (s.file.bytes ++ LP.emptyPage 0).take 4096 = _
    rw [← hl, ← hsb, List.take_left]

/-- C107 is violated by longer files with this mark at the beginning of the second page: they are taken for index files
without indexes, and the second page is changed. -/
theorem C107_mark_violated (f : File) (fmt : Format) (hs : List Bytes) (hb : f.budget = none) (hl : 8192 ≤ f.bytes.length)
    (h63 : f.bytes.length < 2 ^ 63) (hm : f.bytes.length % 4096 = 0)
    (hn : (f.bytes.drop 4096).take 8 = List.replicate 8 255) (hc : f.bytes[4104]? = some 0) :
    ∃ i s, IndexFile.openIndex fmt hs f = (.ok (i, s), s.file) ∧ s.file.bytes[4104]? = some 1 ∧
      s.file.bytes.length = f.bytes.length := by
  obtain ⟨s, e, es⟩ := (openFile_any (show pageSize ≤ f.bytes.length by unfold pageSize; omega)).2 hm
  have hsb : s.file.bytes = f.bytes := by rw [es]
  have hbs : s.file.budget = none := by rw [es]; exact hb
  rw [← hsb] at hl h63 hn hc ⊢
  have h2 : 2 * pageSize ≤ s.file.bytes.length := hl
  obtain ⟨q2, hq2⟩ := attachAt_empty (s := s.upd s.file.bytes (2 * pageSize)) hbs h2 h63 ⟨hn, hc⟩ fmt hs
  have ha := (attach_of (newMulti_two h2)).trans hq2
  have hml : (FileMeta.bytes ⟨currentVersion, fmt, 0, 0⟩).length ≤ 20 := by
    rw [FileMeta.bytes_length]; have := putUvarint_length_le (FileMeta.entries ⟨currentVersion, fmt, 0, 0⟩); omega
  have h1 : (writeAt s.file.bytes (pageSize + 8) [1]).length = s.file.bytes.length := by
    rw [writeAt_length (by unfold pageSize; omega)]; simp only [List.length_cons, List.length_nil]; unfold pageSize; omega
  refine ⟨_, _, (openIndex_of e).2.1 _ _ ha, ?_, ?_⟩
  · simp only [upd_bytes, upd_upd]
    rw [writeAt_getElem?_out (by rw [h1]; unfold pageSize; omega) (by unfold pageSize; omega)]
    have := slice_writeAt_same (l := s.file.bytes) (off := pageSize + 8) (b := [1]) (by unfold pageSize; omega)
    have h3 := congrArg (fun x => x[0]?) this
    rw [slice_getElem?] at h3
    exact h3
  · simp only [upd_bytes, upd_upd]
    rw [writeAt_length (by rw [h1]; unfold pageSize; omega), h1]
    simp only [List.length_cons]; unfold pageSize; omega

/-- `FileMeta.UnmarshalBinary` never panics; it succeeds exactly on ten bytes or more with a known format. -/
theorem fileMeta_unmarshal_cases (b : Bytes) : (FileMeta.unmarshal b ≠ .panic) ∧ (∀ m, FileMeta.unmarshal b = .ok m →
      10 ≤ b.length ∧ b[0]? = some m.version ∧ b[1]? = some m.format.toByte) ∧
    (∀ v fmt, 10 ≤ b.length → b[0]? = some v → b[1]? = some (Format.toByte fmt) → ∃ m, FileMeta.unmarshal b = .ok m ∧ m.version = v ∧ m.format = fmt) := by
  unfold FileMeta.unmarshal
  by_cases hl : b.length < 10
  · rw [if_pos hl]; exact ⟨by simp, by simp, fun _ _ h => by omega⟩
  · rw [if_neg hl]
    match b, hl with
    | [], h => simp at h
    | [_], h => simp at h
    | v :: x :: r, h =>
      simp only
      by_cases h0 : x = 0
      · subst h0
        refine ⟨by simp, ?_, ?_⟩
        · intro m hm; simp only [if_true] at hm; cases hm
          exact ⟨by omega, rfl, rfl⟩
        · rintro w fmt _ hw hf
          simp only [if_true]
          cases hw
          cases fmt
          · exact ⟨_, rfl, rfl, rfl⟩
          · simp [Format.toByte] at hf
      · by_cases h1 : x = 1
        · subst h1
          refine ⟨by simp, ?_, ?_⟩
          · intro m hm; simp at hm; cases hm
            exact ⟨by omega, rfl, rfl⟩
          · rintro w fmt _ hw hf
            cases hw
            cases fmt
            · simp [Format.toByte] at hf
            · refine ⟨_, by simp; rfl, rfl, rfl⟩
        · refine ⟨by simp [h0, h1], by simp [h0, h1], ?_⟩
          rintro w fmt _ hw hf
          exfalso
          cases fmt <;> simp [Format.toByte] at hf <;> simp_all

/-- C107, C108: a file of whole pages, at least two, whose first slot is in use: it is opened exactly if the metadata of
the slot has at least ten bytes, fewer than 255, and begins with the version 1 and the format of the handler; the call
panics exactly if the length byte is 255; no byte changes. -/
theorem openIndex_header (f : File) (fmt : Format) (hs : List Bytes) (hl : 8192 ≤ f.bytes.length) (h63 : f.bytes.length < 2 ^ 63)
    (hm : f.bytes.length % 4096 = 0) {c n : UInt8} (hc : f.bytes[4104]? = some c) (hc0 : c ≠ 0) (hn : f.bytes[4117]? = some n) :
    ((IndexFile.openIndex fmt hs f).1 = .panic ↔ n = 255) ∧
    ((∃ r, (IndexFile.openIndex fmt hs f).1 = .ok r) ↔
      10 ≤ n.toNat ∧ n ≠ 255 ∧ f.bytes[4118]? = some 1 ∧ f.bytes[4119]? = some (Format.toByte fmt)) ∧
    (IndexFile.openIndex fmt hs f).2.bytes = f.bytes := by
  obtain ⟨s, e, es⟩ := (openFile_any (show pageSize ≤ f.bytes.length by unfold pageSize; omega)).2 hm
  have hsb : s.file.bytes = f.bytes := by rw [es]
  rw [← hsb] at hl h63 hc hn ⊢
  have h2 : 2 * pageSize ≤ s.file.bytes.length := hl
  obtain ⟨q, hq⟩ := attachAt_slot (s := s.upd s.file.bytes (2 * pageSize)) h2 h63 hc hc0 hn fmt hs
  have ha := (attach_of (newMulti_two h2)).trans hq
  obtain ⟨o1, o2, o3, o4⟩ := openIndex_of (fmt := fmt) (hs := hs) e
  have hnl := n.toNat_lt
  have h3 : (IndexFile.openIndex fmt hs f).2.bytes = s.file.bytes := by rw [o1, ha]; rfl
  simp only [upd_bytes, upd_upd] at ha
  by_cases h255 : n = 255
  · rw [if_pos h255] at ha
    have := o4 _ ha
    rw [this]
    exact ⟨by simp [h255], by simp [h255], rfl⟩
  · rw [if_neg h255] at ha
    have hsl : (slice s.file.bytes (pageSize + 22) n.toNat).length = n.toNat := slice_length (by unfold pageSize; omega)
    have hg : ∀ k, k < n.toNat → (slice s.file.bytes (pageSize + 22) n.toNat)[k]? = s.file.bytes[4118 + k]? := by
      intro k hk
      rw [slice_getElem?, if_pos hk]
      rfl
    obtain ⟨u1, u2, u3⟩ := fileMeta_unmarshal_cases (slice s.file.bytes (pageSize + 22) n.toNat)
    rw [hsl] at u2 u3
    cases hu : FileMeta.unmarshal (slice s.file.bytes (pageSize + 22) n.toNat) with
    | panic => exact absurd hu u1
    | err er =>
      rw [hu] at ha
      rw [o3 _ _ ha]
      refine ⟨by simp [h255], ⟨by simp, ?_⟩, rfl⟩
      rintro ⟨a, _, b, d⟩
      obtain ⟨m, em, _⟩ := u3 1 fmt a (by rw [hg 0 (by omega)]; exact b) (by rw [hg 1 (by omega)]; exact d)
      rw [hu] at em; cases em
    | ok m =>
      rw [hu] at ha
      simp only [Res.bind] at ha
      obtain ⟨v1, v2, v3⟩ := u2 m hu
      rw [hg 0 (by omega)] at v2
      rw [hg 1 (by omega)] at v3
      by_cases hv : m.version ≠ currentVersion
      · rw [if_pos hv] at ha
        rw [o3 _ _ ha]
        refine ⟨by simp [h255], ⟨by simp, ?_⟩, rfl⟩
        rintro ⟨a, _, b, d⟩
        rw [show (4118 + 0) = 4118 from rfl, b] at v2
        exact absurd (Option.some.inj v2).symm hv
      · rw [if_neg hv] at ha
        by_cases hf : m.format ≠ fmt
        · rw [if_pos hf] at ha
          rw [o3 _ _ ha]
          refine ⟨by simp [h255], ⟨by simp, ?_⟩, rfl⟩
          rintro ⟨a, _, b, d⟩
          rw [show (4118 + 1) = 4119 from rfl, d] at v3
          refine absurd ?_ hf
          have := Option.some.inj v3
          revert this
          cases m.format <;> cases fmt <;> simp [Format.toByte]
        · rw [if_neg hf] at ha
          rw [o2 _ _ ha]
          refine ⟨by simp [h255], ⟨fun _ => ⟨v1, h255, ?_, ?_⟩, fun _ => ⟨_, rfl⟩⟩, rfl⟩
          · have h : m.version = currentVersion := Decidable.byContradiction hv
            rw [h] at v2; exact v2
          · have h : m.format = fmt := Decidable.byContradiction hf
            rw [h] at v3; exact v3

/-- C107, files of whole pages, at least two, whose first slot is in use: the file is opened exactly if the metadata of
this slot has at least ten bytes and fewer than 255 and begins with the version 1 and the format of the handler; and no
byte changes, whatever the outcome. -/
theorem C107_header (f : File) (fmt : Format) (hs : List Bytes) (hl : 8192 ≤ f.bytes.length) (h63 : f.bytes.length < 2 ^ 63)
    (hm : f.bytes.length % 4096 = 0) {c n : UInt8} (hc : f.bytes[4104]? = some c) (hc0 : c ≠ 0) (hn : f.bytes[4117]? = some n) :
    ((∃ r, (IndexFile.openIndex fmt hs f).1 = .ok r) ↔
      10 ≤ n.toNat ∧ n ≠ 255 ∧ f.bytes[4118]? = some 1 ∧ f.bytes[4119]? = some (Format.toByte fmt)) ∧
    (IndexFile.openIndex fmt hs f).2.bytes = f.bytes :=
  (openIndex_header f fmt hs hl h63 hm hc hc0 hn).2

/-- C108: opening a page file never panics, whatever the file contains. -/
theorem C108_page_file (f : File) : (openFile f).1 ≠ .panic := openFile_calm f

/-- C108, files whose first slot is in use: opening panics only if the length byte of its metadata is 255.  Missing:
that length, see `C108_length_violated`. -/
theorem C108_header_partial (f : File) (fmt : Format) (hs : List Bytes) (hl : 8192 ≤ f.bytes.length) (h63 : f.bytes.length < 2 ^ 63)
    {c n : UInt8} (hc : f.bytes[4104]? = some c) (hc0 : c ≠ 0) (hn : f.bytes[4117]? = some n) (h255 : n ≠ 255) :
    (IndexFile.openIndex fmt hs f).1 ≠ .panic := by
  by_cases hm : f.bytes.length % 4096 = 0
  · exact fun h => h255 ((openIndex_header f fmt hs hl h63 hm hc hc0 hn).1.1 h)
  · obtain ⟨f', e, _⟩ := C107_size_partial f fmt hs (by omega) hm
    rw [e]; simp

/-- C108 is violated: every file of whole pages whose first slot is in use and has the length byte 255 makes
`NewIndexFile` panic. -/
theorem C108_length_violated (f : File) (fmt : Format) (hs : List Bytes) (hl : 8192 ≤ f.bytes.length) (h63 : f.bytes.length < 2 ^ 63)
    (hm : f.bytes.length % 4096 = 0) {c : UInt8} (hc : f.bytes[4104]? = some c) (hc0 : c ≠ 0) (hn : f.bytes[4117]? = some 255) :
    (IndexFile.openIndex fmt hs f).1 = .panic :=
  (openIndex_header f fmt hs hl h63 hm hc hc0 hn).1.2 rfl

/-- C108 is violated: a tree whose root pointer designates a page that begins with four zeros makes `Find` and `Insert`
panic, for every key. -/
theorem C108_node_violated (t : Tree) (s : PF) (mp : MemPtr) (h1 : t.rootPos + 12 ≤ s.file.bytes.length)
    (h2 : t.rootPos % 4096 + 12 ≤ 4096) (hr : MemPtr.decode ((s.file.bytes.drop t.rootPos).take 12) = mp) (h0 : mp.length ≠ 0)
    (ha : mp.offset.toNat % 4096 = 0) (hi : mp.offset.toNat + 4096 ≤ s.file.bytes.length) (h63 : s.file.bytes.length < 2 ^ 63)
    (hz : (s.file.bytes.drop mp.offset.toNat).take 4 = [0, 0, 0, 0]) (k : RV) :
    (t.find k s).1 = .panic ∧ (∀ p, (t.cfg.width = 0 ∨ UInt16.ofNat k.value.length = t.cfg.width - 1) → (t.insert k p s).1 = .panic) := by
  have hnode : ∀ s1 : PF, s1.file.bytes = s.file.bytes → (t.readNode mp s1).1 = .panic := by
    intro s1 hs1
    unfold Tree.readNode
    rw [int64OfU64_small (by omega), Act.bind_ok (seek_ok (by rw [hs1]; omega)),
      Act.bind_ok (read_ok (s := s1.upd s1.file.bytes mp.offset.toNat) (by decide) (by simp only [upd_pos, upd_bytes, hs1]; exact hi)
        (by simp only [upd_pos]; unfold pageSize; omega))]
    simp only [Bool.false_eq_true, if_false, upd_bytes, upd_pos, upd_upd, hs1]
    have hl : (slice s.file.bytes mp.offset.toNat pageSize).length = pageSize := slice_length hi
    have ht : (slice s.file.bytes mp.offset.toNat pageSize).take 4 = [0, 0, 0, 0] := by
      unfold slice; rw [List.take_take]; exact hz
    unfold Node.unmarshal
    rw [if_neg (by rw [List.length_append, hl]; unfold pageSize; omega), List.take_append_of_le_length (by rw [hl]; decide), ht]
    rfl
  have hroot : (t.root s).1 = .panic := by
    unfold Tree.root
    rw [rootAt_ok h1 h2]
    simp only
    rw [show MemPtr.decode (slice s.file.bytes t.rootPos 12) = mp from hr, if_neg h0]
    rcases hx : t.readNode mp (s.upd s.file.bytes (t.rootPos + 12)) with ⟨r, s2⟩
    have := hnode (s.upd s.file.bytes (t.rootPos + 12)) rfl
    rw [hx] at this
    simp only at this
    subst this
    rw [Act.bind_panic hx]
  rcases hx : t.root s with ⟨r, s2⟩
  rw [hx] at hroot
  simp only at hroot
  subst hroot
  refine ⟨?_, fun p hw => ?_⟩
  · have hinit : (Tree.iter k).init t s = (.panic, s2) := by
      unfold Tree.Iter.init
      rw [hx]
    have hnext : (Tree.iter k).next t s = (.panic, s2) := by
      unfold Tree.Iter.next
      rw [show (Tree.iter k).records = none from rfl]
      simp only
      rw [Act.bind_panic hinit]
    unfold Tree.find
    rw [Act.bind_panic hnext]
  · unfold Tree.insert
    rw [if_neg (by rcases hw with h | h <;> simp [h]), Act.bind_panic hx]

/-! ### Files that meet the hypotheses -/

/-- A text file of 5000 bytes: refused, not changed. -/
example : ∃ f', IndexFile.openIndex .jsonl [] ⟨.mmap, List.replicate 5000 97, 0, none⟩ =
    (.err (.msg "file size is not a multiple of the page size"), f') ∧ f'.bytes = List.replicate 5000 97 :=
  C107_size_partial _ _ _ (by simp only [List.length_replicate]; omega) (by simp only [List.length_replicate]; omega)

/-- A text file of 10 bytes: refused, and 4106 bytes long afterwards. -/
example : ∃ f', IndexFile.openIndex .jsonl [] ⟨.mmap, List.replicate 10 97, 0, none⟩ =
    (.err (.msg "file size is not a multiple of the page size"), f') ∧ f'.bytes.length = 4106 := by
  obtain ⟨f', e, h⟩ := C107_short_violated ⟨.mmap, List.replicate 10 97, 0, none⟩ .jsonl [] rfl rfl (by simp) (by simp)
  exact ⟨f', e, by simp only [h, List.length_append, List.length_replicate]⟩

/-- A text file of 4096 bytes: accepted. -/
example : ∃ i s, IndexFile.openIndex .jsonl [] ⟨.mmap, List.replicate 4096 97, 0, none⟩ = (.ok (i, s), s.file) ∧
    s.file.bytes.length = 8192 := by
  obtain ⟨i, s, e, h, _⟩ := C107_page_violated ⟨.mmap, List.replicate 4096 97, 0, none⟩   .jsonl [] rfl (List.length_replicate ..)
  exact ⟨i, s, e, h⟩

/-- A text file of 8192 bytes: no byte changes, and it is refused, as its version would be 97. -/
example : (IndexFile.openIndex .jsonl [] ⟨.mmap, List.replicate 8192 97, 0, none⟩).2.bytes = List.replicate 8192 97 ∧
    ¬ ∃ r, (IndexFile.openIndex .jsonl [] ⟨.mmap, List.replicate 8192 97, 0, none⟩).1 = .ok r := by
  have hg : ∀ k, k < 8192 → (List.replicate 8192 (97 : UInt8))[k]? = some 97 := fun k hk => by
    rw [List.getElem?_replicate, if_pos hk]
  obtain ⟨h1, h2⟩ := C107_header ⟨.mmap, List.replicate 8192 97, 0, none⟩ .jsonl [] (by simp only [List.length_replicate]; omega) (by simp only [List.length_replicate]; omega) (by simp only [List.length_replicate])
    (hg 4104 (by omega)) (by decide) (hg 4117 (by omega))
  refine ⟨h2, fun h => ?_⟩
  have h3 := (h1.1 h).2.2.1
  rw [hg 4118 (by omega)] at h3
  exact absurd h3 (by decide)

/-- A file of 8192 bytes 255: opening panics. -/
example : (IndexFile.openIndex .csv [] ⟨.mmap, List.replicate 8192 255, 0, none⟩).1 = .panic := by
  have hg : ∀ k, k < 8192 → (List.replicate 8192 (255 : UInt8))[k]? = some 255 := fun k hk => by
    rw [List.getElem?_replicate, if_pos hk]
  exact C108_length_violated _ _ _ (by simp only [List.length_replicate]; omega) (by simp only [List.length_replicate]; omega) (by simp only [List.length_replicate]) (hg 4104 (by omega)) (by decide) (hg 4117 (by omega))

/-- A page of zeros, and a page of zeros with a root pointer to the first. -/
example : (Tree.find ⟨⟨[], id, 0⟩, 4105⟩ ⟨⟨0, 0⟩, []⟩
    ⟨⟨.mmap, List.replicate 4096 0 ++ (List.replicate 17 0 ++ 1 :: List.replicate 4078 0), 0, none⟩, [], 0, 0, 2⟩).1 = .panic := by
  have hl : (List.replicate 4096 0 ++ (List.replicate 17 0 ++ 1 :: List.replicate 4078 0) : Bytes).length = 8192 := by
    simp only [List.length_append, List.length_replicate, List.length_cons]
  refine (C108_node_violated ⟨⟨[], id, 0⟩, 4105⟩ _ ⟨0, 1⟩ (by simp only [hl]; omega) (by decide) ?_ (by decide) (by decide)
    (by simp only [hl]; decide) (by simp only [hl]; omega) ?_ _).1
  · simp only
    rw [List.drop_append, List.drop_of_length_le (by rw [List.length_replicate]; omega)]
    simp only [List.length_replicate, List.nil_append]
    rw [List.drop_append_of_le_length (by rw [List.length_replicate]; omega), List.drop_replicate]
    rfl
  · simp only [UInt64.toNat_zero, List.drop_zero]
    rw [List.take_append_of_le_length (by rw [List.length_replicate]; omega), List.take_replicate]
    rfl

end Appendable
