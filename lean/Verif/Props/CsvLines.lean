import Verif.Lemmas.CsvRun
import Verif.Props.Jsonl
/-! The lines of a CSV file, in whatever state the index file is: C96 (offset and number of entries), C97 (blank lines). -/
namespace Appendable
open Spec Tree

namespace Spec
/-- A line without contents. -/
def BlankLine (l : Bytes) : Prop := l = [] ∨ l = [13]
end Spec

section
variable {num : Bytes → Option UInt64} {i : IndexFile} {data : Bytes}

theorem csvRead_blank {l : Bytes} (h : BlankLine l) : csvRead l = none := by
  rcases h with rfl | rfl <;> rfl

theorem Mono.csvFieldsLoop (line : MemPtr) (hs vs : List Bytes) (cum : UInt64) : Mono (csvFieldsLoop num i data line hs vs cum) := by
  induction vs generalizing hs cum with
  | nil => cases hs <;> exact Mono.pure _
  | cons v vs ih =>
    cases hs with
    | nil => exact Mono.throw _
    | cons h hs =>
      unfold Appendable.csvFieldsLoop
      have h1 := Mono.findOrCreate i h (csvType num v)
      refine Mono.bind h1 (fun x => ?_)
      exact Mono.bind (Mono.insert _ _ _) (fun _ => ih _ _)

theorem Mono.handleCSVLine (headers : List Bytes) (line : MemPtr) (text : Bytes) : Mono (handleCSVLine num i data headers line text) := by
  unfold Appendable.handleCSVLine
  split
  · exact Mono.throw _
  · exact Mono.csvFieldsLoop _ _ _ _

theorem Mono.csvLoop (fuel : Nat) (headers : List Bytes) (m : FileMeta) : Mono (csvLoop num i data fuel headers m) := by
  induction fuel generalizing headers m with
  | zero => exact Mono.crash
  | succ fuel ih =>
    unfold Appendable.csvLoop
    split
    · exact Mono.crash
    · split
      · exact Mono.pure _
      · split
        · split
          · exact Mono.throw _
          · exact ih _ _
        · exact Mono.bind (Mono.handleCSVLine _ _ _) (fun _ => ih _ _)

theorem Mono.namesFrom (fuel : Nat) (m : LP) (ns : List Bytes) : Mono (IndexFile.namesFrom fuel m ns) := by
  induction fuel generalizing m ns with
  | zero => exact Mono.crash
  | succ fuel ih =>
    refine ⟨fun s => ?_⟩
    unfold IndexFile.namesFrom
    have := (Mono.next m).grow s
    split
    · rename_i h; rw [h] at this; exact this
    · rename_i h; rw [h] at this; exact this
    · rename_i h; rw [h] at this; exact this
    · rename_i nx s1 h; rw [h] at this
      refine GrowF.trans this ?_
      refine Mono.grow ?_ s1
      have h1 := Mono.lpMetadata nx
      have h2 := fun ns => ih nx ns
      mono

theorem Mono.indexFieldNames (i : IndexFile) : Mono i.indexFieldNames := ⟨fun s => (Mono.namesFrom _ _ _).grow s⟩

theorem csvLoop_ok {tail : Bytes} (ht : (10 : UInt8) ∉ tail) (hd : data.length < 2 ^ 64) (ls : List Bytes) (pre : List Bytes)
    (hda : data = fileOf pre [] ++ fileOf ls tail) (hno : ∀ x ∈ ls, (10 : UInt8) ∉ x) {fuel : Nat} {headers : List Bytes} {m m' : FileMeta} {s s' : PF}
    (hro : m.readOffset = UInt64.ofNat (fileOf pre []).length) (h : csvLoop num i data fuel headers m s = (.ok m', s')) :
    m' = { m with readOffset := UInt64.ofNat (fileOf (pre ++ ls) []).length } ∧ ∀ l ∈ ls, csvRead l ≠ none := by
  induction ls generalizing pre fuel m s headers with
  | nil =>
    cases fuel with
    | zero => cases h
    | succ fuel =>
      have hn : m.readOffset.toNat = (fileOf pre []).length := by
        rw [hro, UInt64.toNat_ofNat', Nat.mod_eq_of_lt]
        rw [hda, List.length_append] at hd; omega
      unfold csvLoop at h
      have hdr : data.drop (fileOf pre []).length = tail := by
        rw [hda, List.drop_left']
        · simp [fileOf]
        · rfl
      rw [if_neg (by rw [hn, hda, List.length_append]; omega), hn, hdr, indexNewline_none.2 ht] at h
      cases h
      refine ⟨?_, by simp⟩
      rw [List.append_nil, ← hro]
  | cons x ls ih =>
    cases fuel with
    | zero => cases h
    | succ fuel =>
      have hlen : data.length = (fileOf pre []).length + (x.length + 1 + (fileOf ls tail).length) := by
        rw [hda, fileOf_cons]; simp only [List.length_append, List.length_cons]; omega
      have hn : m.readOffset.toNat = (fileOf pre []).length := by
        rw [hro, UInt64.toNat_ofNat', Nat.mod_eq_of_lt]; omega
      have hdr : data.drop (fileOf pre []).length = x ++ 10 :: fileOf ls tail := by
        rw [hda, List.drop_left', fileOf_cons]
        rfl
      have hp : (fileOf (pre ++ [x]) []).length = (fileOf pre []).length + x.length + 1 := by
        rw [fileOf_append]; simp [fileOf]; omega
      have key : ∀ {hs' : List Bytes} {s1 : PF}, csvLoop num i data fuel hs' { m with readOffset := m.readOffset + UInt64.ofNat x.length + 1 } s1 = (.ok m', s') →
          m' = { m with readOffset := UInt64.ofNat (fileOf (pre ++ x :: ls) []).length } ∧ ∀ l ∈ ls, csvRead l ≠ none := by
        intro hs' s1 hc
        obtain ⟨g1, g2⟩ := ih (pre ++ [x]) (by rw [hda, fileOf_cons, fileOf_append]; simp [fileOf]) (fun y hy => hno y (by simp [hy])) (by
          simp only; rw [hp, hro, UInt64.ofNat_add, UInt64.ofNat_add]; rfl) hc
        refine ⟨?_, g2⟩
        rw [g1, List.append_assoc]; rfl
      unfold csvLoop at h
      rw [if_neg (by rw [hn]; omega), hn, hdr, indexNewline_line (hno x (by simp))] at h
      simp only [List.take_left'] at h
      by_cases hh : headers = []
      · rw [if_pos hh] at h
        cases hr : csvRead x with
        | none => rw [hr] at h; cases h
        | some hs' =>
          rw [hr] at h
          obtain ⟨g1, g2⟩ := key h
          refine ⟨g1, fun l hl => ?_⟩
          rcases List.mem_cons.1 hl with rfl | hl
          · rw [hr]; simp
          · exact g2 l hl
      · rw [if_neg hh] at h
        obtain ⟨_, s1, h1, h⟩ := Act.bind_ok_iff.1 h
        obtain ⟨g1, g2⟩ := key h
        refine ⟨g1, fun l hl => ?_⟩
        rcases List.mem_cons.1 hl with rfl | hl
        · intro hc
          unfold handleCSVLine at h1
          rw [hc] at h1
          cases h1
        · exact g2 l hl

variable {s : PF}

/-- C96, the offset: a successful CSV `Synchronize`, in whatever state the index file is: if the recorded offset was just after some
complete lines `old` of the data file, it is now just after all complete lines; the number of entries has not changed. -/
theorem C96_offset_partial (hi : i.tree = ⟨4096, 0⟩) (h1 : 8192 ≤ s.file.bytes.length) (h2 : s.file.bytes.length < 2 ^ 63)
    (hb : s.file.budget = none) {fm : FileMeta} (hm : (i.metadata s).1 = .ok fm) (hd : data.length < 2 ^ 64) {old new : List Bytes} {tail : Bytes}
    (hl : IsLines data (old ++ new) tail) (hro : fm.readOffset.toNat = (fileOf old []).length) {s' : PF}
    (h : csvSync num i data s = (.ok (), s')) :
    (i.metadata s').1 = .ok { fm with readOffset := UInt64.ofNat (fileOf (old ++ new) []).length } := by
  unfold csvSync at h
  obtain ⟨m, s1, g1, h⟩ := Act.bind_ok_iff.1 h
  rw [g1] at hm
  cases hm
  obtain ⟨hs, s2, g0, h⟩ := Act.bind_ok_iff.1 h
  obtain ⟨m', s3, g2, h⟩ := Act.bind_ok_iff.1 h
  have hgr : GrowF s.file s3.file := by
    have a1 := (Mono.fileMetadata i).grow s
    rw [g1] at a1
    have a0 := (Mono.indexFieldNames i).grow s1
    rw [g0] at a0
    have a2 := (Mono.csvLoop (num := num) (i := i) (data := data) (data.length + 1) hs fm).grow s2
    rw [g2] at a2
    exact (a1.trans a0).trans a2
  have hda : data = fileOf old [] ++ fileOf new tail := by rw [hl.1, fileOf_append]
  obtain ⟨rfl, q2⟩ := csvLoop_ok hl.2.2 hd new old hda (fun x hx => hl.2.1 x (by simp [hx]))
    (UInt64.toNat.inj (by
      rw [hro, UInt64.toNat_ofNat', Nat.mod_eq_of_lt]
      rw [hda, List.length_append] at hd; omega)) g2
  have hat := fileSlot_at (s := s3) (by have := hgr.1; omega) (hgr.2.2 h2)
  generalize hfm' : ({ fm with readOffset := UInt64.ofNat (fileOf (old ++ new) []).length } : FileMeta) = fm' at *
  unfold IndexFile.setMetadata at h
  rw [Act.bind_ok (a := fm'.bytes) (s' := s3) (by rw [FileMeta.marshal_eq]; rfl), hi] at h
  obtain ⟨_, _, q, hq⟩ := metadata_after_set hat (hgr.2.1 hb) (by have := fileMeta_bytes_small fm'; omega) h
  unfold IndexFile.metadata
  rw [hi]
  have hq' : LP.metadata ⟨4096, 0⟩ s' = _ := hq
  rw [Act.bind_ok hq', fileMeta_lift]

/-- C96 is violated by every successful CSV `Synchronize` that indexes new lines, in every state: the number of entries is not the
number of entries before plus the number of new lines (nor plus the number of new rows when the first new line is the header),
unless there is no new line. -/
theorem C96_entries_violated (hi : i.tree = ⟨4096, 0⟩) (h1 : 8192 ≤ s.file.bytes.length) (h2 : s.file.bytes.length < 2 ^ 63)
    (hb : s.file.budget = none) {fm : FileMeta} (hm : (i.metadata s).1 = .ok fm) (hd : data.length < 2 ^ 64) {old new : List Bytes} {tail : Bytes}
    (hl : IsLines data (old ++ new) tail) (hro : fm.readOffset.toNat = (fileOf old []).length) {s' : PF}
    (h : csvSync num i data s = (.ok (), s')) {rows : Nat} (hr : 0 < rows) (hrn : rows ≤ new.length) :
    ∃ fm', (i.metadata s').1 = .ok fm' ∧ fm'.entries ≠ fm.entries + UInt64.ofNat rows := by
  refine ⟨_, C96_offset_partial hi h1 h2 hb hm hd hl hro h, ?_⟩
  intro hc
  have hn : new.length < 2 ^ 64 := by
    have h3 := fileOf_count new tail
    have := congrArg List.length hl.1
    rw [fileOf_append, List.length_append] at this
    omega
  simp only at hc
  have := congrArg UInt64.toNat hc
  rw [UInt64.toNat_add, UInt64.toNat_ofNat'] at this
  have hlt := fm.entries.toNat_lt
  rw [Nat.mod_eq_of_lt (a := rows) (by omega)] at this
  omega

/-- C97 is violated: whatever the state of the index file, if there is a blank line among the complete lines that are not
indexed yet, CSV `Synchronize` does not succeed, whatever follows the blank line. -/
theorem C97_blank_violated {m : FileMeta} (hm : (i.metadata s).1 = .ok m) (hd : data.length < 2 ^ 64) {old new : List Bytes} {tail : Bytes}
    (hl : IsLines data (old ++ new) tail) (hro : m.readOffset.toNat = (fileOf old []).length) {l : Bytes} (hb : l ∈ new) (hbl : BlankLine l) :
    (csvSync num i data s).1 ≠ .ok () := by
  intro hc
  have h : csvSync num i data s = (.ok (), (csvSync num i data s).2) := Prod.ext hc rfl
  unfold csvSync at h
  obtain ⟨m1, s1, g1, h⟩ := Act.bind_ok_iff.1 h
  rw [g1] at hm
  cases hm
  obtain ⟨hs, s2, g0, h⟩ := Act.bind_ok_iff.1 h
  obtain ⟨m', s3, g2, h⟩ := Act.bind_ok_iff.1 h
  have hda : data = fileOf old [] ++ fileOf new tail := by rw [hl.1, fileOf_append]
  exact (csvLoop_ok hl.2.2 hd new old hda (fun x hx => hl.2.1 x (by simp [hx]))
    (UInt64.toNat.inj (by
      rw [hro, UInt64.toNat_ofNat', Nat.mod_eq_of_lt]
      rw [hda, List.length_append] at hd; omega)) g2).2 l hb (csvRead_blank hbl)

end
end Appendable
