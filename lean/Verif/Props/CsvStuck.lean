import Verif.Lemmas.Shrink
import Verif.Lemmas.AlikeCsv
import Verif.Props.CsvLines
import Verif.Props.CsvLine
/-! C99: a CSV `Synchronize` that fails after a good row can never be repeated successfully. -/
namespace Appendable.Spec
open Appendable

/-- A line that is not a CSV record (as encoding/csv reads them): a blank line, or one with misplaced quotes. -/
def NotARecord (line : Bytes) : Prop := (10 : UInt8) ∉ line ∧ ∀ fs, ¬ WritesRecord line fs

/-- `CsvRetried num p i s i' s'`: the index file `i` in state `s` has been synchronized again any number of times, with any data
files that begin with the text `p`, whatever came of it (but no call ran out of space), and closed and opened again any number of
times; it is then `i'` in state `s'`. -/
inductive CsvRetried (num : Bytes → Option UInt64) (p : Bytes) : IndexFile → PF → IndexFile → PF → Prop
  | same {i : IndexFile} {s : PF} : CsvRetried num p i s i s
  | sync {i i' : IndexFile} {s s' s2 : PF} {rest : Bytes} {r : Res Unit} (h : CsvRetried num p i s i' s')
      (hd : (p ++ rest).length < 2 ^ 64) (hr : csvSync num i' (p ++ rest) s' = (r, s2)) (hio : r ≠ .err .io) : CsvRetried num p i s i' s2
  | reopen {i i' i2 : IndexFile} {s s' s2 : PF} {f f' : File} {hs : List Bytes} (h : CsvRetried num p i s i' s') (hb : f.bytes = s'.file.bytes)
      (hu : f.budget = none) (ho : IndexFile.openIndex .csv hs f = (.ok (i2, s2), f')) : CsvRetried num p i s i2 s2

end Appendable.Spec

namespace Appendable
open Spec Tree

theorem Spec.NotARecord.csvRead {l : Bytes} (h : NotARecord l) : csvRead l = none := by
  cases e : Appendable.csvRead l with
  | none => rfl
  | some fs => exact absurd ((C86_record l fs).1 e) (h.2 fs)

theorem Spec.BlankLine.notARecord {l : Bytes} (h : BlankLine l) : NotARecord l := by
  refine ⟨by rcases h with rfl | rfl <;> simp, fun fs hf => ?_⟩
  have := (C86_record l fs).2 hf
  rw [csvRead_blank h] at this
  cases this

/-- A quote in the middle of a field: `x"y`. -/
example : NotARecord [120, 34, 121] := by
  refine ⟨by decide, fun fs hf => ?_⟩
  have := (C86_record _ _).2 hf
  rw [show Appendable.csvRead [120, 34, 121] = none by decide +kernel] at this
  cases this

section
variable {num : Bytes → Option UInt64} {i : IndexFile} {data text : Bytes} {line : MemPtr} {fm : FileMeta} {s : PF}
  {is : List (LP × IndexMeta)} {c : Nat → List Entry} {js : List Job}

/-- A row whose first value is in the index already. -/
theorem csvFieldsLoop_dup (hi : i.tree = fileSlot) (h : JIs data (csvParse num) (fun _ => 0) s fm is c js) {name : Bytes} (hn : name.length ≤ 236)
    {hs vs : List Bytes} {v : Bytes}
    (hin : (⟨⟨line.offset, UInt32.ofNat v.length⟩, csvParse num v⟩ : RV) ∈ (entriesOf js name (csvType num v)).map (·.1)) :
    ∃ q, csvFieldsLoop num i data line (name :: hs) (v :: vs) 0 s = (.err (.msg "key already exists"), s.upd s.file.bytes q) := by
  have hmem : (name, csvType num v) ∈ js.map (fun j => (j.name, j.ty)) := by
    apply Decidable.byContradiction
    intro hc
    rw [entriesOf_none hc] at hin
    simp at hin
  obtain ⟨k0, p0, hk0, hp0⟩ := h.done.at hmem
  obtain ⟨e, he, hek⟩ := List.mem_map.1 hin
  unfold csvFieldsLoop
  rw [UInt64.add_zero]
  rcases h.idx.findOrCreate hi hn (csvType num v) (smallWidths_zero (csvType num v)) with ⟨k, p, m, q, e1, e2, e3, e4⟩ | ⟨p, s', e1, _⟩ | ⟨s', e1, _⟩
  · obtain ⟨d1, d2⟩ := h.done.each k p m e1
    have h' : IndexIs data (csvParse num) (fun _ => 0) (s.upd s.file.bytes q) fm is c := h.idx.upd q
    rw [e2, e3] at d2 d1
    have hko : KeyOK ⟨data, csvParse num, 0⟩ ⟨⟨line.offset, UInt32.ofNat v.length⟩, csvParse num v⟩ := by
      have := h.keysOK name (csvType num v) e he
      rw [hek] at this
      exact this
    rw [Act.bind_ok e4]
    rcases h'.insert e1 line hko with ⟨s1, _, g2, _⟩ | ⟨q2, g1, _⟩ | ⟨s1, _, g2, _⟩
    · exact absurd hek (g2 e (d2.mem_iff.2 he))
    · exact ⟨q2, Act.bind_err g1⟩
    · exact absurd hek (g2 e (d2.mem_iff.2 he))
  · exact absurd ⟨rfl, rfl⟩ (e1 _ (List.mem_of_getElem? hk0))
  · exact absurd ⟨rfl, rfl⟩ (e1 _ (List.mem_of_getElem? hk0))

/-- The loop with a first line that is in the index already. -/
theorem csvLoop_dup (hi : i.tree = fileSlot) {old : List Bytes} {rest name v : Bytes} {hs vs : List Bytes}
    (hda : data = fileOf old [] ++ (text ++ 10 :: rest)) (hd : data.length < 2 ^ 64) (hno : (10 : UInt8) ∉ text) {m : FileMeta}
    (hro : m.readOffset = UInt64.ofNat (fileOf old []).length) (h : JIs data (csvParse num) (fun _ => 0) s fm is c js) (hn : name.length ≤ 236)
    (hx : csvRead text = some (v :: vs))
    (hin : (⟨⟨UInt64.ofNat (fileOf old []).length, UInt32.ofNat v.length⟩, csvParse num v⟩ : RV) ∈ (entriesOf js name (csvType num v)).map (·.1)) (fuel : Nat) :
    ∃ q, csvLoop num i data (fuel + 1) (name :: hs) m s = (.err (.msg "key already exists"), s.upd s.file.bytes q) := by
  have hlen : data.length = (fileOf old []).length + (text.length + 1 + rest.length) := by
    rw [hda]; simp only [List.length_append, List.length_cons]; omega
  have hnn : m.readOffset.toNat = (fileOf old []).length := by
    rw [hro, UInt64.toNat_ofNat', Nat.mod_eq_of_lt]; omega
  have hdr : data.drop (fileOf old []).length = text ++ 10 :: rest := by rw [hda, List.drop_left' rfl]
  obtain ⟨q, hq⟩ := csvFieldsLoop_dup (line := ⟨m.readOffset, UInt32.ofNat text.length⟩) (hs := hs) (vs := vs) hi h hn (by rw [hro]; exact hin)
  refine ⟨q, ?_⟩
  unfold csvLoop
  rw [if_neg (by omega), hnn, hdr, indexNewline_line hno]
  simp only [List.take_left', if_neg (show name :: hs ≠ [] by simp)]
  refine Act.bind_err ?_
  unfold handleCSVLine
  rw [hx]
  exact hq

/-- The loop over good rows followed by a blank line. -/
theorem csvLoop_bad (hi : i.tree = fileSlot) (hd : data.length < 2 ^ 64) {bad rest : Bytes} (hb : NotARecord bad) {headers : List Bytes}
    (hhe : headers ≠ []) (hn : ∀ h ∈ headers, h.length ≤ 236) (rows : List (Bytes × List Bytes)) (pre : List Bytes)
    (hda : data = fileOf pre [] ++ fileOf (rows.map (·.1)) (bad ++ 10 :: rest)) (hno : ∀ x ∈ rows, (10 : UInt8) ∉ x.1)
    (hx : ∀ r ∈ rows, PlainRow r.1 r.2 ∧ r.1.length + 1 < 2 ^ 32 ∧ r.2.length ≤ headers.length)
    {fuel : Nat} (hfu : rows.length < fuel) {m : FileMeta} (hro : m.readOffset = UInt64.ofNat (fileOf pre []).length)
    (h : JIs data (csvParse num) (fun _ => 0) s fm is c js)
    (hdis : Distinct (js ++ rowsJobs num headers (fileOf pre []).length rows)) :
    ∃ s', (csvLoop num i data fuel headers m s = (.err (.msg "failed to read CSV record"), s') ∧ ∃ is' c',
        JIs data (csvParse num) (fun _ => 0) s' fm is' c' (js ++ rowsJobs num headers (fileOf pre []).length rows)) ∨
      csvLoop num i data fuel headers m s = (.err .io, s') := by
  induction rows generalizing pre fuel m s is c js with
  | nil =>
    obtain ⟨fuel, rfl⟩ : ∃ k, fuel = k + 1 := ⟨fuel - 1, by simp at hfu; omega⟩
    have hlen : data.length = (fileOf pre []).length + (bad.length + 1 + rest.length) := by
      rw [hda, List.length_append]; simp [fileOf]; omega
    have hn : m.readOffset.toNat = (fileOf pre []).length := by
      rw [hro, UInt64.toNat_ofNat', Nat.mod_eq_of_lt]; omega
    refine ⟨s, .inl ⟨?_, is, c, by simpa [rowsJobs] using h⟩⟩
    unfold csvLoop
    have hdr : data.drop (fileOf pre []).length = bad ++ 10 :: rest := by
      rw [hda, List.drop_left' rfl]; simp [fileOf]
    rw [if_neg (by omega), hn, hdr, indexNewline_line hb.1]
    simp only [List.take_left', if_neg hhe]
    refine Act.bind_err ?_
    unfold handleCSVLine
    rw [hb.csvRead]
    rfl
  | cons x rows ih =>
    obtain ⟨fuel, rfl⟩ : ∃ k, fuel = k + 1 := ⟨fuel - 1, by simp at hfu; omega⟩
    simp only [List.length_cons] at hfu
    have hlen : data.length = (fileOf pre []).length + (x.1.length + 1 + (fileOf (rows.map (·.1)) (bad ++ 10 :: rest)).length) := by
      rw [hda, List.map_cons, fileOf_cons]; simp only [List.length_append, List.length_cons]; omega
    have hrn : m.readOffset.toNat = (fileOf pre []).length := by
      rw [hro, UInt64.toNat_ofNat', Nat.mod_eq_of_lt]; omega
    have hdr : data.drop (fileOf pre []).length = x.1 ++ 10 :: fileOf (rows.map (·.1)) (bad ++ 10 :: rest) := by
      rw [hda, List.drop_left', List.map_cons, fileOf_cons]
      rfl
    obtain ⟨hx1, hx2, hx3⟩ := hx x (by simp)
    have hat : TextAt data (fileOf pre []).length (joinCommas x.2) := by
      have h1 : TextAt data (fileOf pre []).length x.1 := ⟨_, hdr, by omega⟩
      rcases hx1.1 with he | he
      · rw [← he]; exact h1
      · rw [he] at h1; exact h1.left
    have hjl := plainRow_len hx1
    have hjobs : js ++ rowsJobs num headers (fileOf pre []).length (x :: rows) =
        js ++ rowJobs num ⟨m.readOffset, UInt32.ofNat x.1.length⟩ (fileOf pre []).length headers x.2 ++
          rowsJobs num headers ((fileOf pre []).length + x.1.length + 1) rows := by
      rw [hro, List.append_assoc]; rfl
    rw [hjobs] at hdis ⊢
    have hrow := rowSteps (i := i) (num := num) hi hd hn hx3 (line := ⟨m.readOffset, UInt32.ofNat x.1.length⟩) (cum := 0) (pos := (fileOf pre []).length) (by rw [hro]; simp) hat (by omega) h
    have hprog : csvLoop num i data (fuel + 1) headers m s = ((csvFieldsLoop num i data ⟨m.readOffset, UInt32.ofNat x.1.length⟩ headers x.2 0 : Act PF Unit) >>= fun _ =>
        csvLoop num i data fuel headers { m with readOffset := m.readOffset + UInt64.ofNat x.1.length + 1 }) s := by
      rw [csvLoop, if_neg (by rw [hrn]; omega), hrn, hdr, indexNewline_line (hno x (by simp))]
      simp only [List.take_left', if_neg hhe]
      unfold handleCSVLine
      rw [csvRead_plain hx1]
    rw [hprog]
    rcases hrow with ⟨a, s1, is', c', e1, e2, _⟩ | ⟨s1, e1, e2⟩ | ⟨s1, e1, e2⟩
    · rw [Act.bind_ok e1]
      have hp : (fileOf (pre ++ [x.1]) []).length = (fileOf pre []).length + x.1.length + 1 := by
        rw [fileOf_append]; simp [fileOf]; omega
      have := ih (pre ++ [x.1]) (m := { m with readOffset := m.readOffset + UInt64.ofNat x.1.length + 1 }) (by
          rw [hda, List.map_cons, fileOf_cons, fileOf_append]; simp [fileOf]) (fun y hy => hno y (by simp [hy])) (fun y hy => hx y (by simp [hy]))
        (fuel := fuel) (by omega) (by
          rw [hp, hro, UInt64.ofNat_add, UInt64.ofNat_add]; rfl) e2 (by rw [hp]; exact hdis)
      rw [hp] at this
      exact this
    · exact absurd hdis.left e2
    · exact ⟨s1, .inr (Act.bind_err e1)⟩

/-- The keys of a row lie in the data file. -/
theorem rowJobs_keyOK {pos : Nat} {headers vs : List Bytes} (hd : data.length < 2 ^ 64) (hat : TextAt data pos (joinCommas vs)) (hlen : (joinCommas vs).length + 1 < 2 ^ 32) :
    ∀ j ∈ rowJobs num line pos headers vs, ∀ e ∈ j.entries, KeyOK ⟨data, csvParse num, 0⟩ e.1 := by
  induction vs generalizing headers pos with
  | nil => cases headers <;> simp [rowJobs]
  | cons v vs ih =>
    cases headers with
    | nil => simp [rowJobs]
    | cons h headers =>
      have hv : TextAt data pos v ∧ v.length + 1 < 2 ^ 32 ∧ (vs ≠ [] → TextAt data (pos + v.length + 1) (joinCommas vs) ∧ (joinCommas vs).length + 1 < 2 ^ 32) := by
        cases vs with
        | nil => exact ⟨hat, hlen, fun h => absurd rfl h⟩
        | cons w ws =>
          simp only [joinCommas, List.length_append, List.length_cons] at hat hlen ⊢
          refine ⟨hat.left, by omega, fun _ => ⟨?_, by omega⟩⟩
          have := hat.right
          exact TextAt.right (t := [44]) this
      obtain ⟨hv1, hv2, hv3⟩ := hv
      have hvl := hv1.len
      intro j hj e he
      unfold rowJobs at hj
      rcases List.mem_cons.1 hj with rfl | hj
      · simp only [List.mem_singleton] at he
        subst he
        unfold KeyOK
        rw [if_pos rfl]
        have e1 : (UInt64.ofNat pos).toNat = pos := by rw [UInt64.toNat_ofNat', Nat.mod_eq_of_lt]; omega
        have e2 : (UInt32.ofNat v.length).toNat = v.length := by rw [UInt32.toNat_ofNat', Nat.mod_eq_of_lt]; omega
        simp only [e1, e2]
        exact ⟨hvl, by rw [hv1.take, csvParse_eq]⟩
      · by_cases hvs : vs = []
        · subst hvs
          have e1 : rowJobs num line (pos + v.length + 1) headers [] = [] := by cases headers <;> rfl
          rw [e1] at hj; cases hj
        · exact ih (hv3 hvs).1 (hv3 hvs).2 j hj e he

theorem rowsJobs_keyOK {tail : Bytes} (hd : data.length < 2 ^ 64) {headers : List Bytes} (rows : List (Bytes × List Bytes)) (pre : List Bytes)
    (hda : data = fileOf pre [] ++ fileOf (rows.map (·.1)) tail)
    (hx : ∀ r ∈ rows, PlainRow r.1 r.2 ∧ r.1.length + 1 < 2 ^ 32 ∧ r.2.length ≤ headers.length) :
    ∀ j ∈ rowsJobs num headers (fileOf pre []).length rows, ∀ e ∈ j.entries, KeyOK ⟨data, csvParse num, 0⟩ e.1 := by
  induction rows generalizing pre with
  | nil => simp [rowsJobs]
  | cons x rows ih =>
    obtain ⟨text, fs⟩ := x
    have hdr : data.drop (fileOf pre []).length = text ++ 10 :: fileOf (rows.map (·.1)) tail := by
      rw [hda, List.drop_left', List.map_cons, fileOf_cons]
      rfl
    have hlen : data.length = (fileOf pre []).length + (text.length + 1 + (fileOf (rows.map (·.1)) tail).length) := by
      rw [hda, List.map_cons, fileOf_cons]; simp only [List.length_append, List.length_cons]; omega
    obtain ⟨hx1, hx2, hx3⟩ := hx (text, fs) (by simp)
    simp only at hx1 hx2 hx3
    have hat : TextAt data (fileOf pre []).length (joinCommas fs) := by
      have h1 : TextAt data (fileOf pre []).length text := ⟨_, hdr, by omega⟩
      rcases hx1.1 with he | he
      · rw [← he]; exact h1
      · rw [he] at h1; exact h1.left
    have hjl := plainRow_len hx1
    intro j hj e he
    simp only [rowsJobs, List.mem_append] at hj
    rcases hj with hj | hj
    · exact rowJobs_keyOK hd hat (by omega) j hj e he
    · have hp : (fileOf (pre ++ [text]) []).length = (fileOf pre []).length + text.length + 1 := by
        rw [fileOf_append]; simp [fileOf]; omega
      rw [← hp] at hj
      exact ih (pre ++ [text]) (by rw [hda, List.map_cons, fileOf_cons, fileOf_append]; simp [fileOf]) (fun y hy => hx y (by simp [hy])) j hj e he

theorem mem_entriesOf {n : Bytes} {t : UInt8} {e : Entry} (h : e ∈ entriesOf js n t) : ∃ j ∈ js, e ∈ j.entries := by
  unfold entriesOf at h
  obtain ⟨j, hj, he⟩ := List.mem_flatMap.1 h
  split at he
  · exact ⟨j, hj, he⟩
  · cases he

theorem firstNames {js ks : List Job} {headers : List Bytes} (h : firstOccurrences (js.map (·.name)) = headers) (hk : ∀ x ∈ ks.map (·.name), x ∈ headers) :
    firstOccurrences ((js ++ ks).map (·.name)) = headers := by
  rw [List.map_append, firstOccurrences_append, h, List.filter_eq_nil_iff.2, List.append_nil]
  intro b hb
  simp only [decide_not, Bool.not_eq_true', decide_eq_false_iff_not]
  refine fun hc => hc (mem_firstOccurrences.1 ?_)
  rw [h]
  exact hk b (mem_firstOccurrences.1 hb)

/-- The first value of a row is among the entries of its jobs. -/
theorem first_cell {off : Nat} {h0 v0 : Bytes} {hs vs : List Bytes} :
    (⟨⟨UInt64.ofNat off, UInt32.ofNat v0.length⟩, csvParse num v0⟩ : RV) ∈
      (entriesOf (rowJobs num line off (h0 :: hs) (v0 :: vs)) h0 (csvType num v0)).map (·.1) := by
  refine List.mem_map.2 ⟨(⟨⟨UInt64.ofNat off, UInt32.ofNat v0.length⟩, valueBytes (cell num v0)⟩, line), ?_, by rw [csvParse_eq]⟩
  unfold entriesOf rowJobs
  refine List.mem_flatMap.2 ⟨_, List.mem_cons_self .., ?_⟩
  rw [if_pos ⟨rfl, (csvType_eq num v0).symm⟩]
  exact List.mem_singleton.2 rfl

theorem entries_left {ks : List Job} {n : Bytes} {t : UInt8} {k : RV} (h : k ∈ (entriesOf js n t).map (·.1)) : k ∈ (entriesOf (js ++ ks) n t).map (·.1) := by
  rw [entriesOf_append, List.map_append]; exact List.mem_append_left _ h

theorem entries_right {ks : List Job} {n : Bytes} {t : UInt8} {k : RV} (h : k ∈ (entriesOf ks n t).map (·.1)) : k ∈ (entriesOf (js ++ ks) n t).map (·.1) := by
  rw [entriesOf_append, List.map_append]; exact List.mem_append_right _ h

/-- `Synchronize` with a first new line that is in the index already. -/
theorem csvSync_dup (hi : i.tree = fileSlot) {old : List Bytes} {rest name v : Bytes} {hs vs : List Bytes}
    (hda : data = fileOf old [] ++ (text ++ 10 :: rest)) (hd : data.length < 2 ^ 64) (hno : (10 : UInt8) ∉ text)
    (hro : fm.readOffset = UInt64.ofNat (fileOf old []).length) (h : JIs data (csvParse num) (fun _ => 0) s fm is c js) (hn : name.length ≤ 236)
    (hnames : firstOccurrences (js.map (·.name)) = name :: hs) (hx : csvRead text = some (v :: vs))
    (hin : (⟨⟨UInt64.ofNat (fileOf old []).length, UInt32.ofNat v.length⟩, csvParse num v⟩ : RV) ∈ (entriesOf js name (csvType num v)).map (·.1)) :
    ∃ q, csvSync num i data s = (.err (.msg "key already exists"), s.upd s.file.bytes q) := by
  obtain ⟨q, hq⟩ := h.idx.metadata hi
  have h' : JIs data (csvParse num) (fun _ => 0) (s.upd s.file.bytes q) fm is c js := ⟨h.idx.upd q, h.done⟩
  obtain ⟨q2, hq2⟩ := h'.csvNames hi
  have h2 : JIs data (csvParse num) (fun _ => 0) ((s.upd s.file.bytes q).upd (s.upd s.file.bytes q).file.bytes q2) fm is c js := ⟨h'.idx.upd q2, h'.done⟩
  obtain ⟨q3, hq3⟩ := csvLoop_dup (hs := hs) hi hda hd hno hro h2 hn hx hin data.length
  refine ⟨q3, ?_⟩
  unfold csvSync
  rw [Act.bind_ok hq, Act.bind_ok hq2, hnames]
  exact Act.bind_err hq3

/-- The first repetition after a failed first call: the header line is taken for a row, and the first row is in the index already. -/
theorem csvSync_header (hi : i.tree = fileSlot) {hline : Bytes} {headers : List Bytes} {rows : List (Bytes × List Bytes)} {rest : Bytes}
    (ht : PlainTable hline headers rows) (hne : rows ≠ []) (hhl : hline.length + 1 < 2 ^ 32)
    (hno : ∀ l ∈ hline :: rows.map (·.1), (10 : UInt8) ∉ l)
    (hda : data = fileOf (hline :: rows.map (·.1)) rest) (hd : data.length < 2 ^ 64) (hro : fm.readOffset = 0)
    (h : JIs data (csvParse num) (fun _ => 0) s fm is c (csvJobs num hline headers rows)) :
    ∃ s', (csvSync num i data s = (.err (.msg "key already exists"), s') ∧ ∃ is' c', JIs data (csvParse num) (fun _ => 0) s' fm is' c'
        (csvJobs num hline headers rows ++ rowJobs num ⟨0, UInt32.ofNat hline.length⟩ 0 headers headers)) ∨
      csvSync num i data s = (.err .io, s') := by
  obtain ⟨q, hq⟩ := h.idx.metadata hi
  have h' : JIs data (csvParse num) (fun _ => 0) (s.upd s.file.bytes q) fm is c (csvJobs num hline headers rows) := ⟨h.idx.upd q, h.done⟩
  obtain ⟨q2, hq2⟩ := h'.csvNames hi
  have h2 : JIs data (csvParse num) (fun _ => 0) ((s.upd s.file.bytes q).upd (s.upd s.file.bytes q).file.bytes q2) fm is c (csvJobs num hline headers rows) :=
    ⟨h'.idx.upd q2, h'.done⟩
  have hnames : firstOccurrences ((csvJobs num hline headers rows).map (·.name)) = headers := rowsJobs_headers num ht.distinct _ hne ht.first
  rw [hnames] at hq2
  generalize ((s.upd s.file.bytes q).upd (s.upd s.file.bytes q).file.bytes q2) = s2 at h2 hq2
  have hhe := plainRow_ne ht.header
  have hlen : data.length = hline.length + 1 + (fileOf (rows.map (·.1)) rest).length := by
    rw [hda, fileOf_cons]; simp only [List.length_append, List.length_cons]; omega
  have hat : TextAt data 0 (joinCommas headers) := by
    have h1 : TextAt data 0 hline := ⟨10 :: fileOf (rows.map (·.1)) rest, by rw [List.drop_zero, hda, fileOf_cons], Nat.zero_le _⟩
    rcases ht.header.1 with he | he
    · rw [← he]; exact h1
    · rw [he] at h1; exact h1.left
  have hjl := plainRow_len ht.header
  have hrow := rowSteps (i := i) (num := num) hi hd ht.names (Nat.le_refl _) (line := ⟨0, UInt32.ofNat hline.length⟩) (cum := 0) (pos := 0) rfl hat (by omega) h2
  have hro0 : fm.readOffset.toNat = 0 := by rw [hro]; rfl
  have hprog : csvLoop num i data (data.length + 1) headers fm s2 = ((csvFieldsLoop num i data ⟨0, UInt32.ofNat hline.length⟩ headers headers 0 : Act PF Unit) >>= fun _ =>
      csvLoop num i data data.length headers { fm with readOffset := fm.readOffset + UInt64.ofNat hline.length + 1 }) s2 := by
    rw [csvLoop, if_neg (by rw [hro0]; omega), hro0, List.drop_zero, show indexNewline data = some hline.length by
      rw [hda, fileOf_cons]; exact indexNewline_line (hno hline (by simp)) _]
    simp only [if_neg hhe]
    rw [show data.take hline.length = hline by rw [hda, fileOf_cons, List.take_left' rfl], hro]
    unfold handleCSVLine
    rw [csvRead_plain ht.header]
  have hsync : csvSync num i data s = (csvLoop num i data (data.length + 1) headers fm >>= fun m' => i.setMetadata m') s2 := by
    unfold csvSync
    rw [Act.bind_ok hq, Act.bind_ok hq2]
  rw [hsync]
  rcases hrow with ⟨a, s1, is', c', e1, e2, _⟩ | ⟨s1, e1, e2⟩ | ⟨s1, e1, e2⟩
  · -- the first row
    obtain ⟨r, rows', rfl⟩ := List.exists_cons_of_ne_nil hne
    obtain ⟨text, fs⟩ := r
    obtain ⟨h0, hs, rfl⟩ := List.exists_cons_of_ne_nil hhe
    have hr := ht.row (text, fs) (by simp)
    obtain ⟨v, vs, rfl⟩ := List.exists_cons_of_ne_nil (plainRow_ne hr.1)
    have hp1 : (fileOf [hline] []).length = hline.length + 1 := by simp [fileOf]
    obtain ⟨q3, hq3⟩ := csvLoop_dup (num := num) (i := i) (old := [hline]) (text := text) (rest := fileOf (rows'.map (·.1)) rest) (m := { fm with readOffset := fm.readOffset + UInt64.ofNat hline.length + 1 })
      (hs := hs) hi (by rw [hda, List.map_cons, fileOf_cons, fileOf_cons]; simp [fileOf]) hd (hno text (by simp))
      (by rw [hp1, UInt64.ofNat_add, hro]; simp) e2 (ht.names h0 (by simp)) (csvRead_plain hr.1) (by
        refine entries_left ?_
        rw [hp1]
        unfold csvJobs rowsJobs
        exact entries_left first_cell) (data.length - 1)
    rw [show data.length - 1 + 1 = data.length by omega] at hq3
    refine ⟨s1.upd s1.file.bytes q3, .inl ⟨?_, is', c', e2.idx.upd q3, e2.done⟩⟩
    refine Act.bind_err ?_
    rw [hprog, Act.bind_ok e1]
    exact hq3
  · refine absurd (distinct_of_offs ?_) e2
    have hjr := rowJobs_offs num ⟨0, UInt32.ofNat hline.length⟩ 0 headers headers (by omega)
    have hfl : (fileOf (rows.map (·.1)) []).length ≤ (fileOf (rows.map (·.1)) rest).length := by rw [fileOf_tail _ rest, List.length_append]; omega
    have hrr := rowsJobs_offs num headers (hline.length + 1) rows (fun r hr => (ht.row r hr).1) (by omega)
    have : keyOffs (csvJobs num hline headers rows ++ rowJobs num ⟨0, UInt32.ofNat hline.length⟩ 0 headers headers) =
        keyOffs (csvJobs num hline headers rows) ++ keyOffs (rowJobs num ⟨0, UInt32.ofNat hline.length⟩ 0 headers headers) := by
      simp [keyOffs]
    rw [this]
    refine List.nodup_append.2 ⟨hrr.1.imp (fun h => by omega), hjr.1.imp (fun h => by omega), ?_⟩
    intro a ha b hb
    have := hrr.2 a ha
    have := hjr.2 b hb
    omega
  · exact ⟨s1, .inr (Act.bind_err (by rw [hprog, Act.bind_err e1]))⟩

/-! ### Repetitions -/

/-- The state that the failed call leaves and the repetitions keep: the first value of the first new line is in the index, or the
failed call was the first one and its rows are in the index. -/
def CsvStuckAt (num : Bytes → Option UInt64) (p hline : Bytes) (headers : List Bytes) (rows : List (Bytes × List Bytes)) (ls : List Bytes) (s : PF) : Prop :=
  ∃ is c js, JIs p (csvParse num) (fun _ => 0) s (csvMeta ls) is c js ∧ firstOccurrences (js.map (·.name)) = headers ∧
    ((∃ h0 hs text v vs rest, headers = h0 :: hs ∧ p = fileOf ls [] ++ (text ++ 10 :: rest) ∧ (10 : UInt8) ∉ text ∧ csvRead text = some (v :: vs) ∧
      (⟨⟨UInt64.ofNat (fileOf ls []).length, UInt32.ofNat v.length⟩, csvParse num v⟩ : RV) ∈ (entriesOf js h0 (csvType num v)).map (·.1)) ∨
    (ls = [] ∧ js = csvJobs num hline headers rows))

theorem CsvStuckAt.step {p hline : Bytes} {headers ls : List Bytes} {rows : List (Bytes × List Bytes)} (h : CsvStuckAt num p hline headers rows ls s)
    (hi : i.tree = fileSlot) (ht : PlainTable hline headers rows) (hne : rows ≠ []) (hhl : hline.length + 1 < 2 ^ 32)
    (hp : IsLines p (hline :: rows.map (·.1)) []) {rest : Bytes} (hd : (p ++ rest).length < 2 ^ 64) :
    ∃ s', (csvSync num i (p ++ rest) s = (.err (.msg "key already exists"), s') ∧ CsvStuckAt num p hline headers rows ls s') ∨
      csvSync num i (p ++ rest) s = (.err .io, s') := by
  obtain ⟨is, c, js, hj, hnames, hst⟩ := h
  have hdp : p.length < 2 ^ 64 := by rw [List.length_append] at hd; omega
  rcases hst with ⟨h0, hs, text, v, vs, rest0, hhe, hpt, hno, hx, hin⟩ | ⟨rfl, rfl⟩
  · obtain ⟨q, hq⟩ := csvSync_dup (i := i) (old := ls) (rest := rest0 ++ rest) hi (by rw [hpt]; simp) hd hno rfl (hj.grow rest) (ht.names h0 (by rw [hhe]; simp))
      (hnames.trans hhe) hx hin
    exact ⟨_, .inl ⟨hq, is, c, js, ⟨hj.idx.upd q, hj.done⟩, hnames, .inl ⟨h0, hs, text, v, vs, rest0, hhe, hpt, hno, hx, hin⟩⟩⟩
  · obtain ⟨s', hs'⟩ := csvSync_header (i := i) (rest := rest) hi ht hne hhl hp.2.1 (by rw [hp.1]; exact (fileOf_tail _ rest).symm) hd rfl (hj.grow rest)
    refine ⟨s', hs'.imp (fun h => ⟨h.1, ?_⟩) id⟩
    obtain ⟨_, is', c', hj'⟩ := h
    have hp0 : p = hline ++ 10 :: fileOf (rows.map (·.1)) [] := by rw [hp.1, fileOf_cons]
    refine ⟨is', c', _, hj'.move (data' := p) ?_, firstNames hnames ?_, .inl ?_⟩
    · intro n t e he
      rw [entriesOf_append] at he
      rcases List.mem_append.1 he with he | he
      · exact hj.keysOK n t e he
      · obtain ⟨j, hj1, he⟩ := mem_entriesOf he
        have hat : TextAt p 0 (joinCommas headers) := by
          have h1 : TextAt p 0 hline := ⟨_, by rw [List.drop_zero]; exact hp0, Nat.zero_le _⟩
          rcases ht.header.1 with he | he
          · rw [← he]; exact h1
          · rw [he] at h1; exact h1.left
        have := plainRow_len ht.header
        exact rowJobs_keyOK hdp hat (by omega) j hj1 e he
    · rw [rowJobs_names, List.take_length]; exact fun x hx => hx
    · obtain ⟨h0, hs, hhe⟩ := List.exists_cons_of_ne_nil (plainRow_ne ht.header)
      refine ⟨h0, hs, hline, h0, hs, _, hhe, by rw [hp0]; rfl, hp.2.1 hline (by simp), by rw [csvRead_plain ht.header, hhe], ?_⟩
      rw [hhe]
      exact entries_right first_cell

/-- C99 is violated whenever a line that is no CSV record (a blank line, or one with misplaced quotes) follows, in one call, good rows: that call fails, and from then on no call succeeds, whatever
follows the good rows in the data file, however often it is tried and even after the index has been closed and opened again. -/
theorem C99_stuck_violated {hline : Bytes} {headers ls seen : List Bytes} {rows : List (Bytes × List Bytes)} (hr : CsvRun num data seen i s)
    (hs : ∀ d ∈ seen, ∀ l t, ¬ IsLines d [l] t) (ht : PlainTable hline headers rows) (hhl : hline.length + 1 < 2 ^ 32)
    {tail p more : Bytes} (hl : IsLines data ls tail) (hp : IsLines p (hline :: rows.map (·.1)) []) (hpd : p = data ++ more)
    (hne : rows ≠ []) (hnew : ls.length ≤ rows.length) {bad rest : Bytes} (hb : NotARecord bad) (hd : (p ++ (bad ++ 10 :: rest)).length < 2 ^ 64)
    (hio : (csvSync num i (p ++ (bad ++ 10 :: rest)) s).1 ≠ .err .io) :
    ∃ s1, csvSync num i (p ++ (bad ++ 10 :: rest)) s = (.err (.msg "failed to read CSV record"), s1) ∧
      ∀ i' s', CsvRetried num p i s1 i' s' → ∀ rest', (p ++ rest').length < 2 ^ 64 → (csvSync num i' (p ++ rest') s').1 ≠ .ok () := by
  have hdp : p.length < 2 ^ 64 := by rw [List.length_append] at hd; omega
  have hdd : data.length < 2 ^ 64 := by rw [hpd, List.length_append] at hdp; omega
  rw [hpd] at hp
  obtain ⟨ks, hks, hkt⟩ := lines_grow hl hp
  rw [← hpd] at hp
  have hpre : ls <+: hline :: rows.map (·.1) := by rw [hks]; exact List.prefix_append _ _
  obtain ⟨hi, hn1, is, c, hj⟩ := csvRun_is hr hdd ht hl hpre hs
  obtain ⟨D, hD⟩ : ∃ D, D = p ++ (bad ++ 10 :: rest) := ⟨_, rfl⟩
  have hDd : D = data ++ (more ++ (bad ++ 10 :: rest)) := by rw [hD, hpd, List.append_assoc]
  rw [← hD] at hd hio ⊢
  have hDl : D = fileOf (hline :: rows.map (·.1)) (bad ++ 10 :: rest) := by rw [hD, hp.1]; exact (fileOf_tail _ _).symm
  have hjD : CsvAt num hline headers rows D s is c ls := by rw [hDd]; exact JIs.grow hj _
  have hjp : CsvAt num hline headers rows p s is c ls := by rw [hpd]; exact JIs.grow hj _
  -- the failed call
  suffices hfail : ∃ s1, csvSync num i D s = (.err (.msg "failed to read CSV record"), s1) ∧ CsvStuckAt num p hline headers rows ls s1 by
    obtain ⟨s1, h1, h2⟩ := hfail
    refine ⟨s1, h1, ?_⟩
    have hinv : ∀ {i0 i' : IndexFile} {u s' : PF}, CsvRetried num p i0 u i' s' → i0.tree = fileSlot → u = s1 →
        i'.tree = fileSlot ∧ CsvStuckAt num p hline headers rows ls s' := by
      intro i0 i' u s' hre
      induction hre with
      | same => rintro h0 rfl; exact ⟨h0, h2⟩
      | sync h hd' hr hio ih =>
        intro g1 g2
        obtain ⟨k1, k2⟩ := ih g1 g2
        refine ⟨k1, ?_⟩
        obtain ⟨s3, ⟨e1, e2⟩ | e1⟩ := k2.step k1 ht hne hhl hp hd'
        · rw [e1] at hr; cases hr; exact e2
        · rw [e1] at hr; cases hr; exact absurd rfl hio
      | reopen h hb' hu' ho ih =>
        intro g1 g2
        obtain ⟨k1, is', c', js', k2, k3⟩ := ih g1 g2
        obtain ⟨r1, _⟩ := k2.idx.reopen hb' hu' .csv _
        obtain ⟨s3, e1, e2, _⟩ := r1 rfl rfl
        rw [e1] at ho; cases ho
        exact ⟨rfl, is', c', js', ⟨e2, k2.done⟩, k3⟩
    intro i' s' hre rest' hr'
    obtain ⟨k1, k2⟩ := hinv hre hi rfl
    obtain ⟨s3, ⟨e1, _⟩ | e1⟩ := k2.step k1 ht hne hhl hp hr' <;> rw [e1] <;> simp
  obtain ⟨q, hq⟩ := hjD.idx.metadata hi
  have h' : CsvAt num hline headers rows D (s.upd s.file.bytes q) is c ls := ⟨hjD.idx.upd q, hjD.done⟩
  obtain ⟨q2, hq2⟩ := h'.csvNames hi
  have h2 : CsvAt num hline headers rows D ((s.upd s.file.bytes q).upd (s.upd s.file.bytes q).file.bytes q2) is c ls := ⟨h'.idx.upd q2, h'.done⟩
  generalize ((s.upd s.file.bytes q).upd (s.upd s.file.bytes q).file.bytes q2) = s2 at h2 hq2
  have hhe := plainRow_ne ht.header
  have hnoR : ∀ x ∈ rows, (10 : UInt8) ∉ x.1 := fun x hx => hp.2.1 x.1 (List.mem_cons_of_mem _ (List.mem_map.2 ⟨x, hx, rfl⟩))
  have hcount := fileOf_count (hline :: rows.map (·.1)) (bad ++ 10 :: rest)
  rw [← hDl] at hcount
  simp only [List.length_cons, List.length_map] at hcount
  have hpl : p.length = hline.length + 1 + (fileOf (rows.map (·.1)) []).length := by
    rw [hp.1, fileOf_cons]; simp only [List.length_append, List.length_cons]; omega
  have hdistinct : Distinct (csvJobs num hline headers rows) := by
    refine distinct_of_offs ?_
    have hrr := rowsJobs_offs num headers (hline.length + 1) rows (fun r hr => (ht.row r hr).1) (by omega)
    exact hrr.1.imp (fun h => by omega)
  have hallnames : firstOccurrences ((csvJobs num hline headers rows).map (·.name)) = headers := rowsJobs_headers num ht.distinct _ hne ht.first
  have hkeys : ∀ j ∈ csvJobs num hline headers rows, ∀ e ∈ j.entries, KeyOK ⟨p, csvParse num, 0⟩ e.1 := by
    have := rowsJobs_keyOK (num := num) (tail := []) hdp (headers := headers) rows [hline] (by rw [hp.1, fileOf_cons]; simp [fileOf]) ht.row
    rw [show (fileOf [hline] []).length = hline.length + 1 by simp [fileOf]] at this
    exact this
  -- what remains: the loop handles the rest of the rows and stops
  suffices hloop : ∃ s1, csvSync num i D s = (.err (.msg "failed to read CSV record"), s1) ∧ ∃ is' c',
      JIs D (csvParse num) (fun _ => 0) s1 (csvMeta ls) is' c' (csvJobs num hline headers rows) by
    obtain ⟨s1, e1, is', c', e2⟩ := hloop
    refine ⟨s1, e1, is', c', _, e2.move (data' := p) (fun n t e he => ?_), hallnames, ?_⟩
    · obtain ⟨j, hj1, he⟩ := mem_entriesOf he
      exact hkeys j hj1 e he
    · cases ls with
      | nil => exact .inr ⟨rfl, rfl⟩
      | cons k l =>
        left
        simp only [List.cons_append, List.cons.injEq] at hks
        obtain ⟨rfl, hks⟩ := hks
        obtain ⟨ra, rb, hab, hra, hrb⟩ := map_fst_append hks
        obtain ⟨h0, hs0, rfl⟩ := List.exists_cons_of_ne_nil hhe
        cases rb with
        | nil =>
          exfalso
          have e1 := congrArg List.length hks
          simp only [List.map_nil] at hrb
          subst hrb
          simp only [List.length_map, List.append_nil] at e1
          simp only [List.length_cons] at hnew
          omega
        | cons r rb =>
          obtain ⟨text, fs⟩ := r
          have hrr := ht.row (text, fs) (by rw [hab]; simp)
          obtain ⟨v, vs, rfl⟩ := List.exists_cons_of_ne_nil (plainRow_ne hrr.1)
          refine ⟨h0, hs0, text, v, vs, fileOf (rb.map (·.1)) [], rfl, ?_, hnoR (text, v :: vs) (by rw [hab]; simp), csvRead_plain hrr.1, ?_⟩
          · rw [hp.1, hks, ← List.cons_append, fileOf_append, ← hrb, List.map_cons, fileOf_cons (text, v :: vs).1]
          · unfold csvJobs
            rw [hab, rowsJobs_append, hra]
            have hoff : hline.length + 1 + (fileOf l []).length = (fileOf (hline :: l) []).length := by
              rw [fileOf_cons]; simp only [List.length_append, List.length_cons]; omega
            rw [hoff]
            refine entries_right ?_
            unfold rowsJobs
            exact entries_left first_cell
  have hsync : csvSync num i D s = (csvLoop num i D (D.length + 1) (firstOccurrences ((csvJobs num hline headers (rows.take (ls.length - 1))).map (·.name))) (csvMeta ls) >>= fun m' => i.setMetadata m') s2 := by
    unfold csvSync
    rw [Act.bind_ok hq, Act.bind_ok hq2]
    rfl
  have hfin : ∀ {s1 : PF}, csvLoop num i D (D.length + 1) (firstOccurrences ((csvJobs num hline headers (rows.take (ls.length - 1))).map (·.name))) (csvMeta ls) s2 = (.err .io, s1) → False := by
    intro s1 he
    rw [hsync, Act.bind_err he] at hio
    exact hio rfl
  rw [hsync]
  cases ls with
  | nil =>
    have hj0 : csvJobs num hline headers (rows.take (([] : List Bytes).length - 1)) = [] := by simp [csvJobs, rowsJobs]
    rw [hj0] at hfin ⊢
    unfold CsvAt at h2
    rw [hj0] at h2
    have hstep : csvLoop num i D (D.length + 1) (firstOccurrences (List.map (·.name) ([] : List Job))) (csvMeta []) =
        csvLoop num i D D.length headers ⟨1, .csv, 0 + UInt64.ofNat hline.length + 1, 0⟩ := by
      have hz : (csvMeta []).readOffset.toNat = 0 := rfl
      rw [csvLoop, if_neg (by rw [hz]; omega), hz, List.drop_zero, show indexNewline D = some hline.length by
        rw [hDl, fileOf_cons]; exact indexNewline_line (hp.2.1 hline (by simp)) _]
      simp only
      rw [if_pos (show firstOccurrences (List.map (·.name) ([] : List Job)) = [] from rfl), show D.take hline.length = hline by rw [hDl, fileOf_cons, List.take_left' rfl], csvRead_plain ht.header]
      rfl
    rw [hstep] at hfin ⊢
    have e0 : (fileOf [hline] []).length = hline.length + 1 := by simp [fileOf]
    have := csvLoop_bad (i := i) (num := num) (m := ⟨1, .csv, 0 + UInt64.ofNat hline.length + 1, 0⟩) (rest := rest) (fuel := D.length) hi hd hb hhe ht.names rows [hline]
      (by rw [hDl, fileOf_cons]; simp [fileOf]) hnoR ht.row (by omega) (by rw [e0, UInt64.ofNat_add]; simp) h2 (by rw [e0]; exact hdistinct)
    obtain ⟨s1, ⟨e1, is', c', e2⟩ | e1⟩ := this
    · refine ⟨s1, Act.bind_err e1, is', c', ?_⟩
      rw [e0] at e2
      exact e2
    · exact (hfin e1).elim
  | cons k l =>
    simp only [List.length_cons] at hn1
    simp only [List.cons_append, List.cons.injEq] at hks
    obtain ⟨rfl, hks⟩ := hks
    obtain ⟨ra, rb, hab, hra, hrb⟩ := map_fst_append hks
    have hlra : l.length = ra.length := by rw [← hra, List.length_map]
    have htk : rows.take ((hline :: l).length - 1) = ra := by
      rw [hab, List.length_cons, Nat.add_sub_cancel, hlra, List.take_left' rfl]
    have hran : ra ≠ [] := by rintro rfl; apply hn1; simp only [List.length_nil] at hlra; omega
    have hnm : firstOccurrences ((csvJobs num hline headers ra).map (·.name)) = headers := by
      refine rowsJobs_headers num ht.distinct _ hran (fun r hr => ht.first r ?_)
      rw [hab]
      cases ra with
      | nil => cases hr
      | cons a ra => exact hr
    unfold CsvAt at h2
    rw [htk] at h2 hfin ⊢
    rw [hnm] at hfin ⊢
    have hoff : (fileOf (hline :: l) []).length = hline.length + 1 + (fileOf (ra.map (·.1)) []).length := by
      rw [hra, fileOf_cons]; simp only [List.length_append, List.length_cons]; omega
    have hall : csvJobs num hline headers ra ++ rowsJobs num headers (fileOf (hline :: l) []).length rb = csvJobs num hline headers rows := by
      rw [hoff, hab]; unfold csvJobs; rw [rowsJobs_append]
    have := csvLoop_bad (i := i) (num := num) (m := csvMeta (hline :: l)) (rest := rest) (fuel := D.length + 1) hi hd hb hhe ht.names rb (hline :: l)
      (by rw [hDl, hks, ← List.cons_append, fileOf_append, hrb]) (fun x hx => hnoR x (by rw [hab]; simp [hx])) (fun x hx => ht.row x (by rw [hab]; simp [hx]))
      (by rw [hab, List.length_append] at hcount; omega) rfl h2 (by rw [hall]; exact hdistinct)
    rw [hall] at this
    obtain ⟨s1, ⟨e1, e2⟩ | e1⟩ := this
    · exact ⟨s1, Act.bind_err e1, e2⟩
    · exact (hfin e1).elim

end
end Appendable
