import Verif.Lemmas.CsvRun
import Verif.Props.JsonlBytes
import Verif.Props.Size
/-! C41, C42: the CSV handler. -/
namespace Appendable
open Spec Tree

variable {num : Bytes → Option UInt64} {i : IndexFile} {data : Bytes} {s : PF} {hline : Bytes} {headers : List Bytes}
  {rows : List (Bytes × List Bytes)} {seen : List Bytes}

/-- C41: whatever the history, the index of a supported table without quotes holds exactly the fields of its complete
rows, provided no call of `Synchronize` saw exactly one complete line. -/
theorem C41_rows_indexed_partial (hr : CsvRun num data seen i s) (hd : data.length < 2 ^ 64) (ht : PlainTable hline headers rows)
    {tail : Bytes} (hl : IsLines data (hline :: rows.map (·.1)) tail) (hs : ∀ d ∈ seen, ∀ l t, ¬ IsLines d [l] t) :
    Holds data (csvParse num) (fun _ => 0) i s ⟨1, .csv, UInt64.ofNat (fileOf (hline :: rows.map (·.1)) []).length, 0⟩
      (rowsJobs num headers (hline.length + 1) rows) := by
  obtain ⟨hi, _, is, c, h⟩ := csvRun_is hr hd ht hl (List.prefix_refl _) hs
  have h2 : JIs data (csvParse num) (fun _ => 0) s ⟨1, .csv, UInt64.ofNat (fileOf (hline :: rows.map (·.1)) []).length, 0⟩ is c
      (rowsJobs num headers (hline.length + 1) rows) := by
    have : rows.take ((hline :: rows.map (·.1)).length - 1) = rows := by simp
    unfold CsvAt csvJobs at h
    rwa [this] at h
  exact h2.holds hi

/-- C41, partial: any two histories that end with the same data file show the same index.  Missing: files that some call
saw when they had exactly the header line complete, tables with repeated headers or with a first row that is shorter
than the header (the property is violated for these, see below), and quoted fields.  (The raw bytes of the index file: C41_bytes_partial.) -/
theorem C41_incremental_partial {i' : IndexFile} {s' : PF} {seen' : List Bytes} (hr : CsvRun num data seen i s)
    (hr' : CsvRun num data seen' i' s') (hd : data.length < 2 ^ 64) (ht : PlainTable hline headers rows)
    {tail : Bytes} (hl : IsLines data (hline :: rows.map (·.1)) tail) (hs : ∀ d ∈ seen, ∀ l t, ¬ IsLines d [l] t)
    (hs' : ∀ d ∈ seen', ∀ l t, ¬ IsLines d [l] t) :
    ∃ fm js, Holds data (csvParse num) (fun _ => 0) i s fm js ∧ Holds data (csvParse num) (fun _ => 0) i' s' fm js :=
  ⟨_, _, C41_rows_indexed_partial hr hd ht hl hs, C41_rows_indexed_partial hr' hd ht hl hs'⟩

/-- C41, partial: on such tables below 2^48 bytes `Synchronize` succeeds. -/
theorem C41_succeeds_partial (hr : CsvRun num data seen i s) {more : Bytes} (hd : (data ++ more).length < 2 ^ 48) (ht : PlainTable hline headers rows)
    {tail : Bytes} (hl : IsLines (data ++ more) (hline :: rows.map (·.1)) tail) (hs : ∀ d ∈ seen, ∀ l t, ¬ IsLines d [l] t) :
    ∃ s', csvSync num i (data ++ more) s = (.ok (), s') := by
  have hb : hline.length + 1 + (fileOf (rows.map (·.1)) []).length < 2 ^ 48 := by
    have := congrArg List.length hl.1
    rw [fileOf_cons, fileOf_tail] at this
    simp only [List.length_append, List.length_cons] at this hd ⊢
    omega
  have hd' : (data ++ more).length < 2 ^ 64 := by omega
  obtain ⟨l0, t, hls⟩ := exists_lines data
  obtain ⟨ks, hks, hkt⟩ := lines_grow hls hl
  have hdl : data.length < 2 ^ 64 := by rw [List.length_append] at hd; omega
  have hrow : rows.take ((l0 ++ ks).length - 1) = rows := by rw [← hks]; simp
  obtain ⟨hi, hn, is, c, hj⟩ := csvRun_is hr hdl ht hls (by rw [hks]; exact List.prefix_append _ _) hs
  rcases csvStep (num := num) (s := s) (is := is) (c := c) hi hd' ht hn (by rw [← hks]; exact hl) (by rw [← hks]; exact List.prefix_refl _) (JIs.grow hj more) with
    ⟨a, s1, is', c', e1, e2, _⟩ | ⟨s1, e1, e2⟩ | ⟨s1, e1, e2⟩
  · exact ⟨s1, e1⟩
  · exfalso
    apply e2
    apply distinct_of_offs
    rw [hrow]
    have := (rowsJobs_offs num headers (hline.length + 1) rows (fun r hr => (ht.row r hr).1) (by omega)).1
    exact this.imp (fun h => Nat.ne_of_lt h)
  · exfalso
    have h1 := e2.2 narrow_zero
    rw [hrow] at h1
    have h2 := jobPages_le (csvJobs num hline headers rows)
    have h3 : jobsPages (csvJobs num hline headers rows) ≤ _ := rows_pages num headers (hline.length + 1) (fun r hr => (ht.row r hr).1)
    omega

/-- The bytes that a pointer designates. -/
theorem slice_at {pos : Nat} {t : Bytes} (h : TextAt data pos t) (hd : data.length < 2 ^ 64) (ht : t.length < 2 ^ 32) :
    (data.drop (UInt64.ofNat pos).toNat).take (UInt32.ofNat t.length).toNat = t := by
  have := h.len
  rw [UInt64.toNat_ofNat', UInt32.toNat_ofNat', Nat.mod_eq_of_lt ht, Nat.mod_eq_of_lt (show pos < 2 ^ 64 by omega), h.take]

theorem rowJobs_entry (num : Bytes → Option UInt64) (line : MemPtr) {pos : Nat} {hs : List Bytes} {vs ws : List Bytes} {v : Bytes}
    (hat : TextAt data pos (joinCommas (vs ++ v :: ws))) (hlen : (vs ++ v :: ws).length ≤ hs.length) :
    ∃ h q, hs[vs.length]? = some h ∧ TextAt data q v ∧
      (⟨h, (kindOf (cell num v)).code, [(⟨⟨UInt64.ofNat q, UInt32.ofNat v.length⟩, valueBytes (cell num v)⟩, line)], 0⟩ : Job) ∈
        rowJobs num line pos hs (vs ++ v :: ws) := by
  induction vs generalizing pos hs with
  | nil =>
    cases hs with
    | nil => simp at hlen
    | cons h hs =>
      refine ⟨h, pos, rfl, ?_, List.mem_cons_self ..⟩
      cases ws with
      | nil => exact hat
      | cons w ws => exact hat.left
  | cons u vs ih =>
    cases hs with
    | nil => simp at hlen
    | cons h hs =>
      have hat2 : TextAt data (pos + u.length + 1) (joinCommas (vs ++ v :: ws)) := by
        have : joinCommas (u :: vs ++ v :: ws) = u ++ 44 :: joinCommas (vs ++ v :: ws) := by
          cases vs <;> rfl
        rw [this] at hat
        exact TextAt.right (t := [44]) hat.right
      obtain ⟨h', q, g1, g2, g3⟩ := ih hat2 (by simpa using hlen)
      exact ⟨h', q, by simpa using g1, g2, List.mem_cons_of_mem _ g3⟩

theorem rowsJobs_row (num : Bytes → Option UInt64) (headers : List Bytes) (off : Nat) (a b : List (Bytes × List Bytes)) (r : Bytes × List Bytes) :
    ∀ j ∈ rowJobs num ⟨UInt64.ofNat (off + (fileOf (a.map (·.1)) []).length), UInt32.ofNat r.1.length⟩ (off + (fileOf (a.map (·.1)) []).length) headers r.2,
      j ∈ rowsJobs num headers off (a ++ r :: b) := by
  intro j hj
  rw [rowsJobs_append]
  exact List.mem_append_right _ (List.mem_append_left _ hj)

theorem joinCommas_le (vs ws : List Bytes) (v : Bytes) : v.length ≤ (joinCommas (vs ++ v :: ws)).length := by
  induction vs with
  | nil => cases ws <;> simp [joinCommas]
  | cons u vs ih =>
    have : joinCommas (u :: vs ++ v :: ws) = u ++ 44 :: joinCommas (vs ++ v :: ws) := by
      cases vs <;> rfl
    rw [this]
    simp only [List.length_append, List.length_cons]; omega

/-- C42, partial (missing: rows with quoted fields, for which the property is violated, see below): after any history as
in C41, for every row and every field `v` of it, the index of its column and type holds an entry with the value of `v`
whose data pointer designates exactly the bytes of `v` in the data file, and whose record pointer designates exactly the
row. -/
theorem C42_pointers_partial (hr : CsvRun num data seen i s) (hd : data.length < 2 ^ 64) (ht : PlainTable hline headers rows)
    {tail : Bytes} (hl : IsLines data (hline :: rows.map (·.1)) tail) (hs : ∀ d ∈ seen, ∀ l t, ¬ IsLines d [l] t)
    {a b : List (Bytes × List Bytes)} {text : Bytes} {vs ws : List Bytes} {v : Bytes} (hrow : rows = a ++ (text, vs ++ v :: ws) :: b) :
    ∃ (is : List (LP × IndexMeta)) (c : Nat → List (RV × MemPtr)) (fm : FileMeta) (k : Nat) (p : LP) (m : IndexMeta) (dp line : MemPtr),
      Shows data (csvParse num) (fun _ => 0) i s fm is c ∧ is[k]? = some (p, m) ∧ headers[vs.length]? = some m.fieldName ∧
      m.fieldType = (kindOf (cell num v)).code ∧ (⟨dp, valueBytes (cell num v)⟩, line) ∈ c k ∧
      (data.drop dp.offset.toNat).take dp.length.toNat = v ∧ (data.drop line.offset.toNat).take line.length.toNat = text := by
  obtain ⟨is, c, h1, h2, h3⟩ := C41_rows_indexed_partial hr hd ht hl hs
  obtain ⟨pr, pl, pc⟩ := ht.row (text, vs ++ v :: ws) (by rw [hrow]; simp)
  simp only at pr pl pc
  have htext : TextAt data (hline.length + 1 + (fileOf (a.map (·.1)) []).length) text := by
    refine ⟨10 :: fileOf (b.map (·.1)) tail, ?_, ?_⟩
    · have : data = (hline ++ 10 :: fileOf (a.map (·.1)) []) ++ (text ++ 10 :: fileOf (b.map (·.1)) tail) := by
        rw [hl.1, fileOf_cons, hrow, List.map_append, fileOf_append, List.map_cons, fileOf_cons]
        simp
      rw [this, List.drop_left']
      simp only [List.length_append, List.length_cons]; omega
    · rw [hl.1, fileOf_cons, hrow, List.map_append, fileOf_append]
      simp only [List.length_append, List.length_cons]; omega
  have hat : TextAt data (hline.length + 1 + (fileOf (a.map (·.1)) []).length) (joinCommas (vs ++ v :: ws)) := by
    rcases pr.1 with e | e
    · rw [← e]; exact htext
    · rw [e] at htext; exact htext.left
  obtain ⟨h, q, g1, g2, g3⟩ := rowJobs_entry num ⟨UInt64.ofNat (hline.length + 1 + (fileOf (a.map (·.1)) []).length), UInt32.ofNat text.length⟩ hat pc
  have g4 := rowsJobs_row num headers (hline.length + 1) a b (text, vs ++ v :: ws) _ g3
  rw [← hrow] at g4
  have hd2 : Done is c (rowsJobs num headers (hline.length + 1) rows) := ⟨h2, h3⟩
  obtain ⟨k, p, hk, hp⟩ := hd2.at (List.mem_map.2 ⟨_, g4, rfl⟩)
  refine ⟨is, c, _, k, p, _, ⟨UInt64.ofNat q, UInt32.ofNat v.length⟩,
    ⟨UInt64.ofNat (hline.length + 1 + (fileOf (a.map (·.1)) []).length), UInt32.ofNat text.length⟩, h1, hk, g1, rfl, hp.mem_iff.2 ?_, slice_at g2 hd ?_, slice_at htext hd (by omega)⟩
  · exact List.mem_flatMap.2 ⟨_, g4, by simp⟩
  · have h5 := plainRow_len pr
    have h6 := congrArg List.length hat.take
    have := joinCommas_le vs ws v
    omega

/-! ### Concrete histories -/

def cOpen : Res (IndexFile × PF) × File := IndexFile.openIndex .csv [] wFile
def cI : IndexFile := (okVal cOpen.1).1
def cS0 : PF := (okVal cOpen.1).2
/-- `a,b`, newline, `x,1`, newline, `y` -/
def cData1 : Bytes := [97, 44, 98, 10, 120, 44, 49, 10, 121]
/-- `,` carriage return, newline -/
def cData2 : Bytes := [44, 13, 10]
def cRun1 : Res Unit × PF := csvSync jNum cI cData1 cS0
def cRun2 : Res Unit × PF := csvSync jNum cI (cData1 ++ cData2) cRun1.2

set_option maxRecDepth 100000 in
theorem cOpen_ok : cOpen.1.isOk = true := by decide +kernel
set_option maxRecDepth 100000 in
theorem cRun1_ok : cRun1.1.isOk = true := by decide +kernel
set_option maxRecDepth 100000 in
theorem cRun2_ok : cRun2.1.isOk = true := by decide +kernel

theorem cOpen_eq : IndexFile.openIndex .csv [] wFile = (.ok (cI, cS0), cOpen.2) := run_ok2 (r := cOpen) cOpen_ok
theorem cSync0 : CsvRun jNum [] [] cI cS0 := .create (f := wFile) rfl rfl cOpen_eq
theorem cSync : CsvRun jNum (cData1 ++ cData2) [cData1 ++ cData2, cData1] cI cRun2.2 :=
  .sync (.sync (more := cData1) cSync0 (run_unit (r := cRun1) cRun1_ok)) (run_unit (r := cRun2) cRun2_ok)

theorem cTable : PlainTable [97, 44, 98] [[97], [98]] [([120, 44, 49], [[120], [49]]), ([121, 44, 13], [[121], []])] where
  header := by refine ⟨.inl rfl, by decide, by decide⟩
  distinct := by decide
  names := by decide
  row := by
    intro r hr
    rcases List.mem_cons.1 hr with rfl | hr
    · exact ⟨⟨.inl rfl, by decide, by decide⟩, by decide, by decide⟩
    · rcases List.mem_cons.1 hr with rfl | hr
      · exact ⟨⟨.inr rfl, by decide, by decide⟩, by decide, by decide⟩
      · simp at hr
  first := by intro r hr; cases hr; rfl

/-- Non-vacuity of C41 and C42: a table with a header and two rows (the second with a carriage return and an empty field),
synchronized in two steps that cut the second row. -/
example : Holds (cData1 ++ cData2) (csvParse jNum) (fun _ => 0) cI cRun2.2 ⟨1, .csv, 12, 0⟩
    [⟨[97], 0, [(⟨⟨4, 1⟩, [120]⟩, ⟨4, 3⟩)], 0⟩, ⟨[98], 3, [(⟨⟨6, 1⟩, [63, 240, 0, 0, 0, 0, 0, 0]⟩, ⟨4, 3⟩)], 0⟩,
      ⟨[97], 0, [(⟨⟨8, 1⟩, [121]⟩, ⟨8, 3⟩)], 0⟩, ⟨[98], 7, [(⟨⟨10, 0⟩, []⟩, ⟨8, 3⟩)], 0⟩] := by
  refine C41_rows_indexed_partial (rows := [([120, 44, 49], [[120], [49]]), ([121, 44, 13], [[121], []])]) cSync (by decide) cTable (tail := [])
    ⟨by decide, by decide, by decide⟩ ?_
  intro d hd l t hc
  have h1 : IsLines cData1 [[97, 44, 98], [120, 44, 49]] [121] := ⟨by decide, by decide, by decide⟩
  have h2 : IsLines (cData1 ++ cData2) [[97, 44, 98], [120, 44, 49], [121, 44, 13]] [] := ⟨by decide, by decide, by decide⟩
  rcases List.mem_cons.1 hd with rfl | hd
  · have := (lines_unique hc h2).1; simp at this
  · rcases List.mem_cons.1 hd with rfl | hd
    · have := (lines_unique hc h1).1; simp at this
    · simp at hd

/-- `a,b`, newline -/
def cHead : Bytes := [97, 44, 98, 10]
/-- `x,1`, newline -/
def cRow : Bytes := [120, 44, 49, 10]
def cHRun1 : Res Unit × PF := csvSync jNum cI cHead cS0
def cHRun2 : Res Unit × PF := csvSync jNum cI (cHead ++ cRow) cHRun1.2
def cBatch : Res Unit × PF := csvSync jNum cI (cHead ++ cRow) cS0

set_option maxRecDepth 100000 in
theorem cH_ok : cHRun1.1.isOk = true ∧ cHRun2.1.isOk = true ∧ cBatch.1.isOk = true := by decide +kernel
set_option maxRecDepth 100000 in
theorem cH_names : (cI.indexFieldNames cHRun2.2).1 = .ok [] ∧ (cI.indexFieldNames cBatch.2).1 = .ok [[97], [98]] := by decide +kernel

/-- C41 is violated: if the header line is synchronized alone, the first row that follows is taken for the header, and
its fields are not indexed; synchronizing the same file at once indexes both columns. -/
theorem C41_header_alone_violated : ∃ (i : IndexFile) (s s' : PF) (seen seen' : List Bytes) (data : Bytes),
    CsvRun jNum data seen i s ∧ CsvRun jNum data seen' i s' ∧
    (i.indexFieldNames s).1 = .ok [] ∧ (i.indexFieldNames s').1 = .ok [[97], [98]] :=
  ⟨cI, cHRun2.2, cBatch.2, _, _, cHead ++ cRow,
    .sync (.sync (more := cHead) cSync0 (run_unit (r := cHRun1) cH_ok.1)) (run_unit (r := cHRun2) cH_ok.2.1),
    .sync (more := cHead ++ cRow) cSync0 (run_unit (r := cBatch) cH_ok.2.2), cH_names.1, cH_names.2⟩

/-- `x`, newline: a row with one field -/
def cShort : Bytes := [120, 10]
def cSRun1 : Res Unit × PF := csvSync jNum cI (cHead ++ cShort) cS0
def cSRun2 : Res Unit × PF := csvSync jNum cI (cHead ++ cShort ++ cRow) cSRun1.2
def cSBatch : Res Unit × PF := csvSync jNum cI (cHead ++ cShort ++ cRow) cS0

set_option maxRecDepth 100000 in
theorem cS_ok : cSRun1.1.isOk = true ∧ cSRun2.1 = .err (.msg "field index is out of bounds with header") ∧ cSBatch.1.isOk = true := by decide +kernel

/-- C41 is violated, second way: after a first row that is shorter than the header has been synchronized, a full row is
an error; synchronizing the same file at once succeeds. -/
theorem C41_short_row_violated : ∃ (i : IndexFile) (s s' : PF) (seen : List Bytes) (data more : Bytes) (e : Err),
    CsvRun jNum data seen i s ∧ (csvSync jNum i (data ++ more) s).1 = .err e ∧
    CsvRun jNum [] [] i s' ∧ (csvSync jNum i (data ++ more) s').1.isOk = true :=
  ⟨cI, cSRun1.2, cS0, _, cHead ++ cShort, cRow, _, .sync (more := cHead ++ cShort) cSync0 (run_unit (r := cSRun1) cS_ok.1), cS_ok.2.1, cSync0, cS_ok.2.2⟩

/-- `a,a`, newline, `x,y`, newline -/
def cDup : Bytes := [97, 44, 97, 10, 120, 44, 121, 10]
def cDRun1 : Res Unit × PF := csvSync jNum cI cDup cS0
def cDRun2 : Res Unit × PF := csvSync jNum cI (cDup ++ [120, 44, 121, 10]) cDRun1.2
def cDBatch : Res Unit × PF := csvSync jNum cI (cDup ++ [120, 44, 121, 10]) cS0

set_option maxRecDepth 100000 in
theorem cD_ok : cDRun1.1.isOk = true ∧ cDRun2.1 = .err (.msg "field index is out of bounds with header") ∧ cDBatch.1.isOk = true := by decide +kernel

/-- C41 is violated, third way: with a repeated header, a second call of `Synchronize` with a new row fails;
synchronizing the same file at once succeeds. -/
theorem C41_repeated_header_violated : ∃ (i : IndexFile) (s s' : PF) (seen : List Bytes) (data more : Bytes) (e : Err),
    CsvRun jNum data seen i s ∧ (csvSync jNum i (data ++ more) s).1 = .err e ∧
    CsvRun jNum [] [] i s' ∧ (csvSync jNum i (data ++ more) s').1.isOk = true :=
  ⟨cI, cDRun1.2, cS0, _, cDup, _, _, .sync (more := cDup) cSync0 (run_unit (r := cDRun1) cD_ok.1), cD_ok.2.1, cSync0, cD_ok.2.2⟩

/-- `a,b`, newline, `"x",z`, newline -/
def cQuoted : Bytes := [97, 44, 98, 10, 34, 120, 34, 44, 122, 10]
def cQRun : Res Unit × PF := csvSync jNum cI cQuoted cS0
def cQFind : Res (LP × IndexMeta) × PF := cI.findOrCreate [98] 0 cQRun.2
def cQP : LP := (okVal cQFind.1).1
def cQRes : Res (RV × MemPtr) × PF := (treeAt cQuoted (csvParse jNum) 0 cQP).find minKey cQFind.2

set_option maxRecDepth 100000 in
theorem cQ_ok : cQRun.1.isOk = true ∧ cQFind.1.isOk = true ∧ cQRes.1 = .ok (⟨⟨6, 1⟩, [34]⟩, ⟨4, 5⟩) := by decide +kernel

/-- C42 is violated: in the table with the row `"x",z`, the pointer stored for `z` designates the quote before the
comma, and the value read back from the index is that quote. -/
theorem C42_quoted_violated : ∃ (i : IndexFile) (s s1 : PF) (p : LP) (m : IndexMeta) (seen : List Bytes) (k : RV) (v : MemPtr),
    CsvRun jNum cQuoted seen i s ∧ csvRead [34, 120, 34, 44, 122] = some [[120], [122]] ∧ i.findOrCreate [98] 0 s = (.ok (p, m), s1) ∧
    ((treeAt cQuoted (csvParse jNum) 0 p).find minKey s1).1 = .ok (k, v) ∧
    (cQuoted.drop k.dp.offset.toNat).take k.dp.length.toNat = [34] ∧ k.value = [34] :=
  ⟨cI, cQRun.2, cQFind.2, cQP, (okVal cQFind.1).2, _, _, _, .sync (more := cQuoted) cSync0 (run_unit (r := cQRun) cQ_ok.1), by decide +kernel,
    run_ok2 (r := cQFind) cQ_ok.2.1, cQ_ok.2.2, by decide, rfl⟩

end Appendable
