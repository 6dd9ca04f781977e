import Verif.Lemmas.JobSize
import Verif.Lemmas.JsonlRun
import Verif.Lemmas.CsvRun
import Verif.Props.Index
import Verif.Props.Depth
/-! C103, C104: the size of index files. -/
namespace Appendable
open Spec Tree

/-- C103: after any history, an index file is not larger than its header page, a page for every fifteen slots, and what its trees need:
one page each, and a page for every `halfPage ^ 2 / (halfPage + 1)` entries; that is, all pages are at least half full except one of each
tree, and no page is lost. -/
theorem C103_size {parse : Bytes → Bytes} {wd : UInt16 → UInt16} {data : Bytes} {i : IndexFile} {s : PF} {fm : FileMeta}
    {is : List (LP × IndexMeta)} {c : Nat → List (RV × MemPtr)} (hs : SmallWidths wd) (h : IndexRun parse wd data i s fm is c)
    (hw : ∀ x ∈ is, (wd x.2.width).toNat ≤ 2012) :
    s.file.bytes.length ≤ 4096 * (2 + is.length / 15 + (is.mapIdx fun k x => treePages (wd x.2.width) (c k).length).sum) :=
  (indexRun_is hs h).1.space hw

/-- C101 for the trees of an index file: all ways down to a leaf of an index with `n` entries pass the same number `d` of pages; it is at most
`1 + log2 n`, and `n` is at least `2 * m * (m + 1) ^ (d - 2)` where `m` is half of the keys that fit on a page. -/
theorem C101_index_depth {parse : Bytes → Bytes} {wd : UInt16 → UInt16} {data : Bytes} {i : IndexFile} {s : PF} {fm : FileMeta}
    {is : List (LP × IndexMeta)} {c : Nat → List (RV × MemPtr)} {k : Nat} {p : LP} {m : IndexMeta} (hs : SmallWidths wd)
    (h : IndexRun parse wd data i s fm is c) (hk : is[k]? = some (p, m)) (hne : c k ≠ []) :
    ∃ n mp s' d, (treeAt data parse (wd m.width) p).root s = (.ok (some (n, mp)), s') ∧
      (∀ j, Down (treeAt data parse (wd m.width) p) s mp.offset j ↔ j = d) ∧ d ≤ (c k).length.log2 + 1 ∧
      (2 ≤ d → 2 * (halfPage (wd m.width) * (halfPage (wd m.width) + 1) ^ (d - 2)) ≤ (c k).length) := by
  obtain ⟨free, ps, cnt, E, P, h1, h2, h3⟩ := (indexRun_is hs h).1.treeAt
  obtain ⟨hti, hw, hp⟩ := h1.forest.tree k _ (h3 k p m hk)
  have hlen := hp.length_eq
  have h0 : (c k).length ≠ 0 := fun hc => hne (List.length_eq_zero_iff.1 hc)
  rcases hti.root with ⟨_, he, _⟩ | ⟨hl, d, hr, _, hd⟩
  · rw [he] at hlen; exact absurd hlen.symm h0
  · obtain ⟨n, qs, hn, hps, hm⟩ := rep_iff.1 hr
    obtain ⟨p, hroot⟩ := root_some hti.slotInside hti.slot hl hn
    refine ⟨n, _, _, d + 1, hroot, fun k => hr.down k, ?_, fun h2 => ?_⟩
    · have := (Nat.le_log2 h0).2 (hlen ▸ hr.pow_le)
      omega
    · obtain ⟨e, rfl⟩ : ∃ e, d = e + 1 := ⟨d - 1, by omega⟩
      rw [minKeys_eq] at hd
      have := hr.fanout hd
      rw [hlen] at this
      exact this

/-- C104: whatever the history of `Synchronize`, the index file of a JSONL file has at most 4096 bytes for each index, 4096 for every
fifteen of them, 8192 more, and 79 for every entry (`4096 * 54 / 2809`). -/
theorem C104_jsonl_size {env : JEnv} {hs : List Bytes} {data : Bytes} {i : IndexFile} {s : PF} (hr : SyncRun env hs data i s)
    (hd : data.length < 2 ^ 64) {lf : List (Bytes × List Field)} {tail : Bytes} (hl : IsLines data (lf.map (·.1)) tail)
    (hx : ∀ x ∈ lf, LineFields env.lex x.1 x.2 ∧ x.1.length < 2 ^ 32 ∧ ∀ f ∈ x.2, FieldOK env.lex hs x.1 f) :
    s.file.bytes.length ≤ 4096 * jobsPages (linesJobs env.nfkd hs 0 lf) := by
  obtain ⟨rfl, is, c, hj⟩ := syncRun_is hr hd hl hx
  exact hj.space 54 2809 treePages_stored

theorem rowJobs_entries (num : Bytes → Option UInt64) (line : MemPtr) (pos : Nat) (hs vs : List Bytes) :
    ((rowJobs num line pos hs vs).map fun j => j.entries.length).sum ≤ vs.length := by
  induction hs generalizing pos vs with
  | nil => simp [rowJobs]
  | cons h hs ih =>
    cases vs with
    | nil => simp [rowJobs]
    | cons v vs =>
      simp only [rowJobs, List.map_cons, List.sum_cons, List.length_cons, List.length_nil]
      have := ih (pos + v.length + 1) vs
      omega

theorem rowsJobs_entries (num : Bytes → Option UInt64) (headers : List Bytes) (off : Nat) (rows : List (Bytes × List Bytes)) :
    ((rowsJobs num headers off rows).map fun j => j.entries.length).sum ≤ (rows.map fun r => r.2.length).sum := by
  induction rows generalizing off with
  | nil => simp [rowsJobs]
  | cons r rows ih =>
    obtain ⟨text, fs⟩ := r
    simp only [rowsJobs, List.map_append, List.sum_append, List.map_cons, List.sum_cons]
    have := rowJobs_entries num ⟨UInt64.ofNat off, UInt32.ofNat text.length⟩ off headers fs
    have := ih (off + text.length + 1)
    omega

/-- C104, partial: the same for CSV files, with 62 bytes for every cell (`4096 * 69 / 4624`).  Missing: tables with quotes, and histories that saw
the header line alone (see C41). -/
theorem C104_csv_size_partial {num : Bytes → Option UInt64} {data hline : Bytes} {headers : List Bytes} {rows : List (Bytes × List Bytes)} {seen : List Bytes}
    {i : IndexFile} {s : PF} (hr : CsvRun num data seen i s) (hd : data.length < 2 ^ 64) (ht : PlainTable hline headers rows)
    {tail : Bytes} (hl : IsLines data (hline :: rows.map (·.1)) tail) (hs : ∀ d ∈ seen, ∀ l t, ¬ IsLines d [l] t) :
    s.file.bytes.length ≤ 4096 * (2 + (indexesOf (rowsJobs num headers (hline.length + 1) rows)).length / 15 +
      (indexesOf (rowsJobs num headers (hline.length + 1) rows)).length + (rows.map fun r => r.2.length).sum * 69 / 4624) := by
  obtain ⟨hi, _, is, c, h⟩ := csvRun_is hr hd ht hl (List.prefix_refl _) hs
  have h2 : JIs data (csvParse num) (fun _ => 0) s ⟨1, .csv, UInt64.ofNat (fileOf (hline :: rows.map (·.1)) []).length, 0⟩ is c
      (rowsJobs num headers (hline.length + 1) rows) := by
    have : rows.take ((hline :: rows.map (·.1)).length - 1) = rows := by simp
    unfold CsvAt csvJobs at h
    rwa [this] at h
  have h3 := h2.space 69 4624 (fun ty => ⟨by decide, treePages_zero⟩)
  refine Nat.le_trans h3 (Nat.mul_le_mul_left _ (Nat.add_le_add_left ?_ _))
  exact Nat.div_le_div_right (Nat.mul_le_mul_right _ (rowsJobs_entries _ _ _ _))

theorem rowsJobs_length (num : Bytes → Option UInt64) (headers : List Bytes) (off : Nat) (rows : List (Bytes × List Bytes)) :
    (rowsJobs num headers off rows).length ≤ (rows.map fun r => r.2.length).sum := by
  induction rows generalizing off with
  | nil => simp [rowsJobs]
  | cons r rows ih =>
    obtain ⟨text, fs⟩ := r
    simp only [rowsJobs, List.length_append, List.map_cons, List.sum_cons]
    have h1 := congrArg List.length (rowJobs_names num ⟨UInt64.ofNat off, UInt32.ofNat text.length⟩ off headers fs)
    rw [List.length_map, List.length_take] at h1
    have := ih (off + text.length + 1)
    omega

theorem cells_le {rows : List (Bytes × List Bytes)} (hr : ∀ r ∈ rows, PlainRow r.1 r.2) :
    (rows.map fun r => r.2.length).sum ≤ (fileOf (rows.map (·.1)) []).length := by
  induction rows with
  | nil => simp
  | cons r rows ih =>
    have h1 := ih (fun r h => hr r (List.mem_cons_of_mem _ h))
    have h2 := joinCommas_length r.2
    have h3 : (joinCommas r.2).length ≤ r.1.length := by
      rcases (hr r List.mem_cons_self).1 with h | h <;> rw [h] <;> simp
    rw [List.map_cons, List.sum_cons, List.map_cons, fileOf_cons]
    simp only [List.length_append, List.length_cons]
    omega

theorem firstOccurrences_length {α : Type} [DecidableEq α] (l : List α) : (firstOccurrences l).length ≤ l.length := by
  induction l with
  | nil => simp [firstOccurrences]
  | cons a l ih =>
    simp only [firstOccurrences, List.length_cons]
    have := List.length_filter_le (fun b => decide (b ≠ a)) (firstOccurrences l)
    omega

theorem indexesOf_length (js : List Job) : (indexesOf js).length ≤ js.length := by
  have := firstOccurrences_length (js.map fun j => (j.name, j.ty))
  rwa [List.length_map] at this

theorem rows_pages (num : Bytes → Option UInt64) (headers : List Bytes) (off : Nat) {rows : List (Bytes × List Bytes)} (hr : ∀ r ∈ rows, PlainRow r.1 r.2) :
    jobsPages (rowsJobs num headers off rows) ≤ 2 + 2 * (fileOf (rows.map (·.1)) []).length := by
  have h1 := cells_le hr
  have h2 := rowsJobs_length num headers off rows
  have h3 := rowsJobs_entries num headers off rows
  have h4 := indexesOf_length (rowsJobs num headers off rows)
  unfold jobsPages
  omega

/-- C104, partial: the index file of such a table has at most 8192 bytes for every byte of the data file, and 8192 more. -/
theorem C104_csv_per_byte_partial {num : Bytes → Option UInt64} {data hline : Bytes} {headers : List Bytes} {rows : List (Bytes × List Bytes)} {seen : List Bytes}
    {i : IndexFile} {s : PF} (hr : CsvRun num data seen i s) (hd : data.length < 2 ^ 64) (ht : PlainTable hline headers rows)
    {tail : Bytes} (hl : IsLines data (hline :: rows.map (·.1)) tail) (hs : ∀ d ∈ seen, ∀ l t, ¬ IsLines d [l] t) :
    s.file.bytes.length ≤ 4096 * (2 + 2 * data.length) := by
  have h1 := C104_csv_size_partial hr hd ht hl hs
  refine Nat.le_trans h1 (Nat.mul_le_mul_left _ ?_)
  have h3 := cells_le (fun r hr => (ht.row r hr).1)
  have h4 := rowsJobs_length num headers (hline.length + 1) rows
  have h5 := indexesOf_length (rowsJobs num headers (hline.length + 1) rows)
  have h6 := congrArg List.length hl.1
  rw [fileOf_cons, fileOf_tail] at h6
  simp only [List.length_append, List.length_cons] at h6
  omega

end Appendable
