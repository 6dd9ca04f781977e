import Verif.Props.QueryCsv
/-! C92: a query for the empty cells of a column of a CSV file.  The index of the empty cells is written without values, and its metadata say
that values of length 0 follow the keys: for the client it reads the same. -/
namespace Appendable
open Spec Tree

variable {num : Bytes → Option UInt64} {data tail name hline : Bytes} {seen headers : List Bytes} {rows : List (Bytes × List Bytes)}
  {i : IndexFile} {s : PF} {db : TsDb} {β : Type}

/-- **C92**, partial: on a CSV file without quotes, a query for the empty cells of a column (a condition with the value `null`) reads exactly the
rows that the condition asks for, each once, in the cases that `Exact` lists, if no row of the file is shorter than two bytes. -/
theorem C92_null_partial (h : CsvFile num data seen i s hline headers rows tail db) {q : TsQuery} {op : TsOp} {d : TsDir}
    (hq : q.where_ = [⟨name, op, .null⟩]) (hne : cellsOf num headers name .null rows ≠ [])
    (long : ∀ r ∈ rows, 2 ≤ r.1.length)
    (hex : Exact op q.dir (nullIndexBytes num headers name (hline.length + 1) rows) d) (select : Bytes → Res β) :
    ∃ out : List (Tok × Bytes), IsCsvAnswer num headers name op .null rows d out ∧ Returns db select q (rowsFor select (out.map (·.2))) := by
  obtain ⟨is, c, k, p, m, L, h1, h2, h3, h4, h5, h6, h7, h8, h9⟩ := csv_index h (w := .null) trivial hne
  have hw1 : m.width = 1 := h3
  have hval : ∀ e ∈ c k, e.1.value = [] := by
    intro e he
    obtain ⟨t, ht, rfl⟩ := List.mem_map.1 (h5.mem_iff.1 he)
    have hk := (h9 t ht).kind
    rw [(h9 t ht).value]
    cases ht1 : t.1 <;> rw [ht1] at hk <;> simp [kindOf, valueBytes] at hk ⊢
  have hserved : Served (csvParse num) data s ⟨1, .csv, UInt64.ofNat (fileOf (hline :: rows.map (·.1)) []).length, 0⟩ is c db q op [] k p m := by
    refine ⟨h.sees, ⟨name, .null, _, hq, rfl, h2⟩, ?_, ?_⟩
    · intro h0
      rw [h0] at h5
      exact h6 (List.map_eq_nil_iff.1 h5.symm.eq_nil)
    · intro e he
      obtain ⟨t, ht, rfl⟩ := List.mem_map.1 (h5.mem_iff.1 he)
      have ht9 := h9 t ht
      have hmem : (t.1, t.2.1) ∈ cellsOf num headers name .null rows := by rw [h8]; exact List.mem_map_of_mem ht
      unfold cellsOf at hmem
      obtain ⟨r, hr, hmem⟩ := List.mem_flatMap.1 hmem
      obtain ⟨x, _, hx⟩ := List.mem_map.1 hmem
      have ht1 : t.2.1 = r.1 := (congrArg Prod.snd hx).symm
      have hlen : r.1.length ≤ t.2.2.2.length.toNat := by
        rw [← ht1, ← ht9.line]
        unfold record slice
        rw [List.length_take]; omega
      have := long r hr
      exact ⟨⟨ht9.dp, fun h0 => by simp [hw1] at h0⟩, ht9.ptr.1, by omega, ht9.ptr.2⟩
  have hb : leafBytes m.width (c k) = nullIndexBytes num headers name (hline.length + 1) rows := by
    rw [leafBytes_perm h5, h7, hw1]; rfl
  rw [← hb] at hex
  have hsw : SeenWidth (fun _ => 0) m (c k) := .inr ⟨rfl, hw1, hval⟩
  obtain ⟨xs, x1, x2⟩ := h1.exact (wd := fun _ => 0) hsw hserved hex select
  obtain ⟨_, _, es, _, ho, hperm, _, _⟩ := h1.served (wd := fun _ => 0) hsw hserved (fun b => Res.ok b)
  obtain ⟨out, o1, o2⟩ := cells_answer (w := .null) trivial h5 (hperm.nodup (ascending_nodup ho.is.asc)) h8 h9 x1
  rw [o2] at x2
  exact ⟨out, o1, x2⟩

end Appendable
