import Verif.Spec.QueryCsv
import Verif.Props.QueryJsonl
import Verif.Props.Csv
import Verif.Model.TsSelect
/-! C92: querying a CSV file. -/
namespace Appendable
open Spec Tree

variable {num : Bytes → Option UInt64} {data tail name hline : Bytes} {seen headers : List Bytes} {rows : List (Bytes × List Bytes)}
  {i : IndexFile} {s : PF} {db : TsDb} {β : Type}

/-- An entry of the index for a cell in a row. -/
structure CellAt (num : Bytes → Option UInt64) (data name : Bytes) (headers : List Bytes) (rows : List (Bytes × List Bytes)) (w : Tok)
    (t : Tok × Bytes × (RV × MemPtr)) : Prop where
  kind : kindOf t.1 = kindOf w
  value : t.2.2.1.value = valueBytes t.1
  line : record data t.2.2.2 = t.2.1
  dp : SmallPtr t.2.2.1.dp
  src : ∃ r ∈ rows, ∃ v, (name, v) ∈ headers.zip r.2 ∧ t.1 = cell num v ∧
    slice data t.2.2.1.dp.offset.toNat t.2.2.1.dp.length.toNat = v ∧ t.2.2.1.dp.length.toNat = v.length ∧ v.length ≤ t.2.2.2.length.toNat
  ptr : SmallPtr t.2.2.2 ∧ t.2.2.2.offset.toNat < data.length

theorem row_cells {w : Tok} (hw : isScalar w) (hd : data.length < 2 ^ 30) (line : MemPtr) (text : Bytes) :
    ∀ (vs hs : List Bytes) (pos : Nat), TextAt data pos (joinCommas vs) →
    ∃ L : List (Tok × Bytes × (RV × MemPtr)),
      entriesOf (rowJobs num line pos hs vs) name (kindOf w).code = L.map (fun t => t.2.2) ∧
      ((hs.zip vs).filter (fun x => decide (x.1 = name ∧ kindOf (cell num x.2) = kindOf w))).map (fun x => (cell num x.2, text)) =
        L.map (fun t => (t.1, t.2.1)) ∧
      ∀ t ∈ L, kindOf t.1 = kindOf w ∧ t.2.2.1.value = valueBytes t.1 ∧ t.2.1 = text ∧ t.2.2.2 = line ∧ SmallPtr t.2.2.1.dp ∧
        ∃ v, (name, v) ∈ hs.zip vs ∧ t.1 = cell num v ∧ slice data t.2.2.1.dp.offset.toNat t.2.2.1.dp.length.toNat = v ∧
          t.2.2.1.dp.length.toNat = v.length ∧ v.length ≤ (joinCommas vs).length
  | [], hs, pos, _ => ⟨[], by cases hs <;> rfl, by simp, by simp⟩
  | v :: vs, [], pos, _ => ⟨[], rfl, by simp, by simp⟩
  | v :: vs, h :: hs, pos, hat => by
    have hrest : ∃ L : List (Tok × Bytes × (RV × MemPtr)),
        entriesOf (rowJobs num line (pos + v.length + 1) hs vs) name (kindOf w).code = L.map (fun t => t.2.2) ∧
        ((hs.zip vs).filter (fun x => decide (x.1 = name ∧ kindOf (cell num x.2) = kindOf w))).map (fun x => (cell num x.2, text)) =
          L.map (fun t => (t.1, t.2.1)) ∧
        ∀ t ∈ L, kindOf t.1 = kindOf w ∧ t.2.2.1.value = valueBytes t.1 ∧ t.2.1 = text ∧ t.2.2.2 = line ∧ SmallPtr t.2.2.1.dp ∧
          ∃ v, (name, v) ∈ hs.zip vs ∧ t.1 = cell num v ∧ slice data t.2.2.1.dp.offset.toNat t.2.2.1.dp.length.toNat = v ∧
            t.2.2.1.dp.length.toNat = v.length ∧ v.length ≤ (joinCommas vs).length := by
      cases vs with
      | nil => exact ⟨[], by cases hs <;> rfl, by simp, by simp⟩
      | cons v' vs =>
        have e : joinCommas (v :: v' :: vs) = v ++ ([44] ++ joinCommas (v' :: vs)) := rfl
        rw [e] at hat
        exact row_cells hw hd line text (v' :: vs) hs _ (by simpa [Nat.add_assoc] using hat.right.right)
    obtain ⟨L, l1, l2, l3⟩ := hrest
    have hv : TextAt data pos v := by
      cases vs with
      | nil => exact hat
      | cons v' vs => exact hat.left
    have hle : v.length ≤ (joinCommas (v :: vs)).length := joinCommas_le [] vs v
    have hle2 : (joinCommas vs).length ≤ (joinCommas (v :: vs)).length := by
      cases vs with
      | nil => simp [joinCommas]
      | cons v' vs => simp [joinCommas]; omega
    have hlen := hv.len
    have e1 : (UInt64.ofNat pos).toNat = pos := by rw [UInt64.toNat_ofNat']; omega
    have e2 : (UInt32.ofNat v.length).toNat = v.length := by rw [UInt32.toNat_ofNat']; omega
    have keep : ∀ t ∈ L, kindOf t.1 = kindOf w ∧ t.2.2.1.value = valueBytes t.1 ∧ t.2.1 = text ∧ t.2.2.2 = line ∧ SmallPtr t.2.2.1.dp ∧
        ∃ u, (name, u) ∈ (h :: hs).zip (v :: vs) ∧ t.1 = cell num u ∧ slice data t.2.2.1.dp.offset.toNat t.2.2.1.dp.length.toNat = u ∧
          t.2.2.1.dp.length.toNat = u.length ∧ u.length ≤ (joinCommas (v :: vs)).length := by
      intro t ht
      obtain ⟨a, b, c, d, e, u, u1, u2, u3, u4, u5⟩ := l3 t ht
      exact ⟨a, b, c, d, e, u, by rw [List.zip_cons_cons]; exact List.mem_cons_of_mem _ u1, u2, u3, u4, by omega⟩
    by_cases hc : h = name ∧ kindOf (cell num v) = kindOf w
    · refine ⟨(cell num v, text, (⟨⟨UInt64.ofNat pos, UInt32.ofNat v.length⟩, valueBytes (cell num v)⟩, line)) :: L, ?_, ?_, ?_⟩
      · rw [rowJobs, show ∀ (j : Job) (l : List Job), j :: l = [j] ++ l from fun _ _ => rfl, entriesOf_append, l1]
        simp [entriesOf, hc.1, hc.2]
      · rw [List.zip_cons_cons, List.filter_cons, if_pos (by simpa using hc), List.map_cons, l2]; rfl
      · intro t ht
        rcases List.mem_cons.1 ht with rfl | ht
        · refine ⟨hc.2, rfl, rfl, rfl, ⟨?_, ?_⟩, v, ?_, rfl, ?_, e2, hle⟩
          · show (UInt64.ofNat pos).toNat < _; omega
          · show (UInt32.ofNat v.length).toNat < _; omega
          · rw [List.zip_cons_cons, hc.1]; exact List.mem_cons_self
          · show slice data (UInt64.ofNat pos).toNat (UInt32.ofNat v.length).toNat = v
            rw [e1, e2]; exact hv.take
        · exact keep t ht
    · refine ⟨L, ?_, ?_, keep⟩
      · rw [rowJobs, show ∀ (j : Job) (l : List Job), j :: l = [j] ++ l from fun _ _ => rfl, entriesOf_append, l1]
        have : ¬ (h = name ∧ (kindOf (cell num v)).code = (kindOf w).code) := by rw [kindOf_code hw]; exact hc
        simp [entriesOf, this]
      · rw [List.zip_cons_cons, List.filter_cons, if_neg (by simpa using hc), l2]

theorem table_cells {w : Tok} (hw : isScalar w) (hd : data.length < 2 ^ 30) : ∀ (rows : List (Bytes × List Bytes)) (pre : Bytes),
    data = pre ++ fileOf (rows.map (·.1)) tail → (∀ r ∈ rows, PlainRow r.1 r.2) →
    ∃ L : List (Tok × Bytes × (RV × MemPtr)),
      entriesOf (rowsJobs num headers pre.length rows) name (kindOf w).code = L.map (fun t => t.2.2) ∧
      cellsOf num headers name w rows = L.map (fun t => (t.1, t.2.1)) ∧ ∀ t ∈ L, CellAt num data name headers rows w t := by
  intro rows
  induction rows with
  | nil => intro pre _ _; exact ⟨[], rfl, rfl, by simp⟩
  | cons r rows ih =>
    obtain ⟨text, fs⟩ := r
    intro pre hdata hok
    have hdata' : data = (pre ++ text ++ [10]) ++ fileOf (rows.map (·.1)) tail := by rw [hdata]; simp [fileOf]
    obtain ⟨L, i1, i2, i3⟩ := ih (pre ++ text ++ [10]) hdata' (fun r hr => hok r (by simp [hr]))
    have hpl : (pre ++ text ++ [10]).length = pre.length + text.length + 1 := by simp; omega
    rw [hpl] at i1
    have hlen : pre.length + text.length + 1 ≤ data.length := by
      have := congrArg List.length hdata'
      simp only [List.length_append, List.length_singleton] at this
      omega
    have ho : (UInt64.ofNat pre.length).toNat = pre.length := by rw [UInt64.toNat_ofNat']; omega
    have hl : (UInt32.ofNat text.length).toNat = text.length := by rw [UInt32.toNat_ofNat']; omega
    have hrec : record data ⟨UInt64.ofNat pre.length, UInt32.ofNat text.length⟩ = text := by
      unfold record slice
      rw [ho, hl, hdata', List.append_assoc, List.append_assoc, List.drop_left, List.take_left]
    have hp := hok (text, fs) (by simp)
    have htext : TextAt data pre.length text := by
      refine ⟨[10] ++ fileOf (rows.map (·.1)) tail, ?_, by omega⟩
      rw [hdata', List.append_assoc, List.append_assoc, List.drop_left]
    have hat : TextAt data pre.length (joinCommas fs) := by
      rcases hp.1 with e | e
      · have e : text = joinCommas fs := e
        rw [← e]; exact htext
      · have e : text = joinCommas fs ++ [13] := e
        rw [e] at htext; exact htext.left
    have hpl' := plainRow_len hp
    simp only at hpl'
    obtain ⟨L0, j1, j2, j3⟩ := row_cells (num := num) (name := name) hw hd ⟨UInt64.ofNat pre.length, UInt32.ofNat text.length⟩ text fs headers pre.length hat
    refine ⟨L0 ++ L, ?_, ?_, ?_⟩
    · rw [rowsJobs, entriesOf_append, i1, j1, List.map_append]
    · unfold cellsOf at i2 ⊢
      rw [List.flatMap_cons, i2, List.map_append]
      simp only [j2]
    · intro t ht
      rcases List.mem_append.1 ht with ht | ht
      · obtain ⟨a, b, c, d, e, u, u1, u2, u3, u4, u5⟩ := j3 t ht
        refine ⟨a, b, by rw [c, d]; exact hrec, e, ⟨(text, fs), List.mem_cons_self, u, u1, u2, u3, u4, ?_⟩, ?_⟩
        · rw [d]
          show u.length ≤ (UInt32.ofNat text.length).toNat
          omega
        · rw [d]
          refine ⟨⟨?_, ?_⟩, ?_⟩
          · show (UInt64.ofNat pre.length).toNat < _; omega
          · show (UInt32.ofNat text.length).toNat < _; omega
          · show (UInt64.ofNat pre.length).toNat < _; omega
      · obtain ⟨a, b, c, d, ⟨r, hr, e⟩, f⟩ := i3 t ht
        exact ⟨a, b, c, d, ⟨r, List.mem_cons_of_mem _ hr, e⟩, f⟩

theorem rowJobs_ty (line : MemPtr) : ∀ (vs hs : List Bytes) (pos : Nat), ∀ j ∈ rowJobs num line pos hs vs, j.ty ≠ 1 ∧ j.ty ≠ 2
  | [], hs, pos, j, hj => by cases hs <;> simp [rowJobs] at hj
  | v :: vs, [], pos, j, hj => by simp [rowJobs] at hj
  | v :: vs, h :: hs, pos, j, hj => by
    rw [rowJobs] at hj
    rcases List.mem_cons.1 hj with rfl | hj
    · simp only
      cases cell num v <;> simp [kindOf, FieldType.code]
    · exact rowJobs_ty line vs hs _ j hj

theorem rowsJobs_ty : ∀ (rows : List (Bytes × List Bytes)) (off : Nat), ∀ j ∈ rowsJobs num headers off rows, j.ty ≠ 1 ∧ j.ty ≠ 2
  | [], _, j, hj => by simp [rowsJobs] at hj
  | (text, fs) :: rows, off, j, hj => by
    rw [rowsJobs, List.mem_append] at hj
    rcases hj with hj | hj
    · exact rowJobs_ty _ _ _ _ j hj
    · exact rowsJobs_ty rows _ j hj

/-- The client picks the index of a name and type, if there is none of the two other number types. -/
theorem Done.picks {is : List (LP × IndexMeta)} {c : Nat → List (RV × MemPtr)} {js : List Job} (h : Done is c js)
    (hty : ∀ j ∈ js, j.ty ≠ 1 ∧ j.ty ≠ 2) {k : Nat} {p : LP} {m : IndexMeta} (hk : is[k]? = some (p, m)) :
    Picks is m.fieldName m.fieldType.toNat k p m := by
  refine ⟨hk, rfl, .inl rfl, fun j x hj hx ⟨h1, h2⟩ => ?_⟩
  have hnd := nodup_firstOccurrences (js.map (fun j => (j.name, j.ty)))
  have hkeys : is.map (fun x => (x.2.fieldName, x.2.fieldType)) = firstOccurrences (js.map (fun j => (j.name, j.ty))) := h.keys
  rcases h2 with h2 | ⟨h2, h3⟩
  · rw [UInt8.toNat_inj] at h2
    rw [← hkeys] at hnd
    have hjl := (List.getElem?_eq_some_iff.1 hx).1
    have hkl := (List.getElem?_eq_some_iff.1 hk).1
    refine List.pairwise_iff_getElem.1 hnd j k (by simpa using hjl) (by simpa using hkl) hj ?_
    simp only [List.getElem_map, (List.getElem?_eq_some_iff.1 hx).2, (List.getElem?_eq_some_iff.1 hk).2, h1, h2]
  · have hm : (x.2.fieldName, x.2.fieldType) ∈ is.map (fun x => (x.2.fieldName, x.2.fieldType)) :=
      List.mem_map.2 ⟨x, List.mem_of_getElem? hx, rfl⟩
    rw [hkeys, mem_firstOccurrences] at hm
    obtain ⟨j', hj', he⟩ := List.mem_map.1 hm
    simp only [Prod.mk.injEq] at he
    have := hty j' hj'
    rw [he.2] at this
    rcases h3 with h3 | h3 <;> simp [h3] at this

/-- The index of one kind of cells of a column. -/
theorem csv_index (h : CsvFile num data seen i s hline headers rows tail db) {w : Tok} (hw : isScalar w)
    (hne : cellsOf num headers name w rows ≠ []) :
    ∃ (is : List (LP × IndexMeta)) (c : Nat → List (RV × MemPtr)) (k : Nat) (p : LP) (m : IndexMeta) (L : List (Tok × Bytes × (RV × MemPtr))),
      IndexIs data (csvParse num) (fun _ => 0) s ⟨1, .csv, UInt64.ofNat (fileOf (hline :: rows.map (·.1)) []).length, 0⟩ is c ∧
      Picks is name (kindOf w).code.toNat k p m ∧ m.width = determineTypeByte (kindOf w).code ∧ m.fieldType = (kindOf w).code ∧
      (c k).Perm (L.map (fun t => t.2.2)) ∧ L ≠ [] ∧
      L.map (fun t => t.2.2) = entriesOf (rowsJobs num headers (hline.length + 1) rows) name (kindOf w).code ∧
      cellsOf num headers name w rows = L.map (fun t => (t.1, t.2.1)) ∧ ∀ t ∈ L, CellAt num data name headers rows w t := by
  have hsz := h.size
  obtain ⟨_, _, is, c, hj⟩ := csvRun_is h.run (by omega) h.table h.lines (List.prefix_refl _) h.seen
  have hj2 : JIs data (csvParse num) (fun _ => 0) s ⟨1, .csv, UInt64.ofNat (fileOf (hline :: rows.map (·.1)) []).length, 0⟩ is c
      (rowsJobs num headers (hline.length + 1) rows) := by
    have : rows.take ((hline :: rows.map (·.1)).length - 1) = rows := by simp
    unfold CsvAt csvJobs at hj
    rwa [this] at hj
  have hpre : (hline ++ [10]).length = hline.length + 1 := by simp
  obtain ⟨L, l1, l2, l3⟩ := table_cells (num := num) (headers := headers) (name := name) (tail := tail) hw hsz rows (hline ++ [10])
    (by rw [h.lines.1, fileOf_cons]; simp) (fun r hr => (h.table.row r hr).1)
  rw [hpre] at l1
  have hL : L ≠ [] := by rintro rfl; exact hne l2
  have hmem : (name, (kindOf w).code) ∈ (rowsJobs num headers (hline.length + 1) rows).map (fun j => (j.name, j.ty)) := by
    apply Decidable.byContradiction
    intro hn
    rw [entriesOf_none hn] at l1
    exact hL (List.map_eq_nil_iff.1 l1.symm)
  obtain ⟨k, p, hk, hc⟩ := hj2.done.at hmem
  have hpick := hj2.done.picks (rowsJobs_ty rows _) hk
  exact ⟨is, c, k, p, _, L, hj2.idx, hpick, rfl, rfl, by rw [← l1]; exact hc, hL, l1.symm, l2, l3⟩

/-- The entries of an answer, in terms of the cells. -/
theorem cells_answer {w : Tok} (hw : isScalar w) {op : TsOp} {d : TsDir} {es xs : List (RV × MemPtr)} {L : List (Tok × Bytes × (RV × MemPtr))}
    (hc : es.Perm (L.map (fun t => t.2.2))) (hnd : es.Nodup) (l2 : cellsOf num headers name w rows = L.map (fun t => (t.1, t.2.1)))
    (l3 : ∀ t ∈ L, CellAt num data name headers rows w t) (hx : Answer es op (valueBytes w) d xs) :
    ∃ out : List (Tok × Bytes), IsCsvAnswer num headers name op w rows d out ∧
      ∀ {β : Type} (select : Bytes → Res β), rowsOf data select xs = rowsFor select (out.map (·.2)) := by
  obtain ⟨x1, x2⟩ := hx
  have hnd' : (L.map (fun t => t.2.2)).Nodup := hc.nodup hnd
  have hiff : ∀ t ∈ L, (Matches op t.2.2.1.value (valueBytes w) ↔ Meets op t.1 w) := by
    intro t ht
    rw [(l3 t ht).value]
    exact (meets_iff hw (l3 t ht).kind op).symm
  classical
  have hxs : xs.Perm ((L.filter (fun t => decide (Meets op t.1 w))).map (fun t => t.2.2)) := by
    refine (List.perm_ext_iff_of_nodup (ordered_nodup x2) (hnd'.sublist ((List.filter_sublist).map _))).2 fun e => ?_
    rw [x1, hc.mem_iff, List.mem_map, List.mem_map]
    constructor
    · rintro ⟨⟨t, ht, rfl⟩, hm⟩
      exact ⟨t, List.mem_filter.2 ⟨ht, by simpa using (hiff t ht).1 hm⟩, rfl⟩
    · rintro ⟨t, ht, rfl⟩
      rw [List.mem_filter, decide_eq_true_eq] at ht
      exact ⟨⟨t, ht.1, rfl⟩, (hiff t ht.1).2 ht.2⟩
  obtain ⟨M, m1, rfl⟩ := perm_map (fun t : Tok × Bytes × (RV × MemPtr) => t.2.2) hxs _ rfl
  have hM : ∀ t ∈ M, CellAt num data name headers rows w t := fun t ht => l3 t (List.mem_filter.1 (m1.mem_iff.1 ht)).1
  have key : ∀ {x y : Tok × Bytes × (RV × MemPtr)}, x ∈ M → y ∈ M → KeyLt x.2.2.1 y.2.2.1 → ¬ Before y.1 x.1 := by
    intro x y hx hy hlt hb
    unfold Before at hb
    rw [← (hM x hx).value, ← (hM y hy).value] at hb
    exact hlt.asymm (.inl hb)
  refine ⟨M.map (fun t => (t.1, t.2.1)), ⟨?_, ?_⟩, fun select => ?_⟩
  · rw [l2, List.filter_map]
    exact m1.map _
  · cases d with
    | asc =>
      have h : List.Pairwise _ (M.map _) := x2
      rw [List.pairwise_map] at h
      show List.Pairwise _ (M.map _)
      rw [List.pairwise_map]
      exact h.imp_of_mem (fun hx hy hlt => key hx hy hlt)
    | desc =>
      have h : List.Pairwise _ (M.map _).reverse := x2
      rw [List.pairwise_reverse, List.pairwise_map] at h
      show List.Pairwise _ (M.map _)
      rw [List.pairwise_map]
      exact h.imp_of_mem (fun hx hy hlt => key hy hx hlt)
  · rw [gather_rows, List.map_map, List.map_map]
    rw [List.map_congr_left (f := (fun e : RV × MemPtr => record data e.2) ∘ fun t : Tok × Bytes × (RV × MemPtr) => t.2.2)
      (g := (fun x : Tok × Bytes => x.2) ∘ fun t : Tok × Bytes × (RV × MemPtr) => (t.1, t.2.1)) (fun t ht => (hM t ht).line)]

theorem cell_str {v b : Bytes} (h : cell num v = .str b) : b = v := by
  unfold cell at h
  split at h
  · cases h
  · split at h
    · cases h
    · split at h
      · cases h
      · split at h
        · cases h
        · exact (Tok.str.inj h).symm

/-- A query for texts finds an index that the client can read. -/
theorem csv_served (h : CsvFile num data seen i s hline headers rows tail db) {q : TsQuery} {op : TsOp} {v : Bytes}
    (hq : q.where_ = [⟨name, op, .str v⟩]) (hne : cellsOf num headers name (.str v) rows ≠ [])
    (long : ∀ r ∈ rows, ∀ x ∈ headers.zip r.2, x.1 = name → kindOf (cell num x.2) = .string → 2 ≤ x.2.length) :
    ∃ (fm : FileMeta) (is : List (LP × IndexMeta)) (c : Nat → List (RV × MemPtr)) (k : Nat) (p : LP) (m : IndexMeta),
      IndexIs data (csvParse num) (fun m => (fun _ => 0) m.width) s fm is c ∧ m.width = 0 ∧
      Served (csvParse num) data s fm is c db q op v k p m ∧
      leafBytes m.width (c k) = textIndexBytes num headers name (hline.length + 1) rows ∧
      ∀ (d : TsDir) (xs : List (RV × MemPtr)), Answer (c k) op v d xs →
        ∃ out : List (Tok × Bytes), IsCsvAnswer num headers name op (.str v) rows d out ∧
          ∀ {β : Type} (select : Bytes → Res β), rowsOf data select xs = rowsFor select (out.map (·.2)) := by
  obtain ⟨is, c, k, p, m, L, h1, h2, h3, h4, h5, h6, h7, h8, h9⟩ := csv_index h (w := .str v) trivial hne
  have hm0 : m.width = 0 := h3
  have hserved : Served (csvParse num) data s ⟨1, .csv, UInt64.ofNat (fileOf (hline :: rows.map (·.1)) []).length, 0⟩ is c db q op v k p m := by
    refine ⟨h.sees, ⟨name, .str v, _, hq, rfl, h2⟩, ?_, ?_⟩
    · intro h0
      rw [h0] at h5
      exact h6 (List.map_eq_nil_iff.1 h5.symm.eq_nil)
    · intro e he
      obtain ⟨t, ht, rfl⟩ := List.mem_map.1 (h5.mem_iff.1 he)
      obtain ⟨e1, e2, e3, e4, ⟨r, hr, u, u1, u2, u3, u4, u5⟩, e6⟩ := h9 t ht
      have hk : kindOf (cell num u) = .string := by rw [← u2]; exact e1
      have h2u := long r hr _ u1 rfl hk
      refine ⟨⟨e4, fun _ => ⟨by simp only at h2u ⊢; omega, ?_⟩⟩, e6.1, by simp only at h2u ⊢; omega, e6.2⟩
      have hstr : ∃ b, cell num u = .str b := by
        cases hcu : cell num u <;> rw [hcu] at hk <;> simp [kindOf] at hk ⊢
      obtain ⟨b, hb⟩ := hstr
      rw [show slice (⟨data, csvParse num, m.width⟩ : Cfg).data t.2.2.1.dp.offset.toNat t.2.2.1.dp.length.toNat = u from u3, e2, u2, hb, cell_str hb]
      exact h.cells _ _
  refine ⟨_, is, c, k, p, m, h1, hm0, hserved, ?_, fun d xs hx => ?_⟩
  · rw [leafBytes_perm h5, h7, hm0]; rfl
  · obtain ⟨_, _, es, _, ho, hperm, _, _⟩ := h1.served (wd := fun _ => 0) (.inl hm0.symm) hserved (fun b => Res.ok b)
    exact cells_answer (w := .str v) trivial h5 (hperm.nodup (ascending_nodup ho.is.asc)) h8 h9 hx

/-- **C92**, partial: on a CSV file without quotes, whose texts in the column have at least two bytes, a query for texts reads exactly the rows
whose cell meets the condition, each once, sorted by the cell, in the cases that `Exact` lists.  What the caller gets is `select` of
each row, see `C92_rows_violated`.  What is missing: numbers and booleans (`C92_number_violated`), texts of one byte, and the
cases of C46 and C47. -/
theorem C92_text_partial (h : CsvFile num data seen i s hline headers rows tail db) {q : TsQuery} {op : TsOp} {v : Bytes} {d : TsDir}
    (hq : q.where_ = [⟨name, op, .str v⟩]) (hne : cellsOf num headers name (.str v) rows ≠ [])
    (long : ∀ r ∈ rows, ∀ x ∈ headers.zip r.2, x.1 = name → kindOf (cell num x.2) = .string → 2 ≤ x.2.length)
    (hex : Exact op q.dir (textIndexBytes num headers name (hline.length + 1) rows) d) (select : Bytes → Res β) :
    ∃ out : List (Tok × Bytes), IsCsvAnswer num headers name op (.str v) rows d out ∧ Returns db select q (rowsFor select (out.map (·.2))) := by
  obtain ⟨fm, is, c, k, p, m, hi, hm0, hserved, hb, hr⟩ := csv_served h hq hne long
  rw [← hb] at hex
  obtain ⟨xs, x1, x2⟩ := hi.exact (wd := fun _ => 0) (.inl hm0.symm) hserved hex select
  obtain ⟨out, h1, h2⟩ := hr d xs x1
  rw [h2] at x2
  exact ⟨out, h1, x2⟩

/-! ### Rows are not JSON -/

theorem ws_no {b : Bytes} (h : Ws b) : (44 : UInt8) ∉ b := by
  intro hc
  rcases h _ hc with h | h | h | h <;> simp at h

theorem digits_no {b : Bytes} (h : Digits b) : (44 : UInt8) ∉ b := by
  intro hc
  have := (h.2 _ hc).1
  simp at this

theorem num_no {n : Num} (h : n.WF) : (44 : UInt8) ∉ n.text := by
  intro hc
  unfold Num.text at hc
  simp only [List.mem_append] at hc
  rcases hc with hc | hc | hc | hc
  · split at hc <;> simp at hc
  · exact digits_no h.int hc
  · unfold Num.fracText at hc
    split at hc
    · simp at hc
    · rename_i f hf
      simp only [List.mem_cons] at hc
      rcases hc with hc | hc
      · simp at hc
      · exact digits_no (h.frac f hf) hc
  · unfold Num.expText at hc
    split at hc
    · simp at hc
    · rename_i u sg ds hf
      have hds := digits_no (h.exp _ hf)
      simp only [List.mem_cons, List.mem_append] at hc
      rcases hc with hc | hc | hc
      · split at hc <;> simp at hc
      · split at hc <;> simp at hc
      · exact hds hc

/-- A text with a comma and without quotes that does not begin with a bracket is not JSON. -/
theorem not_json {t : Bytes} (h1 : (44 : UInt8) ∈ t) (h2 : (34 : UInt8) ∉ t) (h3 : ∀ ws rest, Ws ws → t ≠ ws ++ 91 :: rest) : ¬ IsJson t := by
  rintro ⟨pre, v, post, p1, hv, p2, rfl⟩
  have hq : (34 : UInt8) ∉ v.text := fun h => h2 (by simp [h])
  have hc : (44 : UInt8) ∈ v.text := by
    rcases List.mem_append.1 h1 with h | h
    · exact absurd h (ws_no p1)
    · rcases List.mem_append.1 h with h | h
      · exact h
      · exact absurd h (ws_no p2)
  cases v with
  | str l => apply hq; unfold Doc.text Lit.text; simp
  | num n => unfold Doc.WF at hv; unfold Doc.text at hc; exact num_no hv.1 hc
  | bool b => cases b <;> (unfold Doc.text at hc; simp at hc)
  | null => unfold Doc.text at hc; simp at hc
  | arr ws items => refine h3 pre (ws ++ items.text true ++ post) p1 ?_; rw [Doc.text]; rfl
  | obj ws ms =>
    cases ms with
    | nil =>
      unfold Doc.WF at hv
      unfold Doc.text Members.text at hc
      simp only [List.mem_cons, List.mem_append] at hc
      rcases hc with hc | hc | hc | hc
      · simp at hc
      · exact ws_no hv.1 hc
      · simp at hc
      · simp at hc
    | cons pre key gap mid v post rest => apply hq; unfold Doc.text Members.text Lit.text; simp

theorem joinCommas_comma : ∀ {fs : List Bytes}, 2 ≤ fs.length → (44 : UInt8) ∈ joinCommas fs
  | a :: b :: l, _ => by simp [joinCommas]

theorem joinCommas_free {c : UInt8} (hc : c ≠ 44) : ∀ {fs : List Bytes}, (∀ f ∈ fs, c ∉ f) → c ∉ joinCommas fs
  | [], _ => by simp [joinCommas]
  | [a], h => by simpa [joinCommas] using h
  | a :: b :: l, h => by
    have := joinCommas_free hc (fs := b :: l) (fun f hf => h f (by simp [hf]))
    simp only [joinCommas, List.mem_append, List.mem_cons, not_or]
    exact ⟨h a (by simp), hc, this⟩

theorem row_not_json {text : Bytes} {fs : List Bytes} (h : PlainRow text fs) (h2 : 2 ≤ fs.length) (h3 : ∀ ws rest, Ws ws → text ≠ ws ++ 91 :: rest) :
    ¬ IsJson text := by
  have hq : (34 : UInt8) ∉ joinCommas fs := joinCommas_free (by decide) (fun f hf => (h.2.2 f hf).1)
  have hc := joinCommas_comma h2
  refine not_json ?_ ?_ h3
  · rcases h.1 with e | e <;> rw [e] <;> simp [hc]
  · rcases h.1 with e | e <;> rw [e] <;> simp [hq]

theorem cellsOf_row {w : Tok} {x : Tok × Bytes} (h : x ∈ cellsOf num headers name w rows) : ∃ r ∈ rows, x.2 = r.1 := by
  unfold cellsOf at h
  obtain ⟨r, hr, hx⟩ := List.mem_flatMap.1 h
  obtain ⟨y, _, rfl⟩ := List.mem_map.1 hx
  exact ⟨r, hr, rfl⟩

/-- **C92** is violated by every CSV file whose rows have two fields or more: a query that should return rows returns none, and throws, because the
client parses each row as JSON.  (`JSON.parse` throws on texts that are not JSON; rows that begin with `[` are left out, because
`[1,2]` is JSON.) -/
theorem C92_rows_violated {V : Type} (h : CsvFile num data seen i s hline headers rows tail db) {q : TsQuery} {op : TsOp} {v : Bytes} {d : TsDir}
    (hq : q.where_ = [⟨name, op, .str v⟩]) (hmatch : ∃ x ∈ cellsOf num headers name (.str v) rows, Meets op x.1 (.str v))
    (long : ∀ r ∈ rows, ∀ x ∈ headers.zip r.2, x.1 = name → kindOf (cell num x.2) = .string → 2 ≤ x.2.length)
    (hex : Exact op q.dir (textIndexBytes num headers name (hline.length + 1) rows) d)
    (many : ∀ r ∈ rows, 2 ≤ r.2.length ∧ ∀ ws rest, Ws ws → r.1 ≠ ws ++ 91 :: rest)
    (env : JsEnv V) (json : ∀ t, ¬ IsJson t → ∃ e, env.parse t = .err e) (fields : Option (List Bytes)) :
    ∃ e, Returns db (fun row => handleSelect env row fields) q ⟨[], some e⟩ := by
  obtain ⟨x, hx, hxm⟩ := hmatch
  obtain ⟨out, h1, h2⟩ := C92_text_partial h hq (List.ne_nil_of_mem hx) long hex (fun row => handleSelect env row fields)
  classical
  have hxo : x ∈ out := h1.1.mem_iff.2 (List.mem_filter.2 ⟨hx, by simpa using hxm⟩)
  cases out with
  | nil => simp at hxo
  | cons y out =>
    have hy := (List.mem_filter.1 (h1.1.mem_iff.1 List.mem_cons_self)).1
    obtain ⟨r, hr, hyr⟩ := cellsOf_row hy
    obtain ⟨m1, m2⟩ := many r hr
    obtain ⟨e, he⟩ := json _ (row_not_json (h.table.row r hr).1 m1 m2)
    refine ⟨e, ?_⟩
    have : rowsFor (fun row => handleSelect env row fields) ((y :: out).map (·.2)) = ⟨[], some e⟩ := by
      rw [List.map_cons, rowsFor, hyr]
      have : handleSelect env r.1 fields = .err e := by unfold handleSelect; rw [he]; rfl
      rw [this]
    rwa [this] at h2

/-! ### Numbers and booleans -/

theorem putUvarint_small {v : UInt64} (h : v.toNat < 128) : putUvarint v = [UInt8.ofNat v.toNat] := by
  unfold putUvarint
  rw [uvarintLoop]
  simp [h]

theorem jsSlice_head {buf : Bytes} {m : Nat} {b : UInt8} {s : Bytes} (h : At buf m (b :: s)) {e : Int} (he : (m : Int) < e) :
    (jsSlice buf m e).head? = some b := by
  obtain ⟨h1, h2⟩ := h
  have h3 : m < buf.length := by
    have := congrArg List.length h1
    simp at this; omega
  unfold jsSlice jsIndex
  rw [if_neg (by omega), if_neg (by omega), Int.toNat_natCast, Nat.min_eq_left h2, h1]
  obtain ⟨j, hj⟩ : ∃ j, min e.toNat buf.length - m = j + 1 := ⟨min e.toNat buf.length - m - 1, by omega⟩
  rw [hj]; rfl

/-- A leaf with one key whose value is not stored, read with a width: the value is taken from the bytes behind the key. -/
theorem misread {dat : Resolver} {parse : Bytes → Res Bytes} {k : RV} {p : MemPtr} (hk : SmallPtr k.dp) (ho : p.offset.toNat < 128) {W : Nat}
    (hW : 2 ≤ W) (rest : Bytes) : ∃ val q, tsUnmarshal dat parse W ((⟨[p], [], [k]⟩ : Node).content 0 ++ rest) = .ok ⟨[⟨k.dp.ts, val⟩], [q], []⟩ ∧
      val.head? = some (UInt8.ofNat p.offset.toNat) := by
  obtain ⟨n, hn⟩ : ∃ n : Node, n = ⟨[p], [], [k]⟩ := ⟨_, rfl⟩
  have hh : encHeader n = leBytes 4 (2 ^ 32 - 1) := by subst hn; rfl
  have hlh : (encHeader n).length = 4 := by rw [hh]; simp
  have hc : n.content 0 = encHeader n ++ (encLeafPtr k.dp ++ encLeafPtr p) := by
    subst hn; unfold Node.content; simp [encKey, encLeafPtr]
  have hAt0 : At (n.content 0 ++ rest) 4 (encLeafPtr k.dp ++ (encLeafPtr p ++ rest)) := by
    have := At.start (n.content 0 ++ rest)
    conv at this => rhs; rw [hc]
    simp only [List.append_assoc] at this
    have := this.advance
    rwa [hlh, Nat.zero_add] at this
  have hAt1 := hAt0.advance
  have hp : encLeafPtr p ++ rest = UInt8.ofNat p.offset.toNat :: (putUvarint p.length.toUInt64 ++ rest) := by
    unfold encLeafPtr
    rw [putUvarint_small ho]; rfl
  rw [hp] at hAt1
  have htake : (n.content 0 ++ rest).take 4 = encHeader n := by
    rw [hc, List.append_assoc]; exact List.take_left' hlh
  have hlen : ¬ (n.content 0 ++ rest).length < 4 := by
    rw [hc]; simp only [List.length_append, hlh]; omega
  have hle : leNat (encHeader n) = 2 ^ 32 - 1 := by rw [hh, leNat_leBytes _ _ (by omega)]
  rw [← hn]
  refine ⟨jsSlice (n.content 0 ++ rest) ((4 + (encLeafPtr k.dp).length : Nat) : Int) (((4 + (encLeafPtr k.dp).length : Nat) : Int) + W - 1),
    (tsReadPtr (n.content 0 ++ rest) (((4 + (encLeafPtr k.dp).length : Nat) : Int) + (jsSlice (n.content 0 ++ rest) ((4 + (encLeafPtr k.dp).length : Nat) : Int) (((4 + (encLeafPtr k.dp).length : Nat) : Int) + W - 1)).length)).1, ?_, jsSlice_head hAt1 (by omega)⟩
  · unfold tsUnmarshal
    rw [if_neg hlen]
    simp only [htake, hle]
    rw [if_neg (by omega)]
    simp only [show decide ((2 ^ 32 - 1 : Nat) > 2147483647) = true from rfl, if_true, show (2 ^ 32 - (2 ^ 32 - 1) : Nat) = 1 from rfl]
    simp only [tsReadMany, tsReadKey]
    rw [show ((4:Int)) = ((4:Nat):Int) from rfl, tsReadPtr_at hAt0 hk]
    simp only [show W ≠ 0 by omega, if_false, tsFetch, Res.bind_ok, Res.pure_eq]

theorem bsearch_one (k t : TsRV) : (tsBinarySearch [k] t).1 = 0 ∨ (tsBinarySearch [k] t).1 = 1 := by
  unfold tsBinarySearch
  simp only [List.length_singleton, bsearchLoop]
  simp
  omega

/-- A tree of one leaf with one key, whose value is not the one looked for. -/
theorem one_key {tt : TsTree} {k : TsRV} {q : TsPtr} (hr : tt.root = .ok ⟨[k], [q], []⟩) {v : Bytes} (hv : k.value ≠ v) (row : TsPtr → Res β)
    (ord : TsDir) (depth fuel : Nat) : tsClause tt (depth + 1) (fuel + 1) row .eq ord v = ⟨[], none⟩ := by
  have hinit : tt.initRecords (depth + 1) ⟨⟨0, 0⟩, v⟩ = .ok [⟨⟨[k], [q], []⟩, ((tsBinarySearch [k] ⟨⟨0, 0⟩, v⟩).1 : Int)⟩] := by
    unfold TsTree.initRecords
    rw [hr]
    simp only [Res.bind_ok, TsTree.traverse, TsNode.leaf, List.length_singleton]
    rfl
  have hclause : tsClause tt (depth + 1) (fuel + 1) row .eq ord v =
      tsScan tt (depth + 1) row true (fun k => tsCompareBytes k v ≠ 0) (fuel + 1) (tsIter ⟨⟨0, 0⟩, v⟩) := by cases ord <;> rfl
  rw [hclause, tsScan]
  simp only [if_true, TsIter.next, tsIter, hinit, Res.bind_ok, Res.pure_eq]
  rcases bsearch_one k ⟨⟨0, 0⟩, v⟩ with h | h
  · rw [h]
    have : ¬ tsCompareBytes k.value v = 0 := fun hc => hv ((cmp_eq _ _).1 hc)
    simp [TsNode.numPointers, TsIter.getKey, TsIter.getPointer, TsNode.pointer, TsNode.leaf, this]
  · rw [h]
    simp [TsNode.numPointers]

/-- **C92** is violated by numbers and booleans, too: in a file with one row, a query for the number that the row has in the column ends
without a row.  (The indexes of a CSV file hold no values, but their metadata tell the client to look for values of 8 bytes or
one byte.  What it finds there is the position of the row.)  The row starts before position 128, and not at the first byte of the
value. -/
theorem C92_number_violated {text : Bytes} {fs : List Bytes} (h : CsvFile num data seen i s hline headers [(text, fs)] tail db) {q : TsQuery}
    {value : JsVal} {w : Tok} (hq : q.where_ = [⟨name, .eq, value⟩]) (hv : tokOf value = some w) (hw : kindOf w = .float64 ∨ kindOf w = .boolean)
    (hcell : cellsOf num headers name w [(text, fs)] = [(w, text)]) (hsmall : hline.length + 1 < 128)
    (hhead : (valueBytes w).head? ≠ some (UInt8.ofNat (hline.length + 1))) (select : Bytes → Res β) :
    IsCsvAnswer num headers name .eq w [(text, fs)] .asc [(w, text)] ∧ Returns db select q ⟨[], none⟩ := by
  have hsc : isScalar w := by
    cases w <;> simp [kindOf] at hw <;> trivial
  refine ⟨⟨?_, ?_⟩, ?_⟩
  · rw [hcell]
    simp [Meets]
  · simp [Sorted]
  obtain ⟨is, c, k, p, m, L, h1, h2, h3, h4, h5, h6, h7, h8, h9⟩ := csv_index h hsc (name := name) (by rw [hcell]; simp)
  have hL : ∃ t, L = [t] := by
    rw [hcell] at h8
    cases L with
    | nil => simp at h8
    | cons t L => cases L with
      | nil => exact ⟨t, rfl⟩
      | cons => simp at h8
  obtain ⟨t, rfl⟩ := hL
  obtain ⟨⟨rk, rp⟩, hre⟩ : ∃ e, e = t.2.2 := ⟨_, rfl⟩
  have hent := h9 t (by simp)
  have hc : c k = [(rk, rp)] := by
    rw [hre]; exact List.perm_singleton.1 h5
  have hdp : SmallPtr rk.dp := by have := hent.dp; rwa [← hre] at this
  have hoff : rp.offset.toNat = hline.length + 1 := by
    have h7' : (rk, rp) ∈ entriesOf (rowsJobs num headers (hline.length + 1) [(text, fs)]) name (kindOf w).code := by
      rw [← h7, hre]; simp
    have key : ∀ (line : MemPtr) (vs hs : List Bytes) (pos : Nat), ∀ e ∈ entriesOf (rowJobs num line pos hs vs) name (kindOf w).code, e.2 = line := by
      intro line vs
      induction vs with
      | nil => intro hs pos e he; cases hs <;> simp [rowJobs, entriesOf] at he
      | cons v vs ih =>
        intro hs pos e he
        cases hs with
        | nil => simp [rowJobs, entriesOf] at he
        | cons a hs =>
          rw [rowJobs, show ∀ (j : Job) (l : List Job), j :: l = [j] ++ l from fun _ _ => rfl, entriesOf_append] at he
          rcases List.mem_append.1 he with he | he
          · simp only [entriesOf, List.flatMap_cons, List.flatMap_nil, List.append_nil] at he
            split at he
            · simp at he; rw [he]
            · simp at he
          · exact ih _ _ e he
    simp only [rowsJobs, List.append_nil] at h7'
    have := key _ _ _ _ _ h7'
    simp only at this
    rw [this]
    show (UInt64.ofNat (hline.length + 1)).toNat = _
    rw [UInt64.toNat_ofNat']; omega
  have hkp : is[k]? = some (p, m) := h2.1
  obtain ⟨free, ps, cnt, E, P, i1, i2, i3⟩ := h1.treeAt
  obtain ⟨ti, tw, tp⟩ := i1.forest.tree k _ (i3 k p m hkp)
  rw [hc] at tp
  have hE := List.perm_singleton.1 tp
  rw [hE] at ti
  have hroot := (h1.tsIndex h.sees.idx hkp).2
  rcases ti.root with ⟨_, r2, _⟩ | ⟨_, hh, r1, r2, _⟩
  · simp at r2
  have hh0 : hh = 0 := by
    apply Decidable.byContradiction
    intro hc0
    have := r2 hc0
    have b1 := putUvarint_length_le rk.dp.offset
    have b2 := putUvarint_length_le rk.dp.length.toUInt64
    have b3 := putUvarint_length_le rp.offset
    have b4 := putUvarint_length_le rp.length.toUInt64
    simp only [leafBytes, encKey, encLeafPtr, Appendable.treeAt, pageSize, List.map_cons, List.map_nil, List.sum_cons, List.sum_nil, List.length_append] at this
    simp at this
    omega
  subst hh0
  obtain ⟨n, qs, hn, _, hm⟩ := r1
  obtain ⟨hsh, hz, _⟩ := hm.1 rfl
  have hnode : n = ⟨[rp], [], [rk]⟩ := by
    obtain ⟨lp, ip, ks⟩ := n
    obtain ⟨s1, s2⟩ := hsh
    simp only at s1 s2 hz
    subst s2
    cases ks with
    | nil => simp at hz
    | cons a ks => cases lp with
      | nil => simp at hz
      | cons b lp =>
        rw [List.zip_cons_cons] at hz
        have hz1 := (List.cons.inj hz).1
        have hz2 := (List.cons.inj hz).2.symm
        simp only [List.length_cons, Nat.add_right_cancel_iff] at s1
        simp only [Prod.mk.injEq] at hz1
        cases ks with
        | nil => cases lp with
          | nil => rw [hz1.1, hz1.2]
          | cons => simp at s1
        | cons => cases lp with
          | nil => simp at s1
          | cons => simp at hz2
  subst hnode
  obtain ⟨rest, hrest⟩ := hn.stored
  have hW : 2 ≤ m.width.toNat := by
    rw [h3]
    rcases hw with hw | hw <;> rw [hw] <;> decide
  obtain ⟨val, qp, hun, hval⟩ := misread (dat := db.dat) (parse := db.parse (Format.csv).toByte.toNat m.fieldType.toNat) (p := rp) hdp (by omega) hW rest
  have hrt : (clientTree db ⟨1, .csv, UInt64.ofNat (fileOf (hline :: [(text, fs)].map (·.1)) []).length, 0⟩ p m).root = .ok ⟨[⟨rk.dp.ts, val⟩], [qp], []⟩ := by
    unfold TsTree.root clientTree
    simp only [hroot, Res.bind_ok]
    obtain ⟨off, hoffd⟩ : ∃ off, off = (MemPtr.decode (Appendable.slice s.file.bytes p.rootPos.toNat 12)).offset := ⟨_, rfl⟩
    have hn' : NodeAt ⟨data, csvParse num, 0⟩ s.file.bytes off ⟨[rp], [], [rk]⟩ := by rw [hoffd]; exact hn
    have hg1 := hn'.inside
    have h3' := h.sees.idx.one (a := (off.toNat : Int)) (b := (off.toNat : Int) + 4096 - 1) (by omega) (by omega) (by unfold pageSize at hg1; omega)
    have e : ((off.toNat : Int) + 4096 - 1 + 1 - (off.toNat : Int)).toNat = pageSize := by unfold pageSize; omega
    rw [e, Int.toNat_natCast] at h3'
    unfold TsTree.readNode
    simp only [MemPtr.ts]
    rw [← hoffd, h3']
    simp only [Res.bind_ok]
    change tsUnmarshal _ _ _ (pageAt s.file.bytes off.toNat) = _
    rw [hoffd]
    have : pageAt s.file.bytes (MemPtr.decode (Appendable.slice s.file.bytes p.rootPos.toNat 12)).offset.toNat = _ := hrest
    rw [this]
    exact hun
  refine ⟨is.length + 1, fun fuel hf => ?_⟩
  obtain ⟨f, rfl⟩ : ∃ f, fuel = f + 1 := ⟨fuel - 1, by omega⟩
  rw [h1.tsQuery h.sees.idx hq (process_tok hv).2 h2 (f + 1) (by omega)]
  refine one_key hrt ?_ _ _ _ _
  rintro rfl
  rw [hval, hoff] at hhead
  exact hhead rfl

end Appendable
