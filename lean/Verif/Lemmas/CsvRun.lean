import Verif.Lemmas.CsvSync
/-! Histories of the CSV `Synchronize`. -/
namespace Appendable
open Spec Tree

variable {num : Bytes → Option UInt64} {i : IndexFile} {data : Bytes} {s : PF} {is : List (LP × IndexMeta)}
  {c : Nat → List Entry} {hline : Bytes} {headers : List Bytes} {rows : List (Bytes × List Bytes)} {ls : List Bytes}

theorem JIs.csvNames {parse : Bytes → Bytes} {wd : UInt16 → UInt16} {fm : FileMeta} {js : List Job} (h : JIs data parse wd s fm is c js)
    (hi : i.tree = fileSlot) : ∃ q, i.indexFieldNames s = (.ok (firstOccurrences (js.map (·.name))), s.upd s.file.bytes q) := by
  obtain ⟨q, hq⟩ := h.idx.names hi
  exact ⟨q, by rw [hq, h.done.names]⟩

theorem fileOf_count (ls : List Bytes) (t : Bytes) : ls.length ≤ (fileOf ls t).length := by
  induction ls with
  | nil => simp
  | cons x l ih => rw [fileOf_cons]; simp only [List.length_append, List.length_cons]; omega

theorem plainRow_ne {text : Bytes} {fs : List Bytes} (h : PlainRow text fs) : fs ≠ [] := by rintro rfl; exact h.2.1 rfl

/-- The state after the lines `ls` of the table. -/
def CsvAt (num : Bytes → Option UInt64) (hline : Bytes) (headers : List Bytes) (rows : List (Bytes × List Bytes)) (data : Bytes) (s : PF)
    (is : List (LP × IndexMeta)) (c : Nat → List Entry) (ls : List Bytes) : Prop :=
  JIs data (csvParse num) (fun _ => 0) s ⟨1, .csv, UInt64.ofNat (fileOf ls []).length, 0⟩ is c (csvJobs num hline headers (rows.take (ls.length - 1)))

theorem csvStep (hi : i.tree = fileSlot) (hd : data.length < 2 ^ 64) (ht : PlainTable hline headers rows) (h1 : ls.length ≠ 1)
    {ks : List Bytes} {tail : Bytes} (hl : IsLines data (ls ++ ks) tail) (hpre : ls ++ ks <+: hline :: rows.map (·.1))
    (h : CsvAt num hline headers rows data s is c ls) :
    Steps data (csvParse num) (fun _ => 0) ⟨1, .csv, UInt64.ofNat (fileOf (ls ++ ks) []).length, 0⟩ (csvSync num i data) s
      (csvJobs num hline headers (rows.take ((ls ++ ks).length - 1))) (fun _ is' => Handles is is') := by
  obtain ⟨q, hq⟩ := h.idx.metadata hi
  have h' : CsvAt num hline headers rows data (s.upd s.file.bytes q) is c ls := ⟨h.idx.upd q, h.done⟩
  obtain ⟨q2, hq2⟩ := h'.csvNames hi
  have h2 : CsvAt num hline headers rows data ((s.upd s.file.bytes q).upd (s.upd s.file.bytes q).file.bytes q2) is c ls := ⟨h'.idx.upd q2, h'.done⟩
  have hls : ls ++ ks = (hline :: rows.map (·.1)).take (ls ++ ks).length := List.prefix_iff_eq_take.1 hpre
  have hlen : (ls ++ ks).length ≤ rows.length + 1 := by have := hpre.length_le; simpa using this
  unfold Steps csvSync
  rw [Act.bind_ok hq, Act.bind_ok hq2]
  refine csv_finish (fm := ⟨1, .csv, UInt64.ofNat (fileOf ls []).length, 0⟩) hi ?_
  cases ls with
  | nil =>
    rw [List.nil_append] at *
    have hj0 : csvJobs num hline headers (rows.take (([] : List Bytes).length - 1)) = [] := by simp [csvJobs, rowsJobs]
    rw [hj0]
    show Steps _ _ _ _ (csvLoop num i data (data.length + 1) [] ⟨1, .csv, 0, 0⟩) _ _ _
    unfold csvLoop
    simp only
    rw [if_neg (by show ¬ 0 > _; omega)]
    show Steps _ _ _ _ (match indexNewline (data.drop 0) with | none => _ | some n => _) _ _ _
    rw [List.drop_zero]
    unfold CsvAt at h2
    rw [hj0] at h2
    cases ks with
    | nil =>
      have hdt : data = tail := by rw [hl.1]; simp [fileOf]
      rw [indexNewline_none.2 (by rw [hdt]; exact hl.2.2)]
      simp only [List.length_nil, Nat.zero_sub, List.take_zero]
      exact Steps.pure h2 ⟨rfl, Handles.refl _⟩
    | cons k ks =>
      simp only [List.length_cons, List.take_succ_cons, List.cons.injEq] at hls
      obtain ⟨rfl, hks⟩ := hls
      have hdk : data = k ++ 10 :: fileOf ks tail := by rw [hl.1, fileOf_cons]
      have hk10 := hl.2.1 k (by simp)
      have hin : indexNewline data = some k.length := by rw [hdk]; exact indexNewline_line hk10 _
      rw [hin]
      simp only [if_true]
      have htk : data.take k.length = k := by rw [hdk, List.take_left']; rfl
      rw [show data.drop ((0 : UInt64).toNat) = data from rfl, htk, csvRead_plain ht.header]
      simp only
      have hks' : ks = (rows.take ks.length).map (·.1) := by rw [List.map_take]; exact hks
      have := csvLoopSteps (num := num) hi hd hl.2.2 (plainRow_ne ht.header) ht.names (rows.take ks.length) [k] (by
          rw [← hks', hdk]; simp [fileOf]) (by
          intro x hx
          refine hl.2.1 x.1 (List.mem_cons_of_mem _ ?_)
          rw [hks']; exact List.mem_map.2 ⟨x, hx, rfl⟩) (fun r hr => ht.row r (List.mem_of_mem_take hr)) (fuel := data.length) (by
          rw [List.length_take]
          have := fileOf_count ks tail
          rw [hdk]; simp only [List.length_append, List.length_cons]; omega)
        (m := ⟨1, .csv, UInt64.ofNat k.length + 1, 0⟩) (by
          show UInt64.ofNat k.length + 1 = _
          have : (fileOf [k] []).length = k.length + 1 := by simp [fileOf]
          rw [this, UInt64.ofNat_add]; rfl) h2
      have e1 : (fileOf [k] []).length = k.length + 1 := by simp [fileOf]
      rw [e1, ← hks', List.nil_append] at this
      have e2 : (0 : UInt64) + UInt64.ofNat k.length + 1 = UInt64.ofNat k.length + 1 := by simp
      simp only [List.length_cons, Nat.add_sub_cancel]
      rw [e2]
      exact this
  | cons k ls =>
    simp only [List.length_cons] at h1
    have hls0 : ls ≠ [] := by intro hc; apply h1; rw [hc]; rfl
    have hn : firstOccurrences ((csvJobs num hline headers (rows.take ((k :: ls).length - 1))).map (·.name)) = headers := by
      unfold csvJobs
      refine rowsJobs_headers num ht.distinct _ ?_ ?_
      · intro hc
        have : ls.length = 0 := by
          have h3 := congrArg List.length hc
          simp only [List.length_take, List.length_cons, List.length_append, List.length_nil] at h3 hlen
          omega
        exact hls0 (List.length_eq_zero_iff.1 this)
      · intro r hr
        rw [List.head?_take] at hr
        split at hr
        · cases hr
        · exact ht.first r hr
    rw [hn]
    simp only [List.cons_append, List.length_cons, List.take_succ_cons, List.cons.injEq] at hls
    obtain ⟨rfl, hks⟩ := hls
    have hk2 : ks = ((rows.take (ls ++ ks).length).drop ls.length).map (·.1) := by
      rw [List.map_drop, List.map_take, ← hks, List.drop_left']; rfl
    have hjob : csvJobs num k headers (rows.take ((k :: ls ++ ks).length - 1)) =
        csvJobs num k headers (rows.take ((k :: ls).length - 1)) ++
          rowsJobs num headers (fileOf (k :: ls) []).length ((rows.take (ls ++ ks).length).drop ls.length) := by
      unfold csvJobs
      have e1 : rows.take ((k :: ls ++ ks).length - 1) = rows.take ((k :: ls).length - 1) ++ (rows.take (ls ++ ks).length).drop ls.length := by
        have e0 : (rows.take (ls ++ ks).length).take ls.length = rows.take ls.length := by
          rw [List.take_take]; congr 1; simp
        simp only [List.cons_append, List.length_cons, Nat.add_sub_cancel]
        rw [← e0, List.take_append_drop]
      rw [e1, rowsJobs_append]
      congr 2
      have e3 : (rows.take ((k :: ls).length - 1)).map (·.1) = ls := by
        have := congrArg (List.take ls.length) hks
        rw [List.take_left' rfl, List.take_take] at this
        simp only [List.length_cons, Nat.add_sub_cancel]
        rw [List.map_take]
        have e4 : min ls.length (ls ++ ks).length = ls.length := by simp
        rw [e4] at this
        exact this.symm
      rw [e3, fileOf_cons]
      simp only [List.length_append, List.length_cons]; omega
    rw [hjob]
    have := csvLoopSteps (num := num) hi hd hl.2.2 (plainRow_ne ht.header) ht.names ((rows.take (ls ++ ks).length).drop ls.length) (k :: ls) (by
        rw [← hk2, hl.1, fileOf_append]) (by
        intro x hx
        refine hl.2.1 x.1 (List.mem_append_right _ ?_)
        rw [hk2]; exact List.mem_map.2 ⟨x, hx, rfl⟩) (fun r hr => ht.row r (List.mem_of_mem_take (List.mem_of_mem_drop hr)))
      (fuel := data.length + 1) (by
        have e := congrArg List.length hk2
        rw [List.length_map] at e
        rw [← e]
        have := fileOf_count (k :: ls ++ ks) tail
        rw [← hl.1] at this
        simp only [List.length_append] at this
        omega)
      (m := ⟨1, .csv, UInt64.ofNat (fileOf (k :: ls) []).length, 0⟩) rfl h2
    rw [← hk2] at this
    exact this

theorem csvRun_is {seen : List Bytes} (hr : CsvRun num data seen i s) (hd : data.length < 2 ^ 64) (ht : PlainTable hline headers rows)
    {tail : Bytes} (hl : IsLines data ls tail) (hpre : ls <+: hline :: rows.map (·.1)) (hs : ∀ d ∈ seen, ∀ l t, ¬ IsLines d [l] t) :
    i.tree = fileSlot ∧ ls.length ≠ 1 ∧ ∃ is c, CsvAt num hline headers rows data s is c ls := by
  induction hr generalizing ls tail with
  | @create f f' hs' i s hf hb h =>
    obtain ⟨s', e1, e2⟩ := openIndex_fresh [] (csvParse num) (fun _ => 0) hf hb .csv hs'
    rw [e1] at h; cases h
    obtain ⟨u1, u2⟩ := lines_unique hl (show IsLines [] [] [] from ⟨rfl, by simp, by simp⟩)
    subst u1
    refine ⟨rfl, by simp, [], fun _ => [], ⟨e2, ⟨?_, ?_⟩⟩⟩
    · simp [csvJobs, rowsJobs, indexesOf, firstOccurrences]
    · intro k p m hk; simp at hk
  | @sync data more seen i s s' hr h ih =>
    obtain ⟨l0, t, hls⟩ := exists_lines data
    obtain ⟨ks, rfl, hkt⟩ := lines_grow hls hl
    have hdl : data.length < 2 ^ 64 := by rw [List.length_append] at hd; omega
    obtain ⟨hi, hn, is, c, hj⟩ := ih hdl hls ((List.prefix_append _ _).trans hpre) (fun d hd' => hs d (by simp [hd']))
    refine ⟨hi, ?_, ?_⟩
    · intro hc
      obtain ⟨l, hl1⟩ := List.length_eq_one_iff.1 hc
      rw [hl1] at hl
      exact hs _ (by simp) _ _ hl
    · rcases csvStep hi hd ht hn hl hpre (s := s) (is := is) (c := c) (JIs.grow hj more) with ⟨a, s1, is', c', e1, e2, _⟩ | ⟨s1, e1, e2⟩ | ⟨s1, e1, e2⟩
      · rw [e1] at h; cases h
        exact ⟨is', c', e2⟩
      · rw [e1] at h; cases h
      · rw [e1] at h; cases h
  | @reopen data seen i i' s s' f f' hs' hr hb hu h ih =>
    obtain ⟨hi, hn, is, c, hj⟩ := ih hd hl hpre hs
    obtain ⟨r1, r2⟩ := hj.idx.reopen hb hu .csv hs'
    obtain ⟨s1, e1, e2, _⟩ := r1 rfl rfl
    rw [e1] at h; cases h
    exact ⟨rfl, hn, is, c, ⟨e2, hj.done⟩⟩

end Appendable
