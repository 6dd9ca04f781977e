import Verif.Spec.Index
import Verif.Lemmas.IndexApi
import Verif.Props.Tree
/-! C29-C32, C62: the index file. -/
namespace Appendable
open Spec Tree

variable {parse : Bytes → Bytes} {wd : UInt16 → UInt16} {data : Bytes} {i : IndexFile} {s : PF} {fm : FileMeta}
  {is : List (LP × IndexMeta)} {c : Nat → List (RV × MemPtr)}

theorem withIndex_old {name : Bytes} {ty : UInt8} {p : LP} {m : IndexMeta} {k : Nat} {x : LP × IndexMeta} (hk : is[k]? = some x)
    (h1 : x.2.fieldName = name) (h2 : x.2.fieldType = ty) : withIndex is name ty p m = is := by
  unfold withIndex
  rw [if_pos]
  rw [List.any_eq_true]
  exact ⟨x, List.mem_of_getElem? hk, by simp [h1, h2]⟩

theorem withIndex_new {name : Bytes} {ty : UInt8} {p : LP} {m : IndexMeta}
    (h : ∀ x ∈ is, ¬ (x.2.fieldName = name ∧ x.2.fieldType = ty)) : withIndex is name ty p m = is ++ [(p, m)] := by
  unfold withIndex
  rw [if_neg]
  rw [List.any_eq_true]
  rintro ⟨x, hx, hc⟩
  exact h x hx (by simpa using hc)

/-- The invariant holds along every history. -/
theorem indexRun_is (hw : SmallWidths wd) (h : IndexRun parse wd data i s fm is c) :
    IndexIs data parse (fun m => wd m.width) s fm is c ∧ i.tree = fileSlot := by
  induction h with
  | @create data f f' fmt hs i s hf hb h =>
    obtain ⟨s', e1, e2⟩ := openIndex_fresh data parse (fun m => wd m.width) hf hb fmt hs
    rw [e1] at h; cases h
    exact ⟨e2, rfl⟩
  | setMetadata hr h ih =>
    obtain ⟨s1, e1, e2, _⟩ := ih.1.setMetadata ih.2 _
    rw [e1] at h; cases h
    exact ⟨e2, ih.2⟩
  | @find data i s s' fm is c name ty p m hr hn h ih =>
    rcases ih.1.findOrCreate ih.2 hn ty (hw ty) with ⟨k, p1, m1, q, e1, e2, e3, e4⟩ | ⟨p1, s1, e1, e2, e3, _⟩ | ⟨s1, _, e2, _⟩
    · rw [e4] at h; cases h
      rw [withIndex_old e1 e2 e3]
      exact ⟨ih.1.upd q, ih.2⟩
    · rw [e2] at h; cases h
      rw [withIndex_new e1]
      exact ⟨e3, ih.2⟩
    · rw [e2] at h; cases h
  | @setIndex data i s s' fm is c k p m n buf hr hk hb h ih =>
    rw [IndexMeta.marshal_eq] at hb
    cases hb
    obtain ⟨s1, e1, e2, _⟩ := ih.1.setIndex hk (m' := { m with totalLen := n }) rfl rfl rfl
    rw [e1] at h; cases h
    exact ⟨e2, ih.2⟩
  | @insert data i s s' fm is c k p m key v hr hk hko h ih =>
    rcases ih.1.insert hk v hko with ⟨s1, e1, _, e2, _⟩ | ⟨q, e1, _⟩ | ⟨s1, e1, _⟩
    · rw [e1] at h; cases h; exact ⟨e2, ih.2⟩
    · rw [e1] at h; cases h
    · rw [e1] at h; cases h
  | @rejected data i s s' fm is c k p m key v e hr hk hko h ih =>
    rcases ih.1.insert hk v hko with ⟨s1, e1, _, e2, _⟩ | ⟨q, e1, _⟩ | ⟨s1, e1, _⟩
    · rw [e1] at h; cases h
    · rw [e1] at h; cases h; exact ⟨ih.1.upd q, ih.2⟩
    · rw [e1] at h; cases h
  | grow hr more ih => exact ⟨ih.1.grow more, ih.2⟩
  | @reopen data i i' s s' fm is c f f' fmt hs hr hb hu h ih =>
    obtain ⟨r1, r2⟩ := ih.1.reopen hb hu fmt hs
    by_cases hc : fm.version = currentVersion ∧ fm.format = fmt
    · obtain ⟨s1, e1, e2, _⟩ := r1 hc.1 hc.2
      rw [e1] at h; cases h
      exact ⟨e2, rfl⟩
    · obtain ⟨m, f1, e1, _⟩ := r2 hc
      rw [e1] at h; cases h

/-- What the invariant shows. -/
theorem IndexSt.shows {st : Prop} (h : IndexSt st data parse (fun m => wd m.width) s fm is c) (hi : i.tree = fileSlot) :
    Shows data parse wd i s fm is c := by
  refine ⟨?_, ?_, ?_, ?_⟩
  · obtain ⟨q, hq⟩ := h.metadata hi; rw [hq]
  · obtain ⟨⟨free, ps, cnt, E, P, h1, h2⟩, h3, h4⟩ := h
    obtain ⟨tl, htl, hlk, hc1⟩ := h1.first
    have hidx : ∀ n ∈ tl.map slotAt, n.index ≠ 255 := by
      intro n hn
      obtain ⟨x, hx, rfl⟩ := List.mem_map.1 hn
      obtain ⟨m1, m2, _⟩ := places_mem (p := x.1) (i := x.2) (by rw [htl]; simp [hx]) h1.slots.inv.cle
      exact (h1.slots.inv.pages.atSlot m1 m2).ne255
    have hfu := h1.fuel
    rw [htl, List.tail_cons] at hfu h2
    obtain ⟨q, hq⟩ := collect_linked rfl hlk hidx (LP.listFuel s) hfu
    unfold LP.collect
    rw [hi, hq, h2]
    rfl
  · intro x hx
    obtain ⟨⟨free, ps, cnt, E, P, h1, h2⟩, h3, h4⟩ := h
    obtain ⟨k, hk⟩ := List.mem_iff_getElem?.1 hx
    have hma := h1.metasAt (by intro m hm; obtain ⟨y, hy, rfl⟩ := List.mem_map.1 hm; exact h3 y hy)
    rw [h2] at hma
    obtain ⟨hn, hmd⟩ := hma.2 k x.1 x.2 (by simp [hk]) (by simp [hk])
    obtain ⟨q, hq⟩ := hmd s rfl
    refine ⟨x.2.bytes, by rw [hq], ?_⟩
    have := IndexMeta.unmarshal_bytes x.2 (by omega) []
    rwa [List.append_nil] at this
  · intro k p m hk
    obtain ⟨free, ps, cnt, E, P, h1, h2, h3⟩ := h.treeAt
    obtain ⟨ti, tw, tp⟩ := h1.forest.tree k _ (h3 k p m hk)
    refine ⟨E k, ?_, tp, ti.asc⟩
    have := nextRun_of ti minKey (.inr (rank_minKey _))
    rwa [rank_minKey, List.drop_zero] at this

/-- C29: opening an empty file creates an index file with the current version, the format of the handler and zero
progress, and without indexes. -/
theorem C29_open_fresh (data : Bytes) (parse : Bytes → Bytes) (wd : UInt16 → UInt16) (f : File) (hf : f.bytes = [])
    (hb : f.budget = none) (fmt : Format) (hs : List Bytes) :
    ∃ i s f', IndexFile.openIndex fmt hs f = (.ok (i, s), f') ∧ f' = s.file ∧ i.searchHeaders = hs ∧
      Shows data parse wd i s ⟨1, fmt, 0, 0⟩ [] (fun _ => []) := by
  obtain ⟨s', e1, e2⟩ := openIndex_fresh data parse (fun m => wd m.width) hf hb fmt hs
  exact ⟨_, s', _, e1, rfl, rfl, e2.shows rfl⟩

/-- C29: opening any index file again succeeds if version and format agree, changes no byte, and shows the same file
metadata, indexes and entries. -/
theorem C29_reopen (hw : SmallWidths wd) (h : IndexRun parse wd data i s fm is c) (f : File) (hb : f.bytes = s.file.bytes)
    (hu : f.budget = none) (hs : List Bytes) (hv : fm.version = 1) :
    ∃ i' s' f', IndexFile.openIndex fm.format hs f = (.ok (i', s'), f') ∧ f' = s'.file ∧ f'.bytes = s.file.bytes ∧
      i'.searchHeaders = hs ∧ Shows data parse wd i' s' fm is c := by
  obtain ⟨h1, h2⟩ := indexRun_is hw h
  obtain ⟨s', e1, e2, e3, _⟩ := (h1.reopen hb hu fm.format hs).1 hv rfl
  exact ⟨_, s', _, e1, rfl, by rw [e3, hb], rfl, e2.shows rfl⟩

/-- C29: a version or format mismatch is an error, and no byte changes. -/
theorem C29_mismatch (hw : SmallWidths wd) (h : IndexRun parse wd data i s fm is c) (f : File) (hb : f.bytes = s.file.bytes)
    (hu : f.budget = none) (hs : List Bytes) (fmt : Format) (hv : fm.version ≠ 1 ∨ fm.format ≠ fmt) :
    ∃ m f', IndexFile.openIndex fmt hs f = (.err (.msg m), f') ∧ f'.bytes = s.file.bytes := by
  obtain ⟨h1, h2⟩ := indexRun_is hw h
  obtain ⟨m, f', e1, e2⟩ := (h1.reopen hb hu fmt hs).2 (by
    rintro ⟨a, b⟩
    rcases hv with hv | hv
    · exact hv a
    · exact hv b)
  exact ⟨m, f', e1, by rw [e2, hb]⟩

/-- C30: the API shows exactly the file metadata last set, the indexes created, and the entries inserted, after any
history; and no two indexes share a name and a type. -/
theorem C30_state (hw : SmallWidths wd) (h : IndexRun parse wd data i s fm is c) :
    Shows data parse wd i s fm is c ∧ (is.map (fun x => (x.2.fieldName, x.2.fieldType))).Nodup := by
  obtain ⟨h1, h2⟩ := indexRun_is hw h
  exact ⟨h1.shows h2, h1.2.2⟩

/-- C30, names of at most 236 bytes: if there is an index for the name and type, `FindOrCreateIndex` returns it and
changes no byte.  Otherwise it returns a new index with the given name and type, the width of the type, no entries and
an empty root, which becomes the last one of the list; the roots (and by `C30_state` everything else) of all other
indexes stay.  The only other outcome is an I/O error when the file has reached the size limit.  Missing: longer names
(`C31_long_name_violated`). -/
theorem C30_find_or_create_partial (hw : SmallWidths wd) (h : IndexRun parse wd data i s fm is c) {name : Bytes} (hn : name.length ≤ 236)
    (ty : UInt8) :
    (∃ p m s', (p, m) ∈ is ∧ m.fieldName = name ∧ m.fieldType = ty ∧ i.findOrCreate name ty s = (.ok (p, m), s') ∧
      s'.file.bytes = s.file.bytes) ∨
    (∃ p s', (∀ x ∈ is, ¬ (x.2.fieldName = name ∧ x.2.fieldType = ty)) ∧
      i.findOrCreate name ty s = (.ok (p, ⟨name, ty, determineTypeByte ty, 0⟩), s') ∧
      Shows data parse wd i s' fm (is ++ [(p, ⟨name, ty, determineTypeByte ty, 0⟩)]) c ∧ c is.length = [] ∧
      (p.root s').1 = .ok ⟨0, 0⟩ ∧ ∀ x ∈ is, (x.1.root s').1 = (x.1.root s).1) ∨
    ((i.findOrCreate name ty s).1 = .err .io ∧ 2 ^ 63 ≤ s.file.bytes.length + pageSize) := by
  obtain ⟨h1, h2⟩ := indexRun_is hw h
  rcases h1.findOrCreate h2 hn ty (hw ty) with ⟨k, p1, m1, q, e1, e2, e3, e4⟩ | ⟨p1, s1, e1, e2, e3, _, e4, e5⟩ | ⟨s1, _, e2, e3⟩
  · exact .inl ⟨p1, m1, _, List.mem_of_getElem? e1, e2, e3, e4, rfl⟩
  · refine .inr (.inl ⟨p1, s1, e1, e2, e3.shows h2, ?_, e4, e5⟩)
    obtain ⟨⟨free, ps, cnt, E, P, g1, g2⟩, _⟩ := h1
    have hlen := g1.len
    refine g1.forest.empty _ ?_
    unfold idxTrees
    rw [List.length_zipWith, List.length_tail, List.length_map]
    simp at hlen; omega
  · exact .inr (.inr ⟨by rw [e2], e3⟩)

/-- C30: the width recorded for a new index is the one its type demands. -/
theorem C30_width (t : FieldType) : determineTypeByte t.code = match t with
    | .boolean => 2 | .null => 1 | .float64 | .int64 | .uint64 => 9 | .trigram => 4 | .bigram => 3 | .unigram => 2 | _ => 0 := by
  cases t <;> rfl

/-- C32 is violated, in every state: `IsEmpty` tells the opposite. -/
theorem C32_is_empty_violated (hw : SmallWidths wd) (h : IndexRun parse wd data i s fm is c) :
    (i.isEmpty s).1 = .ok (decide (is ≠ [])) := by
  obtain ⟨h1, h2⟩ := indexRun_is hw h
  obtain ⟨⟨free, ps, cnt, E, P, g1, g2⟩, _⟩ := h1
  obtain ⟨tl, htl, hlk, hc1⟩ := g1.first
  unfold IndexFile.isEmpty
  rw [h2]
  rw [htl, List.tail_cons] at g2
  cases is with
  | nil =>
    have : tl = [] := by simpa using g2
    subst this
    obtain ⟨q, hq⟩ := hlk s rfl
    rw [hq]; rfl
  | cons x xs =>
    cases tl with
    | nil => simp at g2
    | cons a t =>
      obtain ⟨⟨q, hq⟩, _⟩ := hlk.1 s rfl
      rw [hq]; simp

theorem namesOf_eq (ms : List IndexMeta) (acc : List Bytes) :
    namesOf acc ms = acc ++ (firstOccurrences (ms.map (·.fieldName))).filter (fun b => decide (b ∉ acc)) := by
  induction ms generalizing acc with
  | nil => simp [namesOf, firstOccurrences]
  | cons m ms ih =>
    show namesOf (if m.fieldName ∈ acc then acc else acc ++ [m.fieldName]) ms = _
    rw [ih]
    simp only [List.map_cons, firstOccurrences]
    by_cases h : m.fieldName ∈ acc
    · rw [if_pos h, List.filter_cons_of_neg (by simpa using h), List.filter_filter]
      congr 1
      apply List.filter_congr
      intro b _
      by_cases hb : b = m.fieldName
      · subst hb; simp [h]
      · simp [hb]
    · rw [if_neg h, List.filter_cons_of_pos (by simpa using h), List.filter_filter, List.append_assoc, List.singleton_append]
      congr 2
      apply List.filter_congr
      intro b _
      by_cases h1 : b = m.fieldName <;> by_cases h2 : b ∈ acc <;> simp [h1, h2]

/-- C62: `IndexFieldNames` lists every field name that has an index, once, in the order in which the names were first
used. -/
theorem C62_field_names (hw : SmallWidths wd) (h : IndexRun parse wd data i s fm is c) :
    (i.indexFieldNames s).1 = .ok (firstOccurrences (is.map (·.2.fieldName))) := by
  obtain ⟨h1, h2⟩ := indexRun_is hw h
  obtain ⟨⟨free, ps, cnt, E, P, g1, g2⟩, g3, g4⟩ := h1
  obtain ⟨tl, htl, hlk, hc1⟩ := g1.first
  have hma := g1.metasAt (by intro m hm; obtain ⟨y, hy, rfl⟩ := List.mem_map.1 hm; exact g3 y hy)
  have hfu := g1.fuel
  rw [htl, List.tail_cons] at hma hfu
  obtain ⟨q, hq⟩ := namesFrom_linked rfl hlk hma (LP.listFuel s) hfu []
  unfold IndexFile.indexFieldNames
  rw [h2, hq]
  show Res.ok _ = _
  rw [namesOf_eq, List.map_map]
  have : ∀ l : List Bytes, l.filter (fun b => decide (b ∉ ([] : List Bytes))) = l := by
    intro l; apply List.filter_eq_self.2; simp
  rw [this]
  rfl

end Appendable
