import Verif.Lemmas.CutIndex
import Verif.Props.Index
/-! C109, for the list of indexes: an index file of which only the first pages are left. -/
namespace Appendable
open Spec Tree

variable {parse : Bytes → Bytes} {wd : UInt16 → UInt16} {data : Bytes} {i : IndexFile} {s s' : PF} {fm : FileMeta}
  {is : List (LP × IndexMeta)} {c : Nat → List (RV × MemPtr)}

/-- **C109**, partial: in an index file of which the first meta page is left, `IndexFieldNames` lists the same names as in the whole file, or
reports an error. -/
theorem C109_names_partial (hw : SmallWidths wd) (h : IndexRun parse wd data i s fm is c) (hcut : CutOf s s') (hin : 8192 ≤ s'.file.bytes.length) :
    (i.indexFieldNames s').1 = (i.indexFieldNames s).1 ∨ ∃ e, (i.indexFieldNames s').1 = .err e := by
  rw [C62_field_names hw h]
  obtain ⟨h1, h2⟩ := indexRun_is hw h
  obtain ⟨⟨free, ps, cnt, E, P, g1, g2⟩, g3, g4⟩ := h1
  obtain ⟨tl, htl, hlk, hc1⟩ := g1.first
  have hma := g1.metasAt (by intro m hm; obtain ⟨y, hy, rfl⟩ := List.mem_map.1 hm; exact g3 y hy)
  rw [htl, List.tail_cons] at hma
  have hinv := g1.slots.inv
  have hat : ∀ y ∈ (pageSize, 0) :: tl, AtSlot s.file.bytes (slotAt y) y.1 y.2 := by
    intro y hy
    rw [← htl] at hy
    obtain ⟨m1, m2, _⟩ := places_mem (p := y.1) (i := y.2) hy hinv.cle
    exact hinv.pages.atSlot m1 m2
  have hfuel : (tl.filter (fun y => decide (y.1 + pageSize ≤ s'.file.bytes.length))).length < LP.listFuel s' := by
    have h16 := places_left_le hinv.nodup hinv.cle s'.file.bytes.length
    have hsub : (tl.filter (fun y => decide (y.1 + pageSize ≤ s'.file.bytes.length))).length ≤
        ((places ps cnt).filter (fun y => decide (y.1 + pageSize ≤ s'.file.bytes.length))).length := by
      rw [htl]; exact ((List.sublist_cons_self _ _).filter _).length_le
    unfold LP.listFuel
    omega
  obtain ⟨q, hq⟩ := names_cut hcut (x := (pageSize, 0)) hlk hma hat (by unfold pageSize; omega) (LP.listFuel s') hfuel []
  have e : IndexFile.indexFieldNames i s' = IndexFile.namesFrom (LP.listFuel s') (slotAt (pageSize, 0)) [] s' := by
    unfold IndexFile.indexFieldNames; rw [h2]; rfl
  rcases hq with hq | ⟨err, hq⟩
  · left
    rw [e, hq, namesOf_eq, List.map_map]
    have : ∀ l : List Bytes, l.filter (fun b => decide (b ∉ ([] : List Bytes))) = l := by
      intro l; apply List.filter_eq_self.2; simp
    rw [this]
    rfl
  · exact .inr ⟨err, by rw [e, hq]⟩

/-- **C109**, partial: for a field and type that have an index, `FindOrCreateIndex` in an index file of which the first meta page is left finds it,
or reports an error; it does not write, and in particular it makes no second index. -/
theorem C109_index_partial (hw : SmallWidths wd) (h : IndexRun parse wd data i s fm is c) (hcut : CutOf s s') (hin : 8192 ≤ s'.file.bytes.length)
    {p : LP} {m : IndexMeta} (hm : (p, m) ∈ is) :
    ((i.findOrCreate m.fieldName m.fieldType s').1 = .ok (p, m) ∨ ∃ e, (i.findOrCreate m.fieldName m.fieldType s').1 = .err e) ∧
    (i.findOrCreate m.fieldName m.fieldType s').2.file.bytes = s'.file.bytes := by
  obtain ⟨h1, h2⟩ := indexRun_is hw h
  obtain ⟨⟨free, ps, cnt, E, P, g1, g2⟩, g3, g4⟩ := h1
  obtain ⟨tl, htl, hlk, hc1⟩ := g1.first
  have hma := g1.metasAt (by intro m hm; obtain ⟨y, hy, rfl⟩ := List.mem_map.1 hm; exact g3 y hy)
  rw [htl, List.tail_cons] at hma
  have hinv := g1.slots.inv
  have hat : ∀ y ∈ (pageSize, 0) :: tl, AtSlot s.file.bytes (slotAt y) y.1 y.2 := by
    intro y hy
    rw [← htl] at hy
    obtain ⟨m1, m2, _⟩ := places_mem (p := y.1) (i := y.2) hy hinv.cle
    exact hinv.pages.atSlot m1 m2
  have hfuel : (tl.filter (fun y => decide (y.1 + pageSize ≤ s'.file.bytes.length))).length < LP.listFuel s' := by
    have h16 := places_left_le hinv.nodup hinv.cle s'.file.bytes.length
    have hsub : (tl.filter (fun y => decide (y.1 + pageSize ≤ s'.file.bytes.length))).length ≤
        ((places ps cnt).filter (fun y => decide (y.1 + pageSize ≤ s'.file.bytes.length))).length := by
      rw [htl]; exact ((List.sublist_cons_self _ _).filter _).length_le
    unfold LP.listFuel
    omega
  obtain ⟨q, hq⟩ := find_cut hcut m.fieldName m.fieldType (x := (pageSize, 0)) hlk hma hat (by unfold pageSize; omega) (LP.listFuel s') hfuel
    ⟨m, List.mem_map.2 ⟨_, hm, rfl⟩, rfl, rfl⟩
  have e : i.findOrCreate m.fieldName m.fieldType s' = IndexFile.findFrom m.fieldName m.fieldType (LP.listFuel s') (slotAt (pageSize, 0)) s' := by
    unfold IndexFile.findOrCreate; rw [h2]; rfl
  rcases hq with ⟨k, n, m', e1, e2, e3, e4, e5⟩ | ⟨err, hq⟩
  · rw [e, e5]
    refine ⟨.inl ?_, rfl⟩
    rw [htl, List.tail_cons] at g2
    rw [g2, List.getElem?_map] at e1
    rw [List.getElem?_map] at e2
    obtain ⟨x, hx, hx1⟩ := Option.map_eq_some_iff.1 e1
    rw [hx] at e2
    simp only [Option.map_some, Option.some.injEq] at e2
    subst hx1; subst e2
    obtain ⟨j, hj⟩ := List.getElem?_of_mem hm
    have hjl := (List.getElem?_eq_some_iff.1 hj).1
    have hkl := (List.getElem?_eq_some_iff.1 hx).1
    have hjk : j = k := by
      apply Decidable.byContradiction
      intro hne
      have := (List.getElem_inj (h₀ := by simpa using hjl) (h₁ := by simpa using hkl) g4).1 (by
        simp only [List.getElem_map, (List.getElem?_eq_some_iff.1 hj).2, (List.getElem?_eq_some_iff.1 hx).2, e3, e4])
      exact hne this
    subst hjk
    rw [hj] at hx
    cases hx
    rfl
  · rw [e, hq]
    exact ⟨.inr ⟨err, rfl⟩, rfl⟩

/-- Non-vacuity: every index file has at least two pages, and can be cut after them (`wRun3` in Props/IndexWitness is an index file with two
indexes and an entry). -/
example (hw : SmallWidths wd) (h : IndexRun parse wd data i s fm is c) : ∃ s', CutOf s s' ∧ s'.file.bytes.length = 8192 := by
  obtain ⟨h1, h2⟩ := indexRun_is hw h
  obtain ⟨⟨free, ps, cnt, E, P, g1, g2⟩, g3, g4⟩ := h1
  obtain ⟨r, hr⟩ := g1.slots.inv.first
  have hp := (g1.slots.inv.pages.page pageSize (by rw [hr]; simp)).2.2
  have hl : (s.file.bytes.take 8192).length = 8192 := by rw [List.length_take]; unfold pageSize at hp; omega
  exact ⟨s.upd (s.file.bytes.take 8192) 0, ⟨rfl, ⟨s.file.bytes.drop 8192, by simp⟩, by simp only [upd_bytes]; rw [hl]⟩, hl⟩

end Appendable
