import Verif.Spec.Jobs
import Verif.Lemmas.IndexApi
/-! Handlers write jobs. -/
namespace Appendable
open Spec Tree

/-! ### Aggregates -/

theorem mem_firstOccurrences {α : Type} [DecidableEq α] {l : List α} {a : α} : a ∈ firstOccurrences l ↔ a ∈ l := by
  induction l with
  | nil => simp [firstOccurrences]
  | cons b l ih =>
    simp only [firstOccurrences, List.mem_cons, List.mem_filter, decide_eq_true_eq, ih]
    by_cases h : a = b <;> simp [h]

theorem firstOccurrences_append {α : Type} [DecidableEq α] (l m : List α) :
    firstOccurrences (l ++ m) = firstOccurrences l ++ (firstOccurrences m).filter (fun b => decide (b ∉ l)) := by
  induction l with
  | nil => simp only [List.nil_append, firstOccurrences]; exact (List.filter_eq_self.2 (by simp)).symm
  | cons a l ih =>
    simp only [List.cons_append, firstOccurrences, ih, List.filter_append, List.filter_filter]
    congr 2
    apply List.filter_congr
    intro b _
    by_cases h : b = a <;> simp [h]

theorem firstOccurrences_snoc_old {α : Type} [DecidableEq α] {l : List α} {a : α} (h : a ∈ l) :
    firstOccurrences (l ++ [a]) = firstOccurrences l := by
  rw [firstOccurrences_append]; simp [firstOccurrences, h]

theorem firstOccurrences_snoc_new {α : Type} [DecidableEq α] {l : List α} {a : α} (h : a ∉ l) :
    firstOccurrences (l ++ [a]) = firstOccurrences l ++ [a] := by
  rw [firstOccurrences_append]; simp [firstOccurrences, h]

theorem entriesOf_append (js ks : List Job) (n : Bytes) (t : UInt8) : entriesOf (js ++ ks) n t = entriesOf js n t ++ entriesOf ks n t := by
  unfold entriesOf; simp

theorem totalOf_append (js ks : List Job) (n : Bytes) (t : UInt8) : totalOf (js ++ ks) n t = totalOf js n t + totalOf ks n t := by
  induction js with
  | nil => simp [totalOf]
  | cons j js ih => simp only [List.cons_append, totalOf, ih, UInt64.add_assoc]

theorem entriesOf_none {js : List Job} {n : Bytes} {t : UInt8} (h : (n, t) ∉ js.map (fun j => (j.name, j.ty))) : entriesOf js n t = [] := by
  unfold entriesOf
  rw [List.flatMap_eq_nil_iff]
  intro j hj
  rw [if_neg]
  rintro ⟨rfl, rfl⟩
  exact h (List.mem_map.2 ⟨j, hj, rfl⟩)

theorem totalOf_none {js : List Job} {n : Bytes} {t : UInt8} (h : (n, t) ∉ js.map (fun j => (j.name, j.ty))) : totalOf js n t = 0 := by
  induction js with
  | nil => rfl
  | cons j js ih =>
    rw [List.map_cons, List.mem_cons, not_or] at h
    unfold totalOf
    rw [if_neg, ih h.2]
    · rfl
    · rintro ⟨rfl, rfl⟩; exact h.1 rfl

/-- Two lists of jobs that come to the same. -/
def SameJobs (js ks : List Job) : Prop :=
  indexesOf js = indexesOf ks ∧ (∀ n t, entriesOf js n t = entriesOf ks n t) ∧ ∀ n t, totalOf js n t = totalOf ks n t

theorem SameJobs.refl (js : List Job) : SameJobs js js := ⟨rfl, fun _ _ => rfl, fun _ _ => rfl⟩

/-- A job can be done in two pieces. -/
theorem sameJobs_merge (js : List Job) (n : Bytes) (t : UInt8) (e1 e2 : List Entry) (a b : UInt64) :
    SameJobs (js ++ [⟨n, t, e1, a⟩] ++ [⟨n, t, e2, b⟩]) (js ++ [⟨n, t, e1 ++ e2, a + b⟩]) := by
  refine ⟨?_, ?_, ?_⟩
  · unfold indexesOf
    rw [List.map_append, List.map_append]
    simp only [List.map_cons, List.map_nil]
    rw [firstOccurrences_snoc_old (by simp)]
    simp
  · intro m u
    rw [entriesOf_append, entriesOf_append, entriesOf_append]
    simp only [entriesOf, List.flatMap_cons, List.flatMap_nil, List.append_nil, List.append_assoc]
    congr 1
    split <;> simp
  · intro m u
    rw [totalOf_append, totalOf_append, totalOf_append]
    simp only [totalOf, UInt64.add_assoc]
    congr 1
    split <;> simp

/-! ### The state after some jobs -/

/-- The indexes `is` with contents `c` hold exactly the jobs `js`. -/
structure Done (is : List (LP × IndexMeta)) (c : Nat → List Entry) (js : List Job) : Prop where
  keys : is.map (fun x => (x.2.fieldName, x.2.fieldType)) = indexesOf js
  each : ∀ (k : Nat) (p : LP) (m : IndexMeta), is[k]? = some (p, m) →
    m = ⟨m.fieldName, m.fieldType, determineTypeByte m.fieldType, totalOf js m.fieldName m.fieldType⟩ ∧
    (c k).Perm (entriesOf js m.fieldName m.fieldType)

theorem Done.same {is c js ks} (h : Done is c js) (hs : SameJobs js ks) : Done is c ks :=
  ⟨h.keys.trans hs.1, fun k p m hk => by
    obtain ⟨h1, h2⟩ := h.each k p m hk
    rw [hs.2.1] at h2
    rw [hs.2.2] at h1
    exact ⟨h1, h2⟩⟩

theorem Done.at {is c js} (h : Done is c js) {n : Bytes} {t : UInt8} (hm : (n, t) ∈ js.map (fun j => (j.name, j.ty))) :
    ∃ (k : Nat) (p : LP), is[k]? = some (p, ⟨n, t, determineTypeByte t, totalOf js n t⟩) ∧ (c k).Perm (entriesOf js n t) := by
  have : (n, t) ∈ is.map (fun x => (x.2.fieldName, x.2.fieldType)) := by rw [h.keys]; exact mem_firstOccurrences.2 hm
  obtain ⟨x, hx, he⟩ := List.mem_map.1 this
  obtain ⟨k, hk⟩ := List.mem_iff_getElem?.1 hx
  obtain ⟨h1, h2⟩ := h.each k x.1 x.2 hk
  simp only [Prod.mk.injEq] at he
  rw [he.1, he.2] at h1 h2
  exact ⟨k, x.1, by rw [hk, ← h1], h2⟩

variable {data : Bytes} {parse : Bytes → Bytes} {wd : UInt16 → UInt16} {s : PF} {fm : FileMeta} {is : List (LP × IndexMeta)}
  {c : Nat → List Entry} {js : List Job} {i : IndexFile}

/-- An index file that holds the jobs `js`. -/
structure JIs (data : Bytes) (parse : Bytes → Bytes) (wd : UInt16 → UInt16) (s : PF) (fm : FileMeta) (is : List (LP × IndexMeta))
    (c : Nat → List Entry) (js : List Job) : Prop where
  idx : IndexIs data parse (fun m => wd m.width) s fm is c
  done : Done is c js

theorem JIs.same (h : JIs data parse wd s fm is c js) {ks : List Job} (hs : SameJobs js ks) : JIs data parse wd s fm is c ks :=
  ⟨h.idx, h.done.same hs⟩

/-- The handles of the indexes stay. -/
def Handles (is is' : List (LP × IndexMeta)) : Prop :=
  ∀ (k : Nat) (p : LP) (m : IndexMeta), is[k]? = some (p, m) → ∃ m', is'[k]? = some (p, m') ∧ m'.fieldName = m.fieldName ∧
    m'.fieldType = m.fieldType

theorem Handles.refl (is : List (LP × IndexMeta)) : Handles is is := fun _ _ m h => ⟨m, h, rfl, rfl⟩
theorem Handles.trans {a b d : List (LP × IndexMeta)} (h : Handles a b) (g : Handles b d) : Handles a d := by
  intro k p m hk
  obtain ⟨m1, h1, e1, e2⟩ := h k p m hk
  obtain ⟨m2, h2, e3, e4⟩ := g k p m1 h1
  exact ⟨m2, h2, e3.trans e1, e4.trans e2⟩

/-- The file has come to the size limit. -/
def Big (s : PF) : Prop := 2 ^ 63 ≤ 2 * s.file.bytes.length + pageSize

/-- Finding or creating the index of a job. -/
theorem JIs.find (h : JIs data parse wd s fm is c js) (hi : i.tree = fileSlot) (hw : SmallWidths wd) {name : Bytes}
    (hn : name.length ≤ 236) (ty : UInt8) :
    (∃ (k : Nat) (p : LP) (m : IndexMeta) (s' : PF) (is' : List (LP × IndexMeta)), i.findOrCreate name ty s = (.ok (p, m), s') ∧
      is'[k]? = some (p, m) ∧ m = ⟨name, ty, determineTypeByte ty, totalOf js name ty⟩ ∧
      JIs data parse wd s' fm is' c (js ++ [⟨name, ty, [], 0⟩]) ∧ Handles is is') ∨
    (∃ s', i.findOrCreate name ty s = (.err .io, s') ∧ Big s) := by
  rcases h.idx.findOrCreate hi hn ty (hw ty) with ⟨k, p, m, q, e1, e2, e3, e4⟩ | ⟨p, s', e1, e2, e3, _⟩ | ⟨s', _, e2, e3⟩
  · left
    obtain ⟨d1, d2⟩ := h.done.each k p m e1
    rw [e2, e3] at d1
    refine ⟨k, p, m, _, is, e4, e1, d1, ⟨h.idx.upd q, h.done.same ⟨?_, ?_, ?_⟩⟩, Handles.refl is⟩
    · have hin : (name, ty) ∈ js.map (fun j => (j.name, j.ty)) := by
        have : (name, ty) ∈ indexesOf js := by
          rw [← h.done.keys]
          exact List.mem_map.2 ⟨_, List.mem_of_getElem? e1, by simp [e2, e3]⟩
        exact mem_firstOccurrences.1 this
      unfold indexesOf
      rw [List.map_append, List.map_cons, List.map_nil, firstOccurrences_snoc_old hin]
    · intro n t; rw [entriesOf_append]; simp [entriesOf]
    · intro n t; rw [totalOf_append]; simp [totalOf]
  · left
    have hnew : (name, ty) ∉ js.map (fun j => (j.name, j.ty)) := by
      intro hc
      have : (name, ty) ∈ indexesOf js := mem_firstOccurrences.2 hc
      rw [← h.done.keys] at this
      obtain ⟨x, hx, he⟩ := List.mem_map.1 this
      simp only [Prod.mk.injEq] at he
      exact e1 x hx he
    refine ⟨is.length, p, _, s', _, e2, by simp, ?_, ⟨e3, ⟨?_, ?_⟩⟩, ?_⟩
    · rw [totalOf_none hnew]
    · unfold indexesOf
      rw [List.map_append, List.map_append]
      simp only [List.map_cons, List.map_nil]
      rw [firstOccurrences_snoc_new hnew, h.done.keys]; rfl
    · intro k p' m' hk
      rw [entriesOf_append, totalOf_append]
      rw [List.getElem?_append] at hk
      split at hk
      · obtain ⟨d1, d2⟩ := h.done.each k p' m' hk
        simp only [entriesOf, totalOf, List.flatMap_cons, List.flatMap_nil, List.append_nil, ite_self] at *
        exact ⟨by simpa using d1, by simpa using d2⟩
      · have hk0 : k = is.length := by
          have := (List.getElem?_eq_some_iff.1 hk).1
          simp at this; omega
        subst hk0
        simp at hk
        obtain ⟨rfl, rfl⟩ := hk
        refine ⟨by simp [totalOf_none hnew, totalOf], ?_⟩
        rw [entriesOf_none hnew]
        obtain ⟨⟨free, ps, cnt, E, P, g1, g2⟩, _⟩ := h.idx
        have hlen := g1.len
        rw [g1.forest.empty is.length (by
          unfold idxTrees
          rw [List.length_zipWith, List.length_tail, List.length_map]
          simp at hlen; omega)]
        simp [entriesOf]
    · intro k p' m' hk
      refine ⟨m', ?_, rfl, rfl⟩
      rw [List.getElem?_append, if_pos (List.getElem?_eq_some_iff.1 hk).1]; exact hk
  · right; exact ⟨s', e2, by unfold Big; omega⟩

/-- Inserting one entry. -/
theorem JIs.insert (h : JIs data parse wd s fm is c js) {k : Nat} {p : LP} {m : IndexMeta} (hk : is[k]? = some (p, m))
    {key : RV} (v : MemPtr) (hko : KeyOK ⟨data, parse, wd m.width⟩ key)
    (hnew : ∀ e ∈ entriesOf js m.fieldName m.fieldType, e.1 ≠ key) :
    (∃ (s' : PF) (c' : Nat → List Entry), (treeAt data parse (wd m.width) p).insert key v s = (.ok (), s') ∧
      JIs data parse wd s' fm is c' (js ++ [⟨m.fieldName, m.fieldType, [(key, v)], 0⟩])) ∨
    (∃ s', (treeAt data parse (wd m.width) p).insert key v s = (.err .io, s') ∧ Big s) := by
  obtain ⟨_, d2⟩ := h.done.each k p m hk
  rcases h.idx.insert hk v hko with ⟨s1, e1, _, e2, _⟩ | ⟨q, _, e, he, hke⟩ | ⟨s1, e1, _, e3⟩
  · left
    refine ⟨s1, _, e1, ⟨e2, ⟨?_, ?_⟩⟩⟩
    · rw [h.done.keys]
      unfold indexesOf
      rw [List.map_append, List.map_cons, List.map_nil, firstOccurrences_snoc_old]
      have : (m.fieldName, m.fieldType) ∈ indexesOf js := by
        rw [← h.done.keys]; exact List.mem_map.2 ⟨_, List.mem_of_getElem? hk, rfl⟩
      exact mem_firstOccurrences.1 this
    · intro k' p' m' hk'
      obtain ⟨g1, g2⟩ := h.done.each k' p' m' hk'
      rw [totalOf_append, entriesOf_append]
      refine ⟨by simpa [totalOf] using g1, ?_⟩
      by_cases hkk : k' = k
      · subst hkk
        rw [hk'] at hk
        simp only [Option.some.injEq, Prod.mk.injEq] at hk
        obtain ⟨rfl, rfl⟩ := hk
        rw [setAt_same]
        simp only [entriesOf, List.flatMap_cons, List.flatMap_nil, List.append_nil, and_self, if_true]
        exact (List.Perm.cons _ g2).trans (List.perm_append_singleton _ _).symm
      · rw [setAt_ne _ _ hkk]
        have hne : ¬ (m.fieldName = m'.fieldName ∧ m.fieldType = m'.fieldType) := by
          intro hc
          have hnd := h.idx.2.2
          have a1 : (is.map (fun i => (i.2.fieldName, i.2.fieldType)))[k]? = some (m.fieldName, m.fieldType) := by simp [hk]
          have a2 : (is.map (fun i => (i.2.fieldName, i.2.fieldType)))[k']? = some (m.fieldName, m.fieldType) := by simp [hk', hc]
          have l1 := (List.getElem?_eq_some_iff.1 a1).1
          exact hkk ((List.getElem?_inj l1 hnd).1 (by rw [a1, a2])).symm
        simp only [entriesOf, List.flatMap_cons, List.flatMap_nil, List.append_nil, if_neg hne]
        exact g2
  · exact absurd hke (hnew e (d2.mem_iff.1 he))
  · right; exact ⟨s1, e1, e3⟩

/-- Inserting several entries, and the total. -/
theorem JIs.setTotal (h : JIs data parse wd s fm is c js) {k : Nat} {p : LP} {m : IndexMeta} (hk : is[k]? = some (p, m)) (n : UInt64) :
    ∃ (s' : PF) (is' : List (LP × IndexMeta)), (do let buf ← Act.lift { m with totalLen := m.totalLen + n }.marshal
                                                   p.setMetadata buf : Act PF Unit) s = (.ok (), s') ∧
      JIs data parse wd s' fm is' c (js ++ [⟨m.fieldName, m.fieldType, [], n⟩]) ∧ Handles is is' := by
  obtain ⟨s', e1, e2, _⟩ := h.idx.setIndex hk (m' := { m with totalLen := m.totalLen + n }) rfl rfl rfl
  have hkl := (List.getElem?_eq_some_iff.1 hk).1
  refine ⟨s', _, ?_, ⟨e2, ⟨?_, ?_⟩⟩, ?_⟩
  · rw [Act.bind_ok (a := ({ m with totalLen := m.totalLen + n } : IndexMeta).bytes) (s' := s) (by rw [IndexMeta.marshal_eq]; rfl)]
    exact e1
  · have : (is.set k (p, { m with totalLen := m.totalLen + n })).map (fun x => (x.2.fieldName, x.2.fieldType)) =
        is.map (fun x => (x.2.fieldName, x.2.fieldType)) := by
      apply List.ext_getElem?
      intro j
      simp only [List.getElem?_map, List.getElem?_set]
      by_cases hj : k = j
      · subst hj; rw [if_pos rfl, if_pos hkl, hk]; rfl
      · simp [hj]
    rw [this, h.done.keys]
    unfold indexesOf
    rw [List.map_append, List.map_cons, List.map_nil, firstOccurrences_snoc_old]
    have : (m.fieldName, m.fieldType) ∈ indexesOf js := by
      rw [← h.done.keys]; exact List.mem_map.2 ⟨_, List.mem_of_getElem? hk, rfl⟩
    exact mem_firstOccurrences.1 this
  · intro k' p' m' hk'
    rw [totalOf_append, entriesOf_append]
    have hz : ∀ n' t', entriesOf [(⟨m.fieldName, m.fieldType, [], n⟩ : Job)] n' t' = [] := by intro n' t'; simp [entriesOf]
    rw [hz, List.append_nil]
    rw [List.getElem?_set] at hk'
    by_cases hj : k = k'
    · subst hj
      rw [if_pos rfl, if_pos hkl] at hk'
      simp only [Option.some.injEq, Prod.mk.injEq] at hk'
      obtain ⟨rfl, rfl⟩ := hk'
      obtain ⟨g1, g2⟩ := h.done.each k p m hk
      refine ⟨?_, g2⟩
      simp only [totalOf, and_self, if_true, UInt64.add_zero]
      rw [g1]
    · rw [if_neg hj] at hk'
      obtain ⟨g1, g2⟩ := h.done.each k' p' m' hk'
      have hne : ¬ (m.fieldName = m'.fieldName ∧ m.fieldType = m'.fieldType) := by
        intro hc
        have hnd := h.idx.2.2
        have a1 : (is.map (fun i => (i.2.fieldName, i.2.fieldType)))[k]? = some (m.fieldName, m.fieldType) := by simp [hk]
        have a2 : (is.map (fun i => (i.2.fieldName, i.2.fieldType)))[k']? = some (m.fieldName, m.fieldType) := by simp [hk', hc]
        have l1 := (List.getElem?_eq_some_iff.1 a1).1
        exact hj ((List.getElem?_inj l1 hnd).1 (by rw [a1, a2]))
      refine ⟨?_, g2⟩
      simp only [totalOf, if_neg hne, UInt64.add_zero]
      exact g1
  · intro k' p' m' hk'
    by_cases hj : k = k'
    · subst hj
      rw [hk] at hk'
      simp only [Option.some.injEq, Prod.mk.injEq] at hk'
      obtain ⟨rfl, rfl⟩ := hk'
      exact ⟨{ m with totalLen := m.totalLen + n }, by rw [List.getElem?_set, if_pos rfl, if_pos hkl], rfl, rfl⟩
    · exact ⟨m', by rw [List.getElem?_set, if_neg hj]; exact hk', rfl, rfl⟩

end Appendable
