import Verif.Lemmas.IndexInv
/-! The operations of the index file on index files in order. -/
namespace Appendable
open Spec Tree

/-- In the file `B` the slots `ns` have the index metadata `ms`. -/
def MetasAt (B : Bytes) (ns : List LP) (ms : List IndexMeta) : Prop :=
  ns.length = ms.length ∧ ∀ (k : Nat) (n : LP) (m : IndexMeta), ns[k]? = some n → ms[k]? = some m →
    m.fieldName.length ≤ 236 ∧ ∀ s : PF, s.file.bytes = B → ∃ q, n.metadata s = (.ok m.bytes, s.upd B q)

theorem MetasAt.tail {B n ns m ms} (h : MetasAt B (n :: ns) (m :: ms)) : MetasAt B ns ms :=
  ⟨by simpa using h.1, fun k n' m' h1 h2 => h.2 (k + 1) n' m' (by simpa using h1) (by simpa using h2)⟩

/-- One step of the loops over the indexes. -/
theorem readMeta {B : Bytes} {n : LP} {m : IndexMeta} (hn : m.fieldName.length ≤ 236)
    (h : ∀ s : PF, s.file.bytes = B → ∃ q, n.metadata s = (.ok m.bytes, s.upd B q)) {α : Type} (k : IndexMeta → Act PF α)
    {s : PF} (hs : s.file.bytes = B) :
    ∃ q, (do let buf ← n.metadata
             let m ← Act.lift (IndexMeta.unmarshal buf)
             k m : Act PF α) s = k m (s.upd B q) := by
  obtain ⟨q, hq⟩ := h s hs
  refine ⟨q, ?_⟩
  rw [Act.bind_ok hq]
  have := IndexMeta.unmarshal_bytes m (by omega) []
  rw [List.append_nil] at this
  rw [Act.bind_ok (a := m) (s' := s.upd B q) (by rw [this]; rfl)]

theorem findFrom_linked {B : Bytes} (name : Bytes) (ty : UInt8) {s : PF} (hs : s.file.bytes = B) {mp : LP} {ns : List LP} {ms : List IndexMeta}
    (h : LinkedFrom B mp ns) (hm : MetasAt B ns ms) (fuel : Nat) (hf : ns.length < fuel) :
    (∃ (k : Nat) (n : LP) (m : IndexMeta) (q : Nat), ns[k]? = some n ∧ ms[k]? = some m ∧ m.fieldName = name ∧ m.fieldType = ty ∧
      IndexFile.findFrom name ty fuel mp s = (.ok (n, m), s.upd B q)) ∨
    ((∀ m ∈ ms, ¬ (m.fieldName = name ∧ m.fieldType = ty)) ∧ ∃ l q, (mp :: ns).getLast? = some l ∧
      IndexFile.findFrom name ty fuel mp s = IndexFile.createIndex l name ty (s.upd B q)) := by
  induction ns generalizing mp s fuel ms with
  | nil =>
    obtain ⟨fuel, rfl⟩ : ∃ k, fuel = k + 1 := ⟨fuel - 1, by omega⟩
    obtain ⟨q, hq⟩ := h s hs
    have : ms = [] := by have := hm.1; simpa using this.symm
    subst this
    refine .inr ⟨by simp, mp, q, rfl, ?_⟩
    unfold IndexFile.findFrom
    rw [hq]
  | cons n ns ih =>
    obtain ⟨fuel, rfl⟩ : ∃ k, fuel = k + 1 := ⟨fuel - 1, by omega⟩
    obtain ⟨q, hq⟩ := (h.1 s hs).1
    cases ms with
    | nil => have := hm.1; simp at this
    | cons m ms =>
      obtain ⟨hn, hmd⟩ := hm.2 0 n m rfl rfl
      obtain ⟨q2, hq2⟩ := readMeta hn hmd (fun m => if m.fieldName = name ∧ m.fieldType = ty then return (n, m)
        else IndexFile.findFrom name ty fuel n) (s := s.upd B q) rfl
      have hrun : IndexFile.findFrom name ty (fuel + 1) mp s =
          (if m.fieldName = name ∧ m.fieldType = ty then return (n, m) else IndexFile.findFrom name ty fuel n : Act PF _) (s.upd B q2) := by
        rw [upd_upd] at hq2
        rw [← hq2, IndexFile.findFrom]
        simp only [hq]
      by_cases hc : m.fieldName = name ∧ m.fieldType = ty
      · left
        refine ⟨0, n, m, q2, rfl, rfl, hc.1, hc.2, ?_⟩
        rw [hrun, if_pos hc]; rfl
      · rw [if_neg hc] at hrun
        rcases ih (s := s.upd B q2) rfl h.2 hm.tail fuel (by simp at hf; omega) with ⟨k, n', m', q3, e1, e2, e3, e4, e5⟩ | ⟨e1, l, q3, e2, e3⟩
        · exact .inl ⟨k + 1, n', m', q3, by simpa using e1, by simpa using e2, e3, e4, by rw [hrun, e5]; rfl⟩
        · refine .inr ⟨?_, l, q3, ?_, by rw [hrun, e3]; rfl⟩
          · intro m' hm'
            rcases List.mem_cons.1 hm' with rfl | hm'
            · exact hc
            · exact e1 m' hm'
          · rw [List.getLast?_cons_cons]; exact e2

/-- The distinct names in order of first occurrence. -/
def namesOf (names : List Bytes) (ms : List IndexMeta) : List Bytes :=
  ms.foldl (fun names m => if m.fieldName ∈ names then names else names ++ [m.fieldName]) names

theorem namesFrom_linked {B : Bytes} {s : PF} (hs : s.file.bytes = B) {mp : LP} {ns : List LP} {ms : List IndexMeta}
    (h : LinkedFrom B mp ns) (hm : MetasAt B ns ms) (fuel : Nat) (hf : ns.length < fuel) (names : List Bytes) :
    ∃ q, IndexFile.namesFrom fuel mp names s = (.ok (namesOf names ms), s.upd B q) := by
  induction ns generalizing mp s fuel ms names with
  | nil =>
    obtain ⟨fuel, rfl⟩ : ∃ k, fuel = k + 1 := ⟨fuel - 1, by omega⟩
    obtain ⟨q, hq⟩ := h s hs
    have : ms = [] := by have := hm.1; simpa using this.symm
    subst this
    refine ⟨q, ?_⟩
    unfold IndexFile.namesFrom
    rw [hq]; rfl
  | cons n ns ih =>
    obtain ⟨fuel, rfl⟩ : ∃ k, fuel = k + 1 := ⟨fuel - 1, by omega⟩
    obtain ⟨q, hq⟩ := (h.1 s hs).1
    cases ms with
    | nil => have := hm.1; simp at this
    | cons m ms =>
      obtain ⟨hn, hmd⟩ := hm.2 0 n m rfl rfl
      obtain ⟨q2, hq2⟩ := readMeta hn hmd (fun m => IndexFile.namesFrom fuel n (if m.fieldName ∈ names then names else names ++ [m.fieldName]))
        (s := s.upd B q) rfl
      obtain ⟨q3, hq3⟩ := ih (s := s.upd B q2) rfl h.2 hm.tail fuel (by simp at hf; omega)
        (if m.fieldName ∈ names then names else names ++ [m.fieldName])
      refine ⟨q3, ?_⟩
      conv => lhs; unfold IndexFile.namesFrom
      rw [hq]
      show _ = (Res.ok (namesOf (if m.fieldName ∈ names then names else names ++ [m.fieldName]) ms), _)
      simp only
      rw [hq2]
      exact hq3

/-- The whole state of an index file, seen from the API: the file metadata, the indexes with handle and metadata, and
the entries inserted into each.  If `st`, every page of the file is in use. -/
def IndexSt (st : Prop) (data : Bytes) (parse : Bytes → Bytes) (wd : IndexMeta → UInt16) (s : PF) (fm : FileMeta) (is : List (LP × IndexMeta))
    (c : Nat → List Entry) : Prop :=
  (∃ free ps cnt E P, IdxInv st data parse wd s fm (is.map (·.2)) c free ps cnt E P ∧
    (places ps cnt).tail.map slotAt = is.map (·.1)) ∧
  (∀ i ∈ is, i.2.fieldName.length ≤ 236) ∧ (is.map (fun i => (i.2.fieldName, i.2.fieldType))).Nodup

/-- An index file without unused pages. -/
abbrev IndexIs := IndexSt True

/-- The handle of the file metadata. -/
def fileSlot : LP := ⟨4096, 0⟩

theorem IdxInv.first {st data parse wd s fm ms c free ps cnt E P} (h : IdxInv st data parse wd s fm ms c free ps cnt E P) :
    ∃ tl, places ps cnt = (pageSize, 0) :: tl ∧ LinkedFrom s.file.bytes fileSlot (tl.map slotAt) ∧ 1 ≤ cnt := by
  obtain ⟨r, hr⟩ := h.slots.inv.first
  have hlen := h.len
  have hc1 : 1 ≤ cnt := by
    by_cases hps : 1 < ps.length
    · exact h.slots.inv.cpos hps
    · have : r = [] := by
        rw [hr] at hps; simp at hps; exact hps
      subst this
      rw [hr] at hlen
      simp [places] at hlen
      omega
  have hch := h.slots.inv.chain
  have hpg := h.slots.inv.pages
  rw [hr] at hch hpg
  obtain ⟨rest, e1, e2⟩ := chain_linked hch hpg h.slots.inv.cle hc1
  have hfs : slotAt (pageSize, 0) = fileSlot := rfl
  rw [← hr] at e1
  have hp0 : ∃ tl, places ps cnt = (pageSize, 0) :: tl := by
    rw [hr]
    cases r with
    | nil =>
      obtain ⟨k, rfl⟩ : ∃ k, cnt = k + 1 := ⟨cnt - 1, by omega⟩
      simp only [places]
      rw [List.range'_succ]
      exact ⟨_, rfl⟩
    | cons a b => exact ⟨_, rfl⟩
  obtain ⟨tl, htl⟩ := hp0
  refine ⟨tl, htl, ?_, hc1⟩
  rw [htl] at e1
  simp only [List.map_cons, List.cons.injEq] at e1
  rw [e1.2, ← hfs]
  exact e2

theorem IdxInv.metasAt {st data parse wd s fm ms c free ps cnt E P} (h : IdxInv st data parse wd s fm ms c free ps cnt E P)
    (hs : ∀ m ∈ ms, m.fieldName.length ≤ 236) :
    MetasAt s.file.bytes ((places ps cnt).tail.map slotAt) ms := by
  have hlen := h.len
  refine ⟨by simp; omega, ?_⟩
  intro k n m hn hm
  rw [List.getElem?_map] at hn
  obtain ⟨x, hx, rfl⟩ := Option.map_eq_some_iff.1 hn
  rw [List.getElem?_tail] at hx
  refine ⟨hs m (List.mem_of_getElem? hm), fun s' hs' => ?_⟩
  exact h.slots.inv.metadata hx (d := m.bytes) (by simp [hm]) hs'

theorem IdxInv.fuel {st data parse wd s fm ms c free ps cnt E P} (h : IdxInv st data parse wd s fm ms c free ps cnt E P) :
    ((places ps cnt).tail.map slotAt).length < LP.listFuel s := by
  have := places_length_le h.slots.inv.pages h.slots.inv.nodup h.slots.inv.cle
  rw [List.length_map, List.length_tail]
  unfold LP.listFuel; omega

/-- A new index. -/
theorem IdxInv.create {st data parse wd s fm ms c free ps cnt E P} (h : IdxInv st data parse wd s fm ms c free ps cnt E P) {l : LP}
    (hl : (fileSlot :: (places ps cnt).tail.map slotAt).getLast? = some l) {name : Bytes} (hn : name.length ≤ 236) (ty : UInt8)
    (hw : (wd ⟨name, ty, determineTypeByte ty, 0⟩).toNat ≤ 2017) :
    (∃ x s' free' ps' cnt' E' P', IndexFile.createIndex l name ty s = (.ok (slotAt x, ⟨name, ty, determineTypeByte ty, 0⟩), s') ∧
      places ps' cnt' = places ps cnt ++ [x] ∧
      IdxInv st data parse wd s' fm (ms ++ [⟨name, ty, determineTypeByte ty, 0⟩]) c free' ps' cnt' E' P' ∧
      s.file.bytes.length ≤ s'.file.bytes.length ∧
      slice s'.file.bytes (slotPos x.1 x.2) 12 = List.replicate 12 0 ∧
      ∀ y ∈ places ps cnt, slice s'.file.bytes (slotPos y.1 y.2) 12 = slice s.file.bytes (slotPos y.1 y.2) 12) ∨
    (∃ s', IndexFile.createIndex l name ty s = (.err .io, s') ∧ 2 ^ 63 ≤ s.file.bytes.length + pageSize) := by
  obtain ⟨tl, htl, _, hc1⟩ := h.first
  have hlen := h.len
  have hlast : (headAt pageSize :: (places ps cnt).map slotAt).getLast? = some l := by
    rw [htl] at hl ⊢
    simp only [List.tail_cons] at hl
    rw [List.map_cons, List.getLast?_cons_cons]
    exact hl
  obtain ⟨g1, g2⟩ := last_handle h.slots hlast
  generalize hm : (⟨name, ty, determineTypeByte ty, 0⟩ : IndexMeta) = m
  have hml : m.bytes.length ≤ 252 := by
    subst hm
    rw [IndexMeta.bytes_length]; have := putUvarint_length_le (0 : UInt64); simp only; omega
  rcases addNext_last h.slots g1 g2 with ⟨x, s1, free', ps', cnt', e1, e2⟩ | ⟨s1, e1, e2⟩
  · left
    have hpl := e2.places
    have hx : (places ps' cnt')[ms.length + 1]? = some x := by
      rw [hpl, List.getElem?_append_right (by omega)]; simp [hlen]
    have hxm : x ∈ places ps' cnt' := List.mem_of_getElem? hx
    obtain ⟨mx1, mx2, _⟩ := places_mem (p := x.1) (i := x.2) hxm e2.slots.inv.cle
    have hxal := (e2.slots.inv.pages.page _ mx1).1
    obtain ⟨sp1, sp2⟩ := slotPage_slotPos (p := x.1) (i := x.2) hxal mx2
    -- trees are kept
    have hroots : ∀ y ∈ places ps cnt, slice s1.file.bytes (slotPos y.1 y.2) 12 = slice s.file.bytes (slotPos y.1 y.2) 12 := by
      intro y hy'
      obtain ⟨y1, y2, _⟩ := places_mem (p := y.1) (i := y.2) hy' h.slots.inv.cle
      apply List.ext_getElem?
      intro j
      simp only [slice_getElem?]
      by_cases hj : j < 12
      · rw [if_pos hj, if_pos hj]
        have := e2.same y.1 (h.slots.live _ y1) (9 + y.2 * 265 + j) (by unfold pageSize; omega) (fun _ => by omega)
        rw [show slotPos y.1 y.2 + j = y.1 + (9 + y.2 * 265 + j) by unfold slotPos; omega]
        exact this
      · rw [if_neg hj, if_neg hj]
    have hforest : ForestInv (idxTrees data parse wd (places ps cnt).tail ms) s1 c free' E P := by
      refine h.forest.frame e2.slots.valid e2.slots.budget e2.live e2.len ?_ ?_
      · intro i t ht p hp
        obtain ⟨y, m', hy, hm', _⟩ := idxTrees_getElem? ht
        have hi : i < ms.length := (List.getElem?_eq_some_iff.1 hm').1
        have hpl := ((h.forest.tree i t ht).1).live p hp
        unfold pageAt
        apply List.ext_getElem?
        intro j
        simp only [slice_getElem?]
        by_cases hj : j < pageSize
        · rw [if_pos hj, if_pos hj, e2.same p hpl j hj (fun hc => absurd hc (h.out i hi p hp))]
        · rw [if_neg hj, if_neg hj]
      · intro i t ht
        obtain ⟨y, m', hy, hm', rfl⟩ := idxTrees_getElem? ht
        exact hroots y (List.mem_of_mem_tail (List.mem_of_getElem? hy))
    have htlen : (idxTrees data parse wd (places ps cnt).tail ms).length = ms.length := by
      unfold idxTrees; rw [List.length_zipWith, List.length_tail]; omega
    have hsnoc := hforest.snoc (t := ⟨⟨data, parse, wd m⟩, slotPos x.1 x.2⟩) (by simp only [sp2]; unfold pageSize; omega)
      (by simp only [sp1]; exact e2.slots.live _ mx1) (by rw [← hm]; exact hw) e2.root (by
        intro i u hu
        obtain ⟨y, m', hy, hm', rfl⟩ := idxTrees_getElem? hu
        have hi : i < ms.length := (List.getElem?_eq_some_iff.1 hm').1
        have hy' : y ∈ places ps cnt := List.mem_of_mem_tail (List.mem_of_getElem? hy)
        have hy2 : y ∈ places ps' cnt' := by rw [hpl]; simp [hy']
        have hne : x ≠ y := by
          intro hc
          have hnd := places_nodup e2.slots.inv.nodup e2.slots.inv.cle
          rw [hpl] at hnd
          have := (List.nodup_append.1 hnd).2.2 y hy' x (by simp)
          exact this hc.symm
        refine ⟨?_, ?_⟩
        · have := places_apart e2.slots.inv.pages e2.slots.inv.cle hxm hy2 hne
          unfold SlotsApart; simp only; omega
        · simp only [sp1]
          intro hc
          have hl := ((h.forest.tree i _ hu).1).live _ hc
          rcases e2.fresh _ mx1 with hf | hf
          · exact h.out i hi _ hc hf
          · exact hf hl)
    rw [htlen] at hsnoc
    have htrees : idxTrees data parse wd (places ps cnt).tail ms ++ [⟨⟨data, parse, wd m⟩, slotPos x.1 x.2⟩] =
        idxTrees data parse wd (places ps' cnt').tail (ms ++ [m]) := by
      rw [hpl, htl]
      simp only [List.cons_append, List.tail_cons]
      unfold idxTrees
      rw [List.zipWith_append (by rw [htl] at hlen; simpa using hlen)]
      rfl
    rw [htrees] at hsnoc
    -- with the metadata
    have hx1 : slotPos x.1 x.2 + 12 ≤ s1.file.bytes.length := by
      have := (e2.slots.inv.pages.page _ mx1).2.2
      unfold slotPos pageSize at *; omega
    have hat := e2.slots.inv.pages.atSlot mx1 mx2
    obtain ⟨q, hq⟩ := lp_setMetadata_ok hat e2.slots.budget (d := m.bytes) (by omega)
    have hf := Frame.write e2.slots.valid e2.slots.budget (e2.slots.live _ mx1) (r := 9 + x.2 * 265 + 12)
      (b := UInt8.ofNat m.bytes.length :: m.bytes) (by simp only [List.length_cons]; unfold pageSize; omega) q
    have e : x.1 + (9 + x.2 * 265 + 12) = slotPos x.1 x.2 + 12 := by unfold slotPos; omega
    rw [e] at hf
    refine ⟨x, _, free', ps', cnt', _, _, ?_, hpl, ⟨⟨hf.1.valid, hf.1.budget, fun y hy => hf.1.live y (e2.slots.live y hy), ?_⟩,
      hsnoc.frame hf.1.valid hf.1.budget hf.1.live hf.1.len ?_ ?_, ?_, ?_⟩, ?_, ?_, ?_⟩
    · unfold IndexFile.createIndex
      rw [Act.bind_ok e1]
      simp only [hm]
      rw [Act.bind_ok (a := m.bytes) (s' := s1) (by rw [IndexMeta.marshal_eq]; rfl), Act.bind_ok hq]
      rfl
    · have := e2.slots.inv.setMd hx hml
      have hset : ((fm.bytes :: ms.map IndexMeta.bytes) ++ [[]]).set (ms.length + 1) m.bytes =
          fm.bytes :: (ms ++ [m]).map IndexMeta.bytes := by
        rw [List.cons_append, List.set_cons_succ, List.set_append]
        simp
      rw [hset] at this
      exact this
    · intro i t ht p hp
      have hlt := hf.1.same p (((hsnoc.tree i t ht).1).live p hp)
      refine hlt ?_
      simp
      rintro rfl
      obtain ⟨y, m', hy, hm', _⟩ := idxTrees_getElem? ht
      have hi : i < ms.length + 1 := by have := (List.getElem?_eq_some_iff.1 hm').1; simpa using this
      by_cases hik : i = ms.length
      · subst hik; rw [setAt_same] at hp; simp at hp
      · rw [setAt_ne _ _ hik] at hp
        rcases e2.fresh _ mx1 with hfr | hfr
        · exact h.out i (by omega) _ hp hfr
        · obtain ⟨y', hy'⟩ : ∃ t', (idxTrees data parse wd (places ps cnt).tail ms)[i]? = some t' :=
            ⟨_, List.getElem?_eq_getElem (by omega)⟩
          exact hfr (((h.forest.tree i y' hy').1).live _ hp)
    · intro i t ht
      obtain ⟨y, m', hy, hm', rfl⟩ := idxTrees_getElem? ht
      have hy' : y ∈ places ps' cnt' := List.mem_of_mem_tail (List.mem_of_getElem? hy)
      simp only [upd_bytes]
      rw [slice_writeAt_disjoint hx1]
      rw [List.length_cons]
      by_cases hxy : y = x
      · subst hxy; omega
      · have := places_apart e2.slots.inv.pages e2.slots.inv.cle hy' hxm hxy
        omega
    · intro i hi p hp
      simp only [List.length_append, List.length_cons, List.length_nil] at hi
      by_cases hik : i = ms.length
      · subst hik; rw [setAt_same] at hp; simp at hp
      · rw [setAt_ne _ _ hik] at hp
        obtain ⟨y', hy'⟩ : ∃ t', (idxTrees data parse wd (places ps cnt).tail ms)[i]? = some t' :=
          ⟨_, List.getElem?_eq_getElem (by omega)⟩
        intro hc
        rcases e2.fresh _ hc with hfr | hfr
        · exact h.out i (by omega) _ hp hfr
        · exact hfr (((h.forest.tree i y' hy').1).live _ hp)
    · intro hst
      have hu : AllUsed s1 free' ps' (setAt P ms.length []) (ms ++ [m]).length := by
        refine ⟨e2.nofree (h.used hst).1, fun y hy => ?_⟩
        rcases e2.used y hy with hy | hy
        · rcases (h.used hst).2 y hy with hy | ⟨i, hi, hy⟩
          · exact .inl (e2.keep y hy)
          · exact .inr ⟨i, by rw [List.length_append]; omega, by rw [setAt_ne _ _ (by omega)]; exact hy⟩
        · exact .inl hy
      exact hu.same hf.2
    · have := hf.2
      simp only [upd_bytes] at this ⊢
      rw [this]; exact e2.len
    · simp only [upd_bytes]
      rw [slice_writeAt_disjoint hx1 (by omega)]
      exact e2.root
    · intro y hy'
      simp only [upd_bytes]
      have hy2 : y ∈ places ps' cnt' := by rw [hpl]; simp [hy']
      rw [slice_writeAt_disjoint hx1 ?_]
      · exact hroots y hy'
      · rw [List.length_cons]
        by_cases hxy : y = x
        · subst hxy; omega
        · have := places_apart e2.slots.inv.pages e2.slots.inv.cle hy2 hxm hxy
          omega
  · right
    refine ⟨s1, ?_, e2⟩
    unfold IndexFile.createIndex
    rw [Act.bind_err e1]

end Appendable
