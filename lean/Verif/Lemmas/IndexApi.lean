import Verif.Lemmas.IndexOps
/-! The state of an index file, seen from the API, under every operation. -/
namespace Appendable
open Spec Tree

variable {data : Bytes} {parse : Bytes → Bytes} {wd : IndexMeta → UInt16} {s : PF} {fm : FileMeta} {is : List (LP × IndexMeta)}
  {c : Nat → List Entry} {st : Prop}

theorem IndexSt.upd (h : IndexSt st data parse wd s fm is c) (q : Nat) : IndexSt st data parse wd (s.upd s.file.bytes q) fm is c := by
  obtain ⟨⟨free, ps, cnt, E, P, h1, h2⟩, h3⟩ := h
  exact ⟨⟨free, ps, cnt, E, P, h1.upd q, h2⟩, h3⟩

theorem IndexSt.budget (h : IndexSt st data parse wd s fm is c) : s.file.budget = none := by
  obtain ⟨⟨free, ps, cnt, E, P, h1, h2⟩, h3⟩ := h
  exact h1.slots.budget

theorem fileMeta_lift (fm : FileMeta) (s : PF) : (Act.lift (FileMeta.unmarshal fm.bytes) : Act PF FileMeta) s = (.ok fm, s) := by
  have := fm.unmarshal_bytes []
  rw [List.append_nil] at this
  rw [this]; rfl

theorem IndexSt.fileSlotMd (h : IndexSt st data parse wd s fm is c) : ∃ q, fileSlot.metadata s = (.ok fm.bytes, s.upd s.file.bytes q) := by
  obtain ⟨⟨free, ps, cnt, E, P, h1, h2⟩, h3⟩ := h
  obtain ⟨tl, htl, _⟩ := h1.first
  exact h1.slots.inv.metadata (k := 0) (x := (pageSize, 0)) (d := fm.bytes) (by rw [htl]; rfl) rfl rfl

/-- `Metadata` -/
theorem IndexSt.metadata (h : IndexSt st data parse wd s fm is c) {i : IndexFile} (hi : i.tree = fileSlot) :
    ∃ q, i.metadata s = (.ok fm, s.upd s.file.bytes q) := by
  obtain ⟨q, hq⟩ := h.fileSlotMd
  refine ⟨q, ?_⟩
  unfold IndexFile.metadata
  rw [hi, Act.bind_ok hq, fileMeta_lift]

/-- `SetMetadata` -/
theorem IndexSt.setMetadata (h : IndexSt st data parse wd s fm is c) {i : IndexFile} (hi : i.tree = fileSlot) (fm' : FileMeta) :
    ∃ s', i.setMetadata fm' s = (.ok (), s') ∧ IndexSt st data parse wd s' fm' is c ∧ s'.file.bytes.length = s.file.bytes.length := by
  obtain ⟨⟨free, ps, cnt, E, P, h1, h2⟩, h3⟩ := h
  obtain ⟨tl, htl, _⟩ := h1.first
  obtain ⟨s', e1, e2, e3⟩ := h1.setFileMeta (x := (pageSize, 0)) (by rw [htl]; rfl) fm'
  refine ⟨s', ?_, ⟨⟨free, ps, cnt, E, P, e2, h2⟩, h3⟩, e3⟩
  unfold IndexFile.setMetadata
  rw [hi, Act.bind_ok (a := fm'.bytes) (s' := s) (by rw [FileMeta.marshal_eq]; rfl)]
  exact e1

theorem IndexSt.handle (h : IndexSt st data parse wd s fm is c) {k : Nat} {i : LP × IndexMeta} (hk : is[k]? = some i) :
    ∃ p j, AtSlot s.file.bytes i.1 p j := by
  obtain ⟨⟨free, ps, cnt, E, P, h1, h2⟩, h3⟩ := h
  have : ((places ps cnt).tail.map slotAt)[k]? = some i.1 := by rw [h2]; simp [hk]
  rw [List.getElem?_map] at this
  obtain ⟨x, hx, he⟩ := Option.map_eq_some_iff.1 this
  rw [List.getElem?_tail] at hx
  obtain ⟨m1, m2, _⟩ := places_mem (p := x.1) (i := x.2) (List.mem_of_getElem? hx) h1.slots.inv.cle
  exact ⟨x.1, x.2, by rw [← he]; exact h1.slots.inv.pages.atSlot m1 m2⟩

/-- `FindOrCreateIndex` -/
theorem IndexSt.findOrCreate (h : IndexSt st data parse wd s fm is c) {i : IndexFile} (hi : i.tree = fileSlot) {name : Bytes}
    (hn : name.length ≤ 236) (ty : UInt8) (hw : (wd ⟨name, ty, determineTypeByte ty, 0⟩).toNat ≤ 2017) :
    (∃ (k : Nat) (p : LP) (m : IndexMeta) (q : Nat), is[k]? = some (p, m) ∧ m.fieldName = name ∧ m.fieldType = ty ∧
      i.findOrCreate name ty s = (.ok (p, m), s.upd s.file.bytes q)) ∨
    (∃ p s', (∀ x ∈ is, ¬ (x.2.fieldName = name ∧ x.2.fieldType = ty)) ∧
      i.findOrCreate name ty s = (.ok (p, ⟨name, ty, determineTypeByte ty, 0⟩), s') ∧
      IndexSt st data parse wd s' fm (is ++ [(p, ⟨name, ty, determineTypeByte ty, 0⟩)]) c ∧
      s.file.bytes.length ≤ s'.file.bytes.length ∧ (p.root s').1 = .ok ⟨0, 0⟩ ∧
      ∀ x ∈ is, (x.1.root s').1 = (x.1.root s).1) ∨
    (∃ s', (∀ x ∈ is, ¬ (x.2.fieldName = name ∧ x.2.fieldType = ty)) ∧ i.findOrCreate name ty s = (.err .io, s') ∧
      2 ^ 63 ≤ s.file.bytes.length + pageSize) := by
  obtain ⟨⟨free, ps, cnt, E, P, h1, h2⟩, h3, h4⟩ := h
  obtain ⟨tl, htl, hlk, hc1⟩ := h1.first
  have htl' : (places ps cnt).tail = tl := by rw [htl]; rfl
  have hsm : ∀ m ∈ is.map (·.2), m.fieldName.length ≤ 236 := by
    intro m hm
    obtain ⟨x, hx, rfl⟩ := List.mem_map.1 hm
    exact h3 x hx
  have hma := h1.metasAt hsm
  have hfu := h1.fuel
  rw [htl'] at hma hfu
  have hlen : is.length = tl.length := by
    have := congrArg List.length h2
    rw [htl'] at this; simpa using this.symm
  rcases findFrom_linked name ty rfl hlk hma (LP.listFuel s) hfu with ⟨k, n, m, q, e1, e2, e3, e4, e5⟩ | ⟨e1, l, q, e2, e3⟩
  · left
    refine ⟨k, n, m, q, ?_, e3, e4, ?_⟩
    · rw [← htl', h2, List.getElem?_map] at e1
      rw [List.getElem?_map] at e2
      obtain ⟨x, hx, hx1⟩ := Option.map_eq_some_iff.1 e1
      rw [hx] at e2
      simp only [Option.map_some, Option.some.injEq] at e2
      rw [hx, ← hx1, ← e2]
    · unfold IndexFile.findOrCreate
      rw [hi]; exact e5
  · have hno : ∀ x ∈ is, ¬ (x.2.fieldName = name ∧ x.2.fieldType = ty) := fun x hx => e1 x.2 (List.mem_map.2 ⟨x, hx, rfl⟩)
    rcases (h1.upd q).create (l := l) (by rw [htl']; exact e2) hn ty hw with ⟨x, s', free', ps', cnt', E', P', g1, g2, g3, g4, g5, g6⟩ | ⟨s', g1, g2⟩
    · right; left
      refine ⟨slotAt x, s', hno, ?_, ⟨⟨free', ps', cnt', E', P', ?_, ?_⟩, ?_, ?_⟩, g4, ?_, ?_⟩
      · unfold IndexFile.findOrCreate
        rw [hi, e3]; exact g1
      · simpa using g3
      · rw [g2, htl, List.cons_append, List.tail_cons, List.map_append, List.map_append, ← h2, htl']; rfl
      · intro y hy
        rcases List.mem_append.1 hy with hy | hy
        · exact h3 y hy
        · simp at hy; subst hy; exact hn
      · rw [List.map_append]
        refine List.nodup_append.2 ⟨h4, by simp, ?_⟩
        intro a ha b hb hab
        simp at hb
        subst hb
        obtain ⟨y, hy, rfl⟩ := List.mem_map.1 ha
        simp only [Prod.mk.injEq] at hab
        exact hno y hy hab
      · have hx : x ∈ places ps' cnt' := by rw [g2]; simp
        obtain ⟨m1, m2, _⟩ := places_mem (p := x.1) (i := x.2) hx g3.slots.inv.cle
        have hat := g3.slots.inv.pages.atSlot m1 m2
        rw [lp_root_ok (show AtSlot s'.file.bytes (slotAt x) x.1 x.2 from hat), g5, decode_zeros]
      · intro y hy
        have : y.1 ∈ (places ps cnt).tail.map slotAt := by rw [h2]; exact List.mem_map.2 ⟨y, hy, rfl⟩
        obtain ⟨z, hz, he⟩ := List.mem_map.1 this
        have hz1 : z ∈ places ps cnt := List.mem_of_mem_tail hz
        have hz2 : z ∈ places ps' cnt' := by rw [g2]; simp [hz1]
        obtain ⟨m1, m2, _⟩ := places_mem (p := z.1) (i := z.2) hz1 h1.slots.inv.cle
        obtain ⟨n1, _⟩ := places_mem (p := z.1) (i := z.2) hz2 g3.slots.inv.cle
        have hat1 := h1.slots.inv.pages.atSlot m1 m2
        have hat2 := g3.slots.inv.pages.atSlot n1 m2
        rw [← he, lp_root_ok (show AtSlot s'.file.bytes (slotAt z) z.1 z.2 from hat2),
          lp_root_ok (show AtSlot s.file.bytes (slotAt z) z.1 z.2 from hat1), g6 z hz1]
        rfl
    · right; right
      refine ⟨s', hno, ?_, g2⟩
      unfold IndexFile.findOrCreate
      rw [hi, e3]; exact g1

/-- `SetMetadata` of an index. -/
theorem IndexSt.setIndex (h : IndexSt st data parse wd s fm is c) {k : Nat} {p : LP} {m m' : IndexMeta} (hk : is[k]? = some (p, m))
    (hw : wd m' = wd m) (hn : m'.fieldName = m.fieldName) (ht : m'.fieldType = m.fieldType) :
    ∃ s', p.setMetadata m'.bytes s = (.ok (), s') ∧ IndexSt st data parse wd s' fm (is.set k (p, m')) c ∧
      s'.file.bytes.length = s.file.bytes.length := by
  obtain ⟨⟨free, ps, cnt, E, P, h1, h2⟩, h3, h4⟩ := h
  have hsl : ((places ps cnt).tail.map slotAt)[k]? = some p := by rw [h2]; simp [hk]
  rw [List.getElem?_map] at hsl
  obtain ⟨x, hx, he⟩ := Option.map_eq_some_iff.1 hsl
  rw [List.getElem?_tail] at hx
  have hm : (is.map (·.2))[k]? = some m := by simp [hk]
  have hkl : k < is.length := (List.getElem?_eq_some_iff.1 hk).1
  have hml : m'.bytes.length ≤ 252 := by
    rw [IndexMeta.bytes_length, hn]
    have := h3 _ (List.mem_of_getElem? hk)
    have := putUvarint_length_le m'.totalLen
    simp only at *; omega
  obtain ⟨s', e1, e2, e3⟩ := h1.setIdxMeta hx hm hw hml
  refine ⟨s', by rw [← he]; exact e1, ⟨⟨free, ps, cnt, E, P, ?_, ?_⟩, ?_, ?_⟩, e3⟩
  · rw [List.map_set]; exact e2
  · rw [h2]
    apply List.ext_getElem?
    intro j
    simp only [List.getElem?_map, List.getElem?_set]
    by_cases hj : k = j
    · subst hj; simp [hk, (List.getElem?_eq_some_iff.1 hk).2]
      try exact hkl
    · simp [hj]
  · intro y hy
    rcases List.mem_or_eq_of_mem_set hy with hy | rfl
    · exact h3 y hy
    · rw [hn]; exact h3 _ (List.mem_of_getElem? hk)
  · have : (is.set k (p, m')).map (fun i => (i.2.fieldName, i.2.fieldType)) = is.map (fun i => (i.2.fieldName, i.2.fieldType)) := by
      apply List.ext_getElem?
      intro j
      simp only [List.getElem?_map, List.getElem?_set]
      by_cases hj : k = j
      · subst hj; simp [hk, hn, ht]
        try exact hkl
      · simp [hj]
    rw [this]; exact h4

theorem IndexSt.treeAt (h : IndexSt st data parse wd s fm is c) : ∃ free ps cnt E P, IdxInv st data parse wd s fm (is.map (·.2)) c free ps cnt E P ∧
    (places ps cnt).tail.map slotAt = is.map (·.1) ∧
    ∀ (k : Nat) (p : LP) (m : IndexMeta), is[k]? = some (p, m) →
      (idxTrees data parse wd (places ps cnt).tail (is.map (·.2)))[k]? = some (Appendable.treeAt data parse (wd m) p) := by
  obtain ⟨⟨free, ps, cnt, E, P, h1, h2⟩, h3, h4⟩ := h
  refine ⟨free, ps, cnt, E, P, h1, h2, ?_⟩
  intro k p m hk
  have hsl : ((places ps cnt).tail.map slotAt)[k]? = some p := by rw [h2]; simp [hk]
  rw [List.getElem?_map] at hsl
  obtain ⟨x, hx, he⟩ := Option.map_eq_some_iff.1 hsl
  have hx' := hx
  rw [List.getElem?_tail] at hx
  obtain ⟨m1, m2, _⟩ := places_mem (p := x.1) (i := x.2) (List.mem_of_getElem? hx) h1.slots.inv.cle
  have hat := h1.slots.inv.pages.atSlot m1 m2
  have hrp := hat.rootPos
  rw [idxTrees_of hx' (show (is.map (·.2))[k]? = some m by simp [hk])]
  unfold Appendable.treeAt
  rw [← he]
  have hrp' : (slotAt x).rootPos.toNat = slotPos x.1 x.2 := hrp
  rw [hrp']

/-- An insert into the tree of an index. -/
theorem IndexSt.insert (h : IndexSt st data parse wd s fm is c) {k : Nat} {p : LP} {m : IndexMeta} (hk : is[k]? = some (p, m))
    {key : RV} (v : MemPtr) (hko : KeyOK ⟨data, parse, wd m⟩ key) :
    (∃ s', (Appendable.treeAt data parse (wd m) p).insert key v s = (.ok (), s') ∧ (∀ e ∈ c k, e.1 ≠ key) ∧
      IndexSt st data parse wd s' fm is (setAt c k ((key, v) :: c k)) ∧ s.file.bytes.length ≤ s'.file.bytes.length ∧
      (s'.file.bytes.length ≤ s.file.bytes.length + 2 * pageSize ∨ pageSize < leafBytes (wd m) (c k))) ∨
    (∃ q, (Appendable.treeAt data parse (wd m) p).insert key v s = (.err (.msg "key already exists"), s.upd s.file.bytes q) ∧
      ∃ e ∈ c k, e.1 = key) ∨
    (∃ s', (Appendable.treeAt data parse (wd m) p).insert key v s = (.err .io, s') ∧ (∀ e ∈ c k, e.1 ≠ key) ∧
      2 ^ 63 ≤ 2 * s.file.bytes.length + pageSize) := by
  obtain ⟨free, ps, cnt, E, P, h1, h2, h3⟩ := h.treeAt
  have ht := h3 k p m hk
  obtain ⟨ti, tw, tp⟩ := h1.forest.tree k _ ht
  cases insert_out (value := v) tw.vlen hko ti with
  | dup q e he hke run => exact .inr (.inl ⟨q, run, e, tp.mem_iff.1 he, hke⟩)
  | full s' new run big => exact .inr (.inr ⟨s', run, fun e he => new e (tp.mem_iff.2 he), big⟩)
  | ok s' free' es' ps' new run rel tree out fresh grow =>
    obtain ⟨free'', es'', ps'', g1, g2, g3⟩ := h1.insert ht hko run
    rw [leafBytes_perm tp] at grow
    exact .inl ⟨s', run, fun e he => new e (tp.mem_iff.2 he), ⟨⟨_, _, _, _, _, g1, h2⟩, h.2⟩, out.len, grow⟩

/-- The data file grows. -/
theorem IndexSt.grow (h : IndexSt st data parse wd s fm is c) (more : Bytes) : IndexSt st (data ++ more) parse wd s fm is c := by
  obtain ⟨⟨free, ps, cnt, E, P, h1, h2⟩, h3⟩ := h
  refine ⟨⟨free, ps, cnt, E, P, ⟨h1.slots, ?_, h1.out, h1.used⟩, h2⟩, h3⟩
  have := h1.forest.grow more
  have he : (idxTrees data parse wd (places ps cnt).tail (is.map (·.2))).map (growData more) =
      idxTrees (data ++ more) parse wd (places ps cnt).tail (is.map (·.2)) := by
    unfold idxTrees
    rw [List.map_zipWith]
    rfl
  rw [he] at this
  exact this

/-- `NewIndexFile` after opening the page file of an index file. -/
theorem attach_existing {ms : List IndexMeta} {free ps : List Nat} {cnt : Nat} {E : Nat → List Entry} {P : Nat → List Nat}
    (h : IdxInv st data parse wd s fm ms c free ps cnt E P) (fmt : Format) (hs : List Bytes) :
    ∃ q, IndexFile.attach fmt hs s = (if fm.version ≠ currentVersion then .err (.msg "unsupported version")
      else if fm.format ≠ fmt then .err (.msg "unsupported format") else .ok ⟨fileSlot, hs⟩, s.upd s.file.bytes q) := by
  obtain ⟨q1, h1⟩ := newMulti_ok h.slots.inv
  obtain ⟨tl, htl, _, hc1⟩ := h.first
  obtain ⟨r, hr⟩ := h.slots.inv.first
  have hch := h.slots.inv.chain
  have hpg := h.slots.inv.pages
  rw [hr] at hch hpg
  have hlk := chain_linked_head hch hpg h.slots.inv.cle (fun _ => hc1)
  rw [← hr, htl, List.map_cons] at hlk
  obtain ⟨⟨q2, h2⟩, _⟩ := hlk.1 (s.upd s.file.bytes q1) rfl
  obtain ⟨q3, h3⟩ := h.slots.inv.metadata (k := 0) (x := (pageSize, 0)) (d := fm.bytes) (by rw [htl]; rfl) rfl
    (s := (s.upd s.file.bytes q1).upd s.file.bytes q2) rfl
  refine ⟨q3, ?_⟩
  unfold IndexFile.attach
  rw [Act.bind_ok h1]
  unfold IndexFile.attachAt
  rw [h2]
  simp only
  rw [Act.bind_ok h3, Act.bind_ok (fileMeta_lift fm _)]
  simp only [upd_upd]
  by_cases e1 : fm.version ≠ currentVersion
  · rw [if_pos e1, if_pos e1]; rfl
  · rw [if_neg e1, if_neg e1]
    by_cases e2 : fm.format ≠ fmt
    · rw [if_pos e2, if_pos e2]; rfl
    · rw [if_neg e2, if_neg e2]; rfl

/-- `NewIndexFile` on an existing index file. -/
theorem IndexSt.reopen (h : IndexSt st data parse wd s fm is c) {f : File} (hb : f.bytes = s.file.bytes) (hu : f.budget = none)
    (fmt : Format) (hs : List Bytes) :
    (fm.version = currentVersion → fm.format = fmt → ∃ s', IndexFile.openIndex fmt hs f = (.ok (⟨fileSlot, hs⟩, s'), s'.file) ∧
      IndexSt st data parse wd s' fm is c ∧ s'.file.bytes = f.bytes ∧ s'.file.kind = f.kind) ∧
    (¬ (fm.version = currentVersion ∧ fm.format = fmt) → ∃ m f', IndexFile.openIndex fmt hs f = (.err (.msg m), f') ∧ f'.bytes = f.bytes) := by
  obtain ⟨⟨free, ps, cnt, E, P, h1, h2⟩, h3⟩ := h
  obtain ⟨s1, e1, e2, e3, e4, e5, _⟩ := openFile_valid' h1.slots.valid f hb
  have hbb : s1.file.bytes = s.file.bytes := by rw [e3, hb]
  have hbud : s1.file.budget = none := by rw [e5, hu]
  have hlive : ∀ p, Live s free p → Live s1 free p := by intro p hp; unfold Live at *; rw [hbb]; exact hp
  have hinv : IdxInv st data parse wd s1 fm (is.map (·.2)) c free ps cnt E P := by
    refine ⟨⟨e2, hbud, fun p hp => hlive p (h1.slots.live p hp), by rw [hbb]; exact h1.slots.inv⟩, ?_, h1.out, fun hst => (h1.used hst).same (by rw [hbb])⟩
    exact h1.forest.frame e2 hbud hlive (by rw [hbb]; omega) (by rw [hbb]; simp) (by rw [hbb]; simp)
  obtain ⟨q, hq⟩ := attach_existing hinv fmt hs
  refine ⟨fun hv hf => ?_, fun hn => ?_⟩
  · rw [if_neg (by rw [hv]; simp), if_neg (by rw [hf]; simp)] at hq
    refine ⟨s1.upd s1.file.bytes q, ?_, ⟨⟨free, ps, cnt, E, P, hinv.upd q, h2⟩, h3⟩, e3, e4⟩
    unfold IndexFile.openIndex
    rw [e1]; simp only; rw [hq]
  · by_cases hv : fm.version = currentVersion
    · rw [if_neg (by rw [hv]; simp), if_pos (fun hf => hn ⟨hv, hf⟩)] at hq
      refine ⟨"unsupported format", (s1.upd s1.file.bytes q).file, ?_, e3⟩
      unfold IndexFile.openIndex
      rw [e1]; simp only; rw [hq]
    · rw [if_pos hv] at hq
      refine ⟨"unsupported version", (s1.upd s1.file.bytes q).file, ?_, e3⟩
      unfold IndexFile.openIndex
      rw [e1]; simp only; rw [hq]

/-- `NewIndexFile` on an empty file. -/
theorem openIndex_fresh (data : Bytes) (parse : Bytes → Bytes) (wd : IndexMeta → UInt16) {f : File} (hf : f.bytes = []) (hb : f.budget = none)
    (fmt : Format) (hs : List Bytes) :
    ∃ s', IndexFile.openIndex fmt hs f = (.ok (⟨fileSlot, hs⟩, s'), s'.file) ∧
      IndexIs data parse wd s' ⟨currentVersion, fmt, 0, 0⟩ [] (fun _ => []) := by
  obtain ⟨s1, e1, e2, e3, e4, e5, _⟩ := openFile_empty f hf hb
  obtain ⟨s2, g1, g2, g3, g4, g5⟩ := newMulti_fresh e2 e5 (by rw [e3, List.length_replicate])
  have hlk := chain_linked_head g2.inv.chain g2.inv.pages (by omega) (by simp)
  obtain ⟨q, hq⟩ := hlk s2 rfl
  have g2' : SlotsIn (s2.upd s2.file.bytes q) [] [pageSize] 0 [] :=
    ⟨(Frame.upd_pos g2.valid g2.budget q []).valid, g2.budget, g2.live, g2.inv⟩
  obtain ⟨l1, l2⟩ := last_handle g2' (m := headAt pageSize) rfl
  generalize hfm : (⟨currentVersion, fmt, 0, 0⟩ : FileMeta) = fm
  rcases addNext_last g2' l1 l2 with ⟨x, s3, free', ps', c', a1, a2⟩ | ⟨s3, a1, a2⟩
  · have hx : (places ps' c')[0]? = some x := by rw [a2.places]; rfl
    obtain ⟨mx1, mx2, _⟩ := places_mem (p := x.1) (i := x.2) (List.mem_of_getElem? hx) a2.slots.inv.cle
    have hat := a2.slots.inv.pages.atSlot mx1 mx2
    have hl : fm.bytes.length ≤ 252 := by
      rw [FileMeta.bytes_length]; have := putUvarint_length_le fm.entries; omega
    obtain ⟨q2, hq2⟩ := lp_setMetadata_ok hat a2.slots.budget (d := fm.bytes) (by omega)
    have hfw := Frame.write a2.slots.valid a2.slots.budget (a2.slots.live _ mx1) (r := 9 + x.2 * 265 + 12)
      (b := UInt8.ofNat fm.bytes.length :: fm.bytes) (by simp only [List.length_cons]; unfold pageSize; omega) q2
    have e : x.1 + (9 + x.2 * 265 + 12) = slotPos x.1 x.2 + 12 := by unfold slotPos; omega
    rw [e] at hfw
    have hslots := a2.slots.inv.setMd hx hl
    have hinv : IdxInv True data parse wd (s3.upd (writeAt s3.file.bytes (slotPos x.1 x.2 + 12) (UInt8.ofNat fm.bytes.length :: fm.bytes)) q2)
        fm [] (fun _ => []) free' ps' c' (fun _ => []) (fun _ => []) := by
      refine ⟨⟨hfw.1.valid, hfw.1.budget, fun y hy => hfw.1.live y (a2.slots.live y hy), hslots⟩, ?_, by simp, fun _ => AllUsed.same ⟨a2.nofree rfl, fun y hy => .inl ?_⟩ hfw.2⟩
      rotate_left
      · rcases a2.used y hy with hy | hy
        · refine a2.keep y ?_
          have h1 := hy.1; have h2 := hy.2.1; have h3 := hy.2.2.1
          simp only [upd_bytes] at h3
          rw [g4] at h3
          simp only [List.mem_singleton]
          unfold pageSize at *
          omega
        · exact hy
      have : idxTrees data parse wd (places ps' c').tail [] = [] := by unfold idxTrees; simp
      rw [this]
      exact ⟨hfw.1.valid, hfw.1.budget, by simp, by simp, by simp⟩
    have hxe : slotAt x = fileSlot := by
      obtain ⟨tl, htl, _⟩ := hinv.first
      rw [htl] at hx
      simp at hx
      rw [← hx]; rfl
    refine ⟨_, ?_, ⟨⟨free', ps', c', _, _, hinv, ?_⟩, by simp, by simp⟩⟩
    · unfold IndexFile.openIndex
      rw [e1]; simp only
      unfold IndexFile.attach
      rw [Act.bind_ok g1]
      unfold IndexFile.attachAt
      simp only [hq]
      rw [Act.bind_ok a1, hfm, Act.bind_ok (a := fm.bytes) (s' := s3) (by rw [FileMeta.marshal_eq]; rfl),
        Act.bind_ok (show (slotAt x).setMetadata fm.bytes s3 = _ from hq2), hxe]
      rfl
    · rw [a2.places]; rfl
  · have := g4
    simp only [upd_bytes] at a2
    unfold pageSize at *
    omega

end Appendable
