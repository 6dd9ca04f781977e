import Verif.Lemmas.TsMid
import Verif.Props.CrashSplit
import Verif.Props.TsClient
/-! C110: a client that queries while an entry is being inserted. -/
namespace Appendable
open Spec Tree

variable {parse : Bytes → Bytes} {wd : UInt16 → UInt16} {data : Bytes} {i : IndexFile} {s s' : PF} {fm : FileMeta}
  {is : List (LP × IndexMeta)} {c : Nat → List (RV × MemPtr)} {β : Type} {k : Nat} {p : LP} {m : IndexMeta} {key : RV} {value : MemPtr}

/-- The metadata of an index file. -/
theorem IndexSt.metaSt {st : Prop} {wd : IndexMeta → UInt16} (h : IndexSt st data parse wd s fm is c) : MetaSt s fm is := by
  obtain ⟨⟨free, ps, cnt, E, P, h1, h2⟩, h3, _⟩ := h
  exact ⟨⟨ps, cnt, h1.slots.inv, h2⟩, h3⟩

/-- **C110** is violated by every insert that splits a leaf: whenever an insert into an index with entries allocates a page, there is a
moment during the insert (after `n` of its writes) at which an entry that was stored before is not in the index for a client that reads
the file then: its queries `field < v` and `field <= v`, descending, return the records of the matching entries of `xs` only, and `xs`
has no entry with the key of `e`.  (Before the insert, and after it, the same query returns the record of `e`, if it matches:
`C47_below_desc_partial`.) -/
theorem C110_split_violated (hw : SmallWidths wd) (h : IndexRun parse wd data i s fm is c) (hwm : wd m.width = m.width)
    (hk : is[k]? = some (p, m)) (hne : c k ≠ []) (hko : KeyOK ⟨data, parse, m.width⟩ key)
    (hins : (treeAt data parse m.width p).insert key value s = (.ok (), s')) (hal : s'.lastPage ≠ s.lastPage ∨ s'.count ≠ s.count) :
    ∃ (n : Nat) (xs lost : List (RV × MemPtr)), (xs ++ lost).Perm ((key, value) :: c k) ∧ (∃ e ∈ c k, ∀ x ∈ xs, x.1 ≠ e.1) ∧
      ((treeAt data parse m.width p).insert key value (crashAfter n s)).2.file.bytes.length ≤ s.file.bytes.length + pageSize ∧
      ∀ (db : TsDb) (q : TsQuery) (op : TsOp) (v : Bytes) (select : Bytes → Res β),
        Served parse data ((treeAt data parse m.width p).insert key value (crashAfter n s)).2 fm is
          (setAt c k ((key, value) :: c k)) db q op v k p m → op = .lt ∨ op = .le → q.dir = .desc →
        ∃ ys, Answer xs op v .desc ys ∧ Returns db select q (rowsOf data select ys) := by
  obtain ⟨hi, _⟩ := indexRun_is hw h
  have hck : setAt c k ((key, value) :: c k) k = (key, value) :: c k := by simp [setAt]
  obtain ⟨free0, ps0, cnt0, E0, P0, g1, g2, g3⟩ := hi.treeAt
  obtain ⟨ti, tw, tp⟩ := g1.forest.tree k _ (g3 k p m hk)
  simp only [hwm] at ti tw
  have hne0 : E0 k ≠ [] := by
    intro h0; rw [h0] at tp; exact hne (List.nil_perm.1 tp)
  obtain ⟨n, s2, free2, es2, hh, b1, b2, b3, b4, ⟨lost, b5⟩, b8, e, b6, b7, _⟩ := split_point tw.vlen hko ti hne0 hins hal
  have hperm : (es2 ++ lost).Perm ((key, value) :: c k) := b5.trans (tp.cons _)
  have hkl : k < (is.map (·.2)).length := by
    rw [List.length_map]; exact (List.getElem?_eq_some_iff.1 hk).1
  have hout : ∀ x ∈ P0 k, x ∉ ps0 := g1.out k hkl
  have hmi : MetaInv s2.file.bytes ps0 cnt0 (fm.bytes :: (is.map (·.2)).map IndexMeta.bytes) := by
    refine g1.slots.inv.frame b2.len b2.valid.small ?_
    intro x hx j hj _
    have := congrArg (fun b => b[j]?) (b2.same x (g1.slots.live x hx) (fun hc => hout x hc hx))
    simpa [pageAt, slice_getElem?, hj] using this
  have hms : MetaSt s2 fm is := ⟨⟨ps0, cnt0, hmi, g2⟩, hi.metaSt.2⟩
  refine ⟨n, es2, lost, hperm, ⟨e, tp.mem_iff.1 b6, b7⟩, by rw [b1]; exact b8, ?_⟩
  intro db q op v select hs hop hd
  obtain ⟨name, val, ft, hq, hv, hp⟩ := hs.ask
  have hsee : Sees db data s2.file.bytes := b1 ▸ hs.sees
  have hent : ∀ x ∈ es2, EntryOK (db.parse fm.format.toByte.toNat m.fieldType.toNat) ⟨data, parse, m.width⟩ x := by
    intro x hx
    exact hs.entries x (by rw [hck]; exact hperm.mem_iff.1 (by simp [hx]))
  have hview : TsView (clientTree db fm p m) (treeAt data parse m.width p).cfg s2.file.bytes es2 :=
    ⟨hsee.idx, hsee.dat, rfl, hsee.len, fun x hx => ⟨(hent x hx).1, (hent x hx).2.1⟩⟩
  have hroot : (clientTree db fm p m).rootPtr = .ok (MemPtr.ts ⟨(MemPtr.decode (slice s2.file.bytes p.rootPos.toNat 12)).offset,
      (MemPtr.decode (slice s2.file.bytes p.rootPos.toNat 12)).length⟩) := (hms.tsIndex hsee.idx hk).2
  obtain ⟨ys, r1, r2⟩ := rep_clause_desc (row := tsRow (clientTree db fm p m) select) hview b3 hroot hop v
  refine ⟨ys, r1, is.length + hh + es2.length + 2, fun fl hfl => ?_⟩
  rw [hms.tsQuery hsee.idx hq hv hp fl (by omega)]
  simp only
  rw [hd, r2 fl fl (by omega) (by omega)]
  apply gather_congr
  intro x hx
  have := hent x ((r1.1 x).1 hx).1
  exact tsRow_record hsee.dat rfl this.2.2.1 this.2.2.2

/-- During an insert that allocates no page the file is as before or as afterwards. -/
theorem noalloc_bytes {t : Tree} {key : RV} {value : MemPtr} {s s1 : PF} {free : List Nat} {es : List Entry} {ps : List Nat}
    (hti : TreeIs t s free es ps) (hne : es ≠ []) (hrun : t.insert key value s = (.ok (), s1)) (h1 : s1.lastPage = s.lastPage)
    (h2 : s1.count = s.count) (n : Nat) : (t.insert key value (crashAfter n s)).2.file.bytes = s.file.bytes ∨
      (t.insert key value (crashAfter n s)).2.file.bytes = s1.file.bytes := by
  rcases hti.root with ⟨_, h0, _⟩ | ⟨h0, h, hr, _⟩
  · exact absurd h0 hne
  · obtain ⟨nd, hn⟩ := hr.node
    obtain ⟨p0, hroot⟩ := root_some (t := t) hti.slotInside hti.slot h0 hn
    refine insert_noalloc hti.valid hti.budget hrun h1 h2 ?_ ?_ ?_ n
    · intro s2 hs2; rw [hroot] at hs2; exact ⟨p0, hs2.symm⟩
    · intro nd' mp s2 hs2
      rw [hroot] at hs2
      cases hs2
      have hfuel : h < fuel (s.upd s.file.bytes p0) := by
        have := hr.height_lt
        have := pages_count hti.nodup hr.pages
        unfold fuel; simp only [upd_bytes]; omega
      generalize MemPtr.decode (slice s.file.bytes t.rootPos 12) = mp at *
      obtain ⟨off, l⟩ := mp
      obtain ⟨path, p1, htr, hpath⟩ := traverse_ok (t := t) (key := key) (s := s.upd s.file.bytes p0) (l := l)
        hr hn hfuel (fun l hl => by cases hl) (fun l hl => by cases hl)
      rw [htr]
      exact ⟨p1, rfl⟩
    · intro s2 hs2; rw [hroot] at hs2; simp at hs2

/-- C110, for inserts that allocate no page: at every moment of the insert a client sees the file as it was before or as it will be
afterwards, so that its queries `field < v` and `field <= v`, descending, return the records of all matching entries stored before, with or
without the new one.  Missing: inserts that split a leaf, where this is false (`C110_split_violated`); the other operators, for which
the answers to the two files are described in C44 to C47. -/
theorem C110_oldnew_partial (hw : SmallWidths wd) (h : IndexRun parse wd data i s fm is c) (hwm : wd m.width = m.width)
    (hk : is[k]? = some (p, m)) (hne : c k ≠ []) (hko : KeyOK ⟨data, parse, m.width⟩ key)
    (hins : (treeAt data parse m.width p).insert key value s = (.ok (), s')) (h1 : s'.lastPage = s.lastPage) (h2 : s'.count = s.count)
    (n : Nat) {db : TsDb} {q : TsQuery} {op : TsOp} {v : Bytes}
    (hs : Served parse data ((treeAt data parse m.width p).insert key value (crashAfter n s)).2 fm is
          (setAt c k ((key, value) :: c k)) db q op v k p m) (hop : op = .lt ∨ op = .le) (hd : q.dir = .desc) (select : Bytes → Res β) :
    (Sees db data s.file.bytes ∨ Sees db data s'.file.bytes) ∧
    ∃ es, (es = c k ∨ es = (key, value) :: c k) ∧ ∃ ys, Answer es op v .desc ys ∧ Returns db select q (rowsOf data select ys) := by
  obtain ⟨hi, _⟩ := indexRun_is hw h
  have hck : setAt c k ((key, value) :: c k) k = (key, value) :: c k := by simp [setAt]
  obtain ⟨free0, ps0, cnt0, E0, P0, g1, g2, g3⟩ := hi.treeAt
  obtain ⟨ti, tw, tp⟩ := g1.forest.tree k _ (g3 k p m hk)
  simp only [hwm] at ti tw
  have hne0 : E0 k ≠ [] := by
    intro h0; rw [h0] at tp; exact hne (List.nil_perm.1 tp)
  have hsees := hs.sees
  rcases noalloc_bytes ti hne0 hins h1 h2 n with hb | hb
  · rw [hb] at hsees
    have hs0 : Served parse data s fm is c db q op v k p m :=
      ⟨hsees, hs.ask, hne, fun e he => hs.entries e (by rw [hck]; exact List.mem_cons_of_mem _ he)⟩
    exact ⟨.inl hsees, _, .inl rfl, C47_below_desc_partial hw h hwm hs0 hop hd select⟩
  · rw [hb] at hsees
    have hrun : IndexRun parse wd data i s' fm is (setAt c k ((key, value) :: c k)) :=
      .insert h hk (by rw [hwm]; exact hko) (by rw [hwm]; exact hins)
    have hs1 : Served parse data s' fm is (setAt c k ((key, value) :: c k)) db q op v k p m := ⟨hsees, hs.ask, hs.nonempty, hs.entries⟩
    have := C47_below_desc_partial hw hrun hwm hs1 hop hd select
    rw [hck] at this
    exact ⟨.inr hsees, _, .inr rfl, this⟩

end Appendable
