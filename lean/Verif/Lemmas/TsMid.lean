import Verif.Lemmas.Stale
import Verif.Lemmas.TsQuery
/-! What the client reads before it comes to a tree depends on the meta pages only. -/
namespace Appendable
open Spec Tree

/-- The meta pages of the file of `s` hold the file metadata `fm` and the indexes `is`; nothing is said about the trees. -/
def MetaSt (s : PF) (fm : FileMeta) (is : List (LP × IndexMeta)) : Prop :=
  (∃ ps cnt, MetaInv s.file.bytes ps cnt (fm.bytes :: (is.map (·.2)).map IndexMeta.bytes) ∧
    (places ps cnt).tail.map slotAt = is.map (·.1)) ∧ ∀ i ∈ is, i.2.fieldName.length ≤ 236

theorem MetaInv.firstMetaSlot {B : Bytes} {ps : List Nat} {cnt : Nat} {d : Bytes} {ds : List Bytes} (h : MetaInv B ps cnt (d :: ds)) :
    ∃ tl, places ps cnt = (pageSize, 0) :: tl ∧ LinkedFrom B fileSlot (tl.map slotAt) ∧ 1 ≤ cnt := by
  obtain ⟨r, hr⟩ := h.first
  have hlen := h.len
  simp only [List.length_cons] at hlen
  have hc1 : 1 ≤ cnt := by
    by_cases hps : 1 < ps.length
    · exact h.cpos hps
    · have : r = [] := by
        rw [hr] at hps; simp at hps; exact hps
      subst this
      rw [hr] at hlen
      simp [places] at hlen
      omega
  have hch := h.chain
  have hpg := h.pages
  rw [hr] at hch hpg
  obtain ⟨rest, e1, e2⟩ := chain_linked hch hpg h.cle hc1
  have hfs : slotAt (pageSize, 0) = fileSlot := rfl
  rw [← hr] at e1
  have hp0 : ∃ tl, places ps cnt = (pageSize, 0) :: tl := by
    rw [hr]
    cases r with
    | nil =>
      obtain ⟨k, rfl⟩ : ∃ k, cnt = k + 1 := ⟨cnt - 1, by omega⟩
      simp only [places]
      rw [List.range'_succ]
      exact ⟨_, rfl⟩
    | cons a b => exact ⟨_, rfl⟩
  obtain ⟨tl, htl⟩ := hp0
  refine ⟨tl, htl, ?_, hc1⟩
  rw [htl] at e1
  simp only [List.map_cons, List.cons.injEq] at e1
  rw [e1.2, ← hfs]
  exact e2

variable {parse : Bytes → Bytes} {wd : UInt16 → UInt16} {data : Bytes} {s : PF} {fm : FileMeta}
  {is : List (LP × IndexMeta)} {idx : Resolver} {db : TsDb} {β : Type} {select : Bytes → Res β} {q : TsQuery}
  {w : TsWhere} {ft k : Nat} {v : Bytes} {p : LP} {m : IndexMeta}

theorem MetaSt.tsFile (h : MetaSt s fm is) (hf : Faithful idx s.file.bytes) : tsFileMetadata idx =
    .ok ⟨fm.version.toNat, fm.format.toByte.toNat, fm.readOffset.toNat, (tsUvarint (putUvarint fm.entries)).1⟩ := by
  obtain ⟨⟨ps, cnt, h1, h2⟩, h3⟩ := h
  obtain ⟨tl, htl, _⟩ := h1.firstMetaSlot
  have hx : (places ps cnt)[0]? = some (pageSize, 0) := by rw [htl]; rfl
  obtain ⟨m1, m2, _⟩ := places_mem (p := pageSize) (i := 0) (List.mem_of_getElem? hx) h1.cle
  have hat := h1.pages.atSlot m1 m2
  obtain ⟨d1, d2⟩ := h1.md 0 _ fm.bytes hx rfl
  unfold tsFileMetadata
  rw [filePage_ts, show fileSlot = slotAt (pageSize, 0) from rfl, ts_metadata hf hat (by omega) d2]
  exact ts_readFileMeta fm

theorem MetaSt.tsMetaPages_ok (h : MetaSt s fm is) (hf : Faithful idx s.file.bytes) (hne : is ≠ []) :
    ∀ fuel, is.length ≤ fuel → tsMetaPages idx fuel = .ok (is.map (fun x => x.1.ts)) := by
  intro fuel hfu
  obtain ⟨⟨ps, cnt, h1, h2⟩, h3⟩ := h
  obtain ⟨tl, htl, hlink, _⟩ := h1.firstMetaSlot
  have hat : ∀ n ∈ fileSlot :: tl.map slotAt, ∃ p i, AtSlot s.file.bytes n p i := by
    intro n hn
    have : n ∈ (places ps cnt).map slotAt := by rw [htl]; exact hn
    obtain ⟨x, hx, rfl⟩ := List.mem_map.1 this
    obtain ⟨m1, m2, _⟩ := places_mem (p := x.1) (i := x.2) hx h1.cle
    exact ⟨_, _, h1.pages.atSlot m1 m2⟩
  have h2' : tl.map slotAt = is.map (·.1) := by rw [← h2, htl]; rfl
  rw [h2'] at hlink hat
  obtain ⟨x, xs, rfl⟩ := List.exists_cons_of_ne_nil hne
  obtain ⟨q, hq⟩ := (hlink.1 s rfl).1
  obtain ⟨p, i, ha⟩ := hat fileSlot (by simp)
  unfold tsMetaPages
  rw [filePage_ts, (ts_next hf ha rfl).1 _ _ hq]
  simp only [Res.bind_ok]
  rw [ts_pages hf rfl hlink.2 (fun n hn => hat n (List.mem_cons_of_mem _ hn)) fuel (by simp at hfu ⊢; omega)]
  simp

theorem MetaSt.tsIndex (h : MetaSt s fm is) (hf : Faithful idx s.file.bytes) {k : Nat} {p : LP} {m : IndexMeta}
    (hk : is[k]? = some (p, m)) : p.ts.indexMeta idx = .ok m.ts ∧
      p.ts.root idx = .ok (MemPtr.decode (slice s.file.bytes p.rootPos.toNat 12)).ts := by
  obtain ⟨⟨ps, cnt, h1, h2⟩, h3⟩ := h
  have hnm := h3 _ (List.mem_of_getElem? hk)
  have hsl : ((places ps cnt).tail.map slotAt)[k]? = some p := by rw [h2]; simp [hk]
  rw [List.getElem?_map] at hsl
  obtain ⟨x, hx, rfl⟩ := Option.map_eq_some_iff.1 hsl
  rw [List.getElem?_tail] at hx
  obtain ⟨m1, m2, _⟩ := places_mem (p := x.1) (i := x.2) (List.mem_of_getElem? hx) h1.cle
  have hat : AtSlot s.file.bytes (slotAt x) x.1 x.2 := h1.pages.atSlot m1 m2
  obtain ⟨d1, d2⟩ := h1.md (k + 1) x m.bytes hx (by simp [hk])
  constructor
  · unfold TsPage.indexMeta
    rw [ts_metadata hf hat (by omega) d2]
    exact ts_readIndexMeta (by simp only at hnm; omega)
  · rw [ts_root hf hat, hat.rootPos]

theorem MetaSt.tsMetas (h : MetaSt s fm is) (hf : Faithful idx s.file.bytes) :
    tsMapM (fun p => TsPage.indexMeta idx p) (is.map (fun x => x.1.ts)) = .ok (is.map (fun x => x.2.ts)) := by
  have hall : ∀ x ∈ is, x.1.ts.indexMeta idx = .ok x.2.ts := by
    intro x hx
    obtain ⟨k, hk, hke⟩ := List.mem_iff_getElem.1 hx
    exact (h.tsIndex hf (k := k) (p := x.1) (m := x.2) (by rw [List.getElem?_eq_getElem hk, hke])).1
  clear h hf
  induction is with
  | nil => rfl
  | cons x xs ih =>
    rw [List.map_cons, tsMapM, hall x (by simp)]
    simp only [Res.bind_ok]
    rw [ih (fun y hy => hall y (by simp [hy]))]
    rfl

theorem MetaSt.tsHeaders (h : MetaSt s fm is) {idx : Resolver} (hf : Faithful idx s.file.bytes) (hne : is ≠ []) (fuel : Nat)
    (hfu : is.length ≤ fuel) : tsIndexHeaders idx fuel = .ok (tsCollectMetas (is.map (fun x => x.2.ts))) := by
  unfold tsIndexHeaders
  rw [h.tsMetaPages_ok hf hne fuel hfu]
  simp only [Res.bind_ok]
  rw [h.tsMetas hf]
  rfl

theorem MetaSt.tsClauseTree (h : MetaSt s fm is) (hs : Faithful db.idx s.file.bytes)
    (hv : tsProcessWhere w.value = some (ft, v)) (hp : Picks is w.key ft k p m) (fuel : Nat) (hfu : is.length ≤ fuel)
    (e : Int) :
    db.clauseTree fuel ⟨fm.version.toNat, fm.format.toByte.toNat, fm.readOffset.toNat, e⟩
      (tsCollectMetas (is.map (fun x => x.2.ts))) w = .ok (clientTree db fm p m, v) := by
  have hne : is ≠ [] := by intro h0; rw [h0] at hp; simp [Picks] at hp
  obtain ⟨h1, h2, h3, h4⟩ := hp
  unfold TsDb.clauseTree
  have hfind : ∃ x, (tsCollectMetas (is.map (fun x => x.2.ts))).find? (fun h => h.1 == w.key) = some x := by
    have := (foldHeader_mem (name := w.key) (ms := is.map (fun x => x.2.ts)) (hs := [])).2
      (.inr ⟨m.ts, List.mem_map.2 ⟨_, List.mem_of_getElem? h1, rfl⟩, h2⟩)
    obtain ⟨x, hx, hx2⟩ := this
    cases hc : (tsCollectMetas (is.map (fun x => x.2.ts))).find? (fun h => h.1 == w.key) with
    | some y => exact ⟨y, rfl⟩
    | none => exact absurd hx2 (by simpa using List.find?_eq_none.1 hc x hx)
  obtain ⟨x, hx⟩ := hfind
  rw [hx]
  simp only [hv]
  unfold tsSeek
  rw [h.tsMetaPages_ok hs hne fuel hfu]
  simp only [Res.bind_ok]
  rw [h.tsMetas hs]
  simp only [Res.bind_ok, Res.pure_eq]
  obtain ⟨tl, htl⟩ := filter_zip_head (P := fun m => tsSeekMatch w.key ft m.ts) (f := LP.ts) (g := IndexMeta.ts)
    (Q := fun m => tsSeekMatch w.key ft m) (fun _ => rfl) h1 (seekMatch_iff.2 ⟨h2, h3⟩)
    (fun j y hj hy => by
      by_cases hc : tsSeekMatch w.key ft y.2.ts = true
      · exact absurd (seekMatch_iff.1 hc) (h4 j y hj hy)
      · simpa using hc)
  rw [htl]
  rfl

theorem MetaSt.tsQuery (h : MetaSt s fm is) (hs : Faithful db.idx s.file.bytes) (hq : q.where_ = [w])
    (hv : tsProcessWhere w.value = some (ft, v)) (hp : Picks is w.key ft k p m) (fuel : Nat) (hfu : is.length ≤ fuel) :
    db.query fuel select q =
      tsClause (clientTree db fm p m) fuel fuel (tsRow (clientTree db fm p m) select) w.op q.dir v := by
  have hne : is ≠ [] := by intro h0; rw [h0] at hp; simp [Picks] at hp
  unfold TsDb.query
  rw [hq]
  simp only [List.any_nil, Bool.false_eq_true, if_false]
  rw [h.tsFile hs, h.tsHeaders hs hne fuel hfu]
  simp only [TsDb.clauses]
  rw [h.tsClauseTree hs hv hp fuel hfu]
  simp only [TsRows.andThen_nil]

end Appendable
