import Verif.Props.TsClient
import Verif.Lemmas.NullTree
import Verif.Spec.QueryJsonl
/-! Queries with one condition, from the invariant of the index file. -/
namespace Appendable
open Spec Tree

variable {parse : Bytes → Bytes} {wd : UInt16 → UInt16} {data : Bytes} {s : PF} {fm : FileMeta} {is : List (LP × IndexMeta)}
  {c : Nat → List (RV × MemPtr)} {β : Type} {db : TsDb} {q : TsQuery} {op : TsOp} {v : Bytes} {k : Nat} {p : LP} {m : IndexMeta}

theorem IndexSt.served (hi : IndexIs data parse (fun m => wd m.width) s fm is c) (hwm : SeenWidth wd m (c k))
    (hs : Served parse data s fm is c db q op v k p m) (select : Bytes → Res β) :
    ∃ tt free es ps, TsOf tt (Appendable.treeAt data parse m.width p) s free es ps ∧ es.Perm (c k) ∧ es ≠ [] ∧
      (∀ xs, (∀ e ∈ xs, e ∈ es) → (∀ depth fl, fuel s ≤ depth → es.length + 1 < fl →
        tsClause tt depth fl (tsRow tt select) op q.dir v = gather (fun p => tsRow tt select p.ts) xs) →
        Returns db select q (rowsOf data select xs)) := by
  obtain ⟨name, value, ft, hq, hv, hp⟩ := hs.ask
  obtain ⟨free, es, ps, ho, hperm⟩ := hi.tsOf_seen (db := db) (k := k) (p := p) (m := m) hs.sees hp.1 hwm
    (fun e he => ⟨(hs.entries e he).1, (hs.entries e he).2.1⟩)
  refine ⟨clientTree db fm p m, free, es, ps, ho, hperm, ?_, ?_⟩
  · intro h0; subst h0; exact hs.nonempty (List.nil_perm.1 hperm)
  · intro xs hxs hc
    refine ⟨is.length + fuel s + es.length + 2, fun fuel hfu => ?_⟩
    rw [hi.tsQuery hs.sees.idx hq hv hp fuel (by omega)]
    show tsClause (clientTree db fm p m) fuel fuel (tsRow (clientTree db fm p m) select) op q.dir v = _
    rw [hc fuel fuel (by omega) (by omega)]
    apply gather_congr
    intro e he
    have := hs.entries e (hperm.mem_iff.1 (hxs e he))
    exact tsRow_record hs.sees.dat rfl this.2.2.1 this.2.2.2

theorem IndexSt.exact (hi : IndexIs data parse (fun m => wd m.width) s fm is c) (hwm : SeenWidth wd m (c k))
    (hs : Served parse data s fm is c db q op v k p m) {d : TsDir} (he : Exact op q.dir (leafBytes m.width (c k)) d) (select : Bytes → Res β) :
    ∃ xs, Answer (c k) op v d xs ∧ Returns db select q (rowsOf data select xs) := by
  obtain ⟨tt, free, es, ps, ho, hperm, hne, hrun⟩ := hi.served hwm hs select
  have fwd : leafBytes m.width (c k) ≤ 4096 → (op = .eq ∨ (op = .ge ∧ q.dir = .asc) ∨ (op = .gt ∧ q.dir = .asc)) →
      ∃ xs, Answer (c k) op v .asc xs ∧ Returns db select q (rowsOf data select xs) := by
    intro hn hop
    obtain ⟨xs, on, h1, h2, h3, h4, h5⟩ := ho.clause_asc (row := tsRow tt select) hne hop v
    have hx := one_page_on (t := Appendable.treeAt data parse m.width p) ho.is.asc hperm hn h2 (start_le ho.small hop h1)
    rw [hx] at h5
    exact ⟨xs, h1.perm hperm, hrun xs (fun e he => ((h1.1 e).1 he).1) h5⟩
  generalize hdir : q.dir = dir at *
  cases he with
  | below h =>
    obtain ⟨xs, h1, h2⟩ := ho.clause_desc (row := tsRow tt select) hne h v
    exact ⟨xs, h1.perm hperm, hrun xs (fun e he => ((h1.1 e).1 he).1) h2⟩
  | first h hn =>
    obtain ⟨xs, h1, h2⟩ := ho.clause_first (row := tsRow tt select)
      (show pageSize < leafBytes m.width es by rw [leafBytes_perm hperm]; exact hn) h v
    exact ⟨xs, h1.perm hperm, hrun xs (fun e he => ((h1.1 e).1 he).1) h2⟩
  | eq hn => exact fwd hn (.inl rfl)
  | above h hn => exact fwd hn (h.elim (fun h => .inr (.inl ⟨h, rfl⟩)) (fun h => .inr (.inr ⟨h, rfl⟩)))

theorem IndexSt.allOrNone (hi : IndexIs data parse (fun m => wd m.width) s fm is c) (hwm : SeenWidth wd m (c k))
    (hs : Served parse data s fm is c db q op v k p m) (hop : op = .eq ∨ (op = .ge ∧ q.dir = .asc) ∨ (op = .gt ∧ q.dir = .asc)) (select : Bytes → Res β) :
    ∃ xs, Answer (c k) op v .asc xs ∧ (Returns db select q (rowsOf data select xs) ∨ Returns db select q ⟨[], none⟩) := by
  obtain ⟨tt, free, es, ps, ho, hperm, hne, hrun⟩ := hi.served hwm hs select
  obtain ⟨xs, on, h1, h2, h3, h4, h5⟩ := ho.clause_asc (row := tsRow tt select) hne hop v
  refine ⟨xs, h1.perm hperm, ?_⟩
  cases on with
  | true => exact .inl (hrun xs (fun e he => ((h1.1 e).1 he).1) h5)
  | false => exact .inr (hrun [] (by simp) h5)

theorem filter_zip_none {α : Type} {P : IndexMeta → Bool} {f : α → TsPage} {g : IndexMeta → TsIndexMeta} {Q : TsIndexMeta → Bool}
    (hQ : ∀ m, Q (g m) = P m) : ∀ {l : List (α × IndexMeta)}, (∀ x ∈ l, P x.2 = false) →
    ((l.map (fun x => f x.1)).zip (l.map (fun x => g x.2))).filter (fun y => Q y.2) = []
  | [], _ => rfl
  | a :: l, h => by
    simp only [List.map_cons, List.zip_cons_cons]
    rw [List.filter_cons, if_neg (by rw [hQ, h a (by simp)]; simp)]
    exact filter_zip_none hQ (fun x hx => h x (by simp [hx]))

/-- A query for which no index is there. -/
theorem IndexSt.absent {wd : IndexMeta → UInt16} (h : IndexIs data parse wd s fm is c) (hs : Faithful db.idx s.file.bytes) {w : TsWhere} (hq : q.where_ = [w]) {ft : Nat}
    (hv : tsProcessWhere w.value = some (ft, v)) (hno : ∀ x ∈ is, ¬ (x.2.fieldName = w.key ∧ Fits ft x.2.fieldType)) (select : Bytes → Res β) :
    ((∃ x ∈ is, x.2.fieldName = w.key) → Returns db select q ⟨[], some (.msg "TypeError")⟩) ∧
    ((∀ x ∈ is, x.2.fieldName ≠ w.key) → is ≠ [] → Returns db select q ⟨[], some (.msg "field not found")⟩) ∧
    (is = [] → Returns db select q ⟨[], some (.msg "failed to fetch meta pages")⟩) := by
  have hmem := foldHeader_mem (name := w.key) (ms := is.map (fun x => x.2.ts)) (hs := [])
  have hts : (∃ m ∈ is.map (fun x => x.2.ts), m.fieldName = w.key) ↔ ∃ x ∈ is, x.2.fieldName = w.key := by
    constructor
    · rintro ⟨m, hm, h⟩
      obtain ⟨x, hx, rfl⟩ := List.mem_map.1 hm
      exact ⟨x, hx, h⟩
    · rintro ⟨x, hx, h⟩; exact ⟨_, List.mem_map.2 ⟨x, hx, rfl⟩, h⟩
  rw [hts] at hmem
  refine ⟨fun hx => ⟨is.length, fun fuel hfu => ?_⟩, fun hx hne => ⟨is.length, fun fuel hfu => ?_⟩, fun h0 => ⟨0, fun fuel _ => ?_⟩⟩
  · have hne : is ≠ [] := by rintro rfl; simp at hx
    obtain ⟨x, hx1, hx2⟩ := hmem.2 (.inr hx)
    have hfind : ∃ x, (tsCollectMetas (is.map (fun x => x.2.ts))).find? (fun h => h.1 == w.key) = some x := by
      cases hc : (tsCollectMetas (is.map (fun x => x.2.ts))).find? (fun h => h.1 == w.key) with
      | some y => exact ⟨y, rfl⟩
      | none => exact absurd hx2 (by simpa using List.find?_eq_none.1 hc x hx1)
    obtain ⟨y, hy⟩ := hfind
    unfold TsDb.query
    rw [hq]
    simp only [List.any_nil, Bool.false_eq_true, if_false]
    rw [h.tsFile hs, h.tsHeaders hs hne fuel hfu]
    simp only [TsDb.clauses]
    unfold TsDb.clauseTree
    rw [hy]
    simp only [hv]
    unfold tsSeek
    rw [h.tsMetaPages_ok hs hne fuel hfu]
    simp only [Res.bind_ok]
    rw [h.tsMetas hs]
    simp only [Res.bind_ok, Res.pure_eq]
    rw [filter_zip_none (P := fun m => tsSeekMatch w.key ft m.ts) (f := LP.ts) (g := IndexMeta.ts) (Q := fun m => tsSeekMatch w.key ft m) (fun _ => rfl)]
    intro x hx
    have := mt seekMatch_iff.1 (hno x hx)
    simpa using this
  · have hfind : (tsCollectMetas (is.map (fun x => x.2.ts))).find? (fun h => h.1 == w.key) = none := by
      rw [List.find?_eq_none]
      intro y hy hyk
      rcases hmem.1 ⟨y, hy, by simpa using hyk⟩ with ⟨_, h, _⟩ | ⟨x, h1, h2⟩
      · simp at h
      · exact hx x h1 h2
    unfold TsDb.query
    rw [hq]
    simp only [List.any_nil, Bool.false_eq_true, if_false]
    rw [h.tsFile hs, h.tsHeaders hs hne fuel hfu]
    simp only [TsDb.clauses]
    unfold TsDb.clauseTree
    rw [hfind]
  · subst h0
    unfold TsDb.query
    rw [hq]
    simp only [List.any_nil, Bool.false_eq_true, if_false]
    rw [h.tsFile hs]
    unfold tsIndexHeaders
    rw [h.tsMetaPages_none hs fuel]
    rfl

end Appendable
