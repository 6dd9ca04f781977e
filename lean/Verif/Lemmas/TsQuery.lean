import Verif.Lemmas.TsClause
import Verif.Lemmas.TsSlots
import Verif.Props.Index
/-! From a query to the clause that runs. -/
namespace Appendable
open Spec Tree

variable {parse : Bytes → Bytes} {wd : UInt16 → UInt16} {data : Bytes} {s : PF} {fm : FileMeta}
  {is : List (LP × IndexMeta)} {c : Nat → List (RV × MemPtr)} {db : TsDb} {β : Type} {select : Bytes → Res β} {q : TsQuery}
  {w : TsWhere} {ft k : Nat} {v : Bytes} {p : LP} {m : IndexMeta}

theorem seekMatch_iff {name : Bytes} {ft : Nat} {m : IndexMeta} :
    tsSeekMatch name ft m.ts = true ↔ m.fieldName = name ∧ Fits ft m.fieldType := by
  unfold tsSeekMatch Fits IndexMeta.ts
  simp only [Bool.and_eq_true, beq_iff_eq]
  refine and_congr_right fun _ => ?_
  have e1 : m.fieldType = 1 ↔ m.fieldType.toNat = 1 := ⟨fun h => by rw [h]; rfl, fun h => UInt8.toNat_inj.1 h⟩
  have e2 : m.fieldType = 2 ↔ m.fieldType.toNat = 2 := ⟨fun h => by rw [h]; rfl, fun h => UInt8.toNat_inj.1 h⟩
  rw [e1, e2]
  by_cases h3 : ft = 3
  · simp only [h3, if_true, Bool.or_eq_true, beq_iff_eq, true_and, or_assoc]
  · simp only [h3, if_false, beq_iff_eq, false_and, or_false]
    exact eq_comm

theorem filter_zip_head {α : Type} {P : IndexMeta → Bool} {f : α → TsPage} {g : IndexMeta → TsIndexMeta} {Q : TsIndexMeta → Bool}
    (hQ : ∀ m, Q (g m) = P m) : ∀ {l : List (α × IndexMeta)} {k : Nat} {x : α × IndexMeta}, l[k]? = some x → P x.2 = true →
    (∀ (j : Nat) (y : α × IndexMeta), j < k → l[j]? = some y → P y.2 = false) →
    ∃ tl, ((l.map (fun x => f x.1)).zip (l.map (fun x => g x.2))).filter (fun y => Q y.2) = (f x.1, g x.2) :: tl
  | [], k, x, h, _, _ => by simp at h
  | a :: l, 0, x, h, hp, _ => by
    simp only [List.getElem?_cons_zero, Option.some.injEq] at h
    subst h
    simp only [List.map_cons, List.zip_cons_cons]
    rw [List.filter_cons, if_pos (by rw [hQ]; exact hp)]
    exact ⟨_, rfl⟩
  | a :: l, k + 1, x, h, hp, hj => by
    simp only [List.map_cons, List.zip_cons_cons]
    rw [List.filter_cons, if_neg (by rw [hQ, hj 0 a (by omega) rfl]; simp)]
    exact filter_zip_head hQ (by simpa using h) hp (fun j y hjk hy => hj (j + 1) y (by omega) (by simpa using hy))

theorem addHeader_mem : ∀ {hs : List (Bytes × List Nat)} {n name : Bytes} {ty : Nat},
    (∃ h ∈ tsAddHeader hs n ty, h.1 = name) ↔ (∃ h ∈ hs, h.1 = name) ∨ n = name
  | [], n, name, ty => by simp [tsAddHeader]
  | (a, ts) :: hs, n, name, ty => by
    unfold tsAddHeader
    split
    · rename_i h; subst h
      simp only [List.mem_cons, exists_eq_or_imp]
      grind
    · simp only [List.mem_cons, exists_eq_or_imp, addHeader_mem (hs := hs)]
      grind

theorem foldHeader_mem {name : Bytes} : ∀ {ms : List TsIndexMeta} {hs : List (Bytes × List Nat)},
    (∃ h ∈ ms.foldl (fun hs m => tsAddHeader hs m.fieldName m.fieldType) hs, h.1 = name) ↔
      (∃ h ∈ hs, h.1 = name) ∨ ∃ m ∈ ms, m.fieldName = name
  | [], hs => by simp
  | m :: ms, hs => by
    rw [List.foldl_cons, foldHeader_mem, addHeader_mem]
    simp only [List.mem_cons, exists_eq_or_imp]
    grind

theorem TsRows.andThen_nil (a : TsRows β) : a.andThen ⟨[], none⟩ = a := by
  obtain ⟨r, f⟩ := a
  unfold TsRows.andThen
  cases f <;> simp

theorem IndexSt.tsHeaders {wd : IndexMeta → UInt16} (h : IndexIs data parse wd s fm is c) {idx : Resolver} (hf : Faithful idx s.file.bytes) (hne : is ≠ []) (fuel : Nat)
    (hfu : is.length ≤ fuel) : tsIndexHeaders idx fuel = .ok (tsCollectMetas (is.map (fun x => x.2.ts))) := by
  unfold tsIndexHeaders
  rw [h.tsMetaPages_ok hf hne fuel hfu]
  simp only [Res.bind_ok]
  rw [h.tsMetas hf]
  rfl

/-- The tree object the client makes for an index. -/
def clientTree (db : TsDb) (fm : FileMeta) (p : LP) (m : IndexMeta) : TsTree :=
  ⟨db.idx, db.dat, db.parse fm.format.toByte.toNat m.fieldType.toNat, m.width.toNat, p.ts.root db.idx⟩

theorem IndexSt.tsClauseTree {wd : IndexMeta → UInt16} (h : IndexIs data parse wd s fm is c) (hs : Faithful db.idx s.file.bytes)
    (hv : tsProcessWhere w.value = some (ft, v)) (hp : Picks is w.key ft k p m) (fuel : Nat) (hfu : is.length ≤ fuel)
    (e : Int) :
    db.clauseTree fuel ⟨fm.version.toNat, fm.format.toByte.toNat, fm.readOffset.toNat, e⟩
      (tsCollectMetas (is.map (fun x => x.2.ts))) w = .ok (clientTree db fm p m, v) := by
  have hne : is ≠ [] := by intro h0; rw [h0] at hp; simp [Picks] at hp
  obtain ⟨h1, h2, h3, h4⟩ := hp
  unfold TsDb.clauseTree
  have hfind : ∃ x, (tsCollectMetas (is.map (fun x => x.2.ts))).find? (fun h => h.1 == w.key) = some x := by
    have := (foldHeader_mem (name := w.key) (ms := is.map (fun x => x.2.ts)) (hs := [])).2
      (.inr ⟨m.ts, List.mem_map.2 ⟨_, List.mem_of_getElem? h1, rfl⟩, h2⟩)
    obtain ⟨x, hx, hx2⟩ := this
    cases hc : (tsCollectMetas (is.map (fun x => x.2.ts))).find? (fun h => h.1 == w.key) with
    | some y => exact ⟨y, rfl⟩
    | none => exact absurd hx2 (by simpa using List.find?_eq_none.1 hc x hx)
  obtain ⟨x, hx⟩ := hfind
  rw [hx]
  simp only [hv]
  unfold tsSeek
  rw [h.tsMetaPages_ok hs hne fuel hfu]
  simp only [Res.bind_ok]
  rw [h.tsMetas hs]
  simp only [Res.bind_ok, Res.pure_eq]
  obtain ⟨tl, htl⟩ := filter_zip_head (P := fun m => tsSeekMatch w.key ft m.ts) (f := LP.ts) (g := IndexMeta.ts)
    (Q := fun m => tsSeekMatch w.key ft m) (fun _ => rfl) h1 (seekMatch_iff.2 ⟨h2, h3⟩)
    (fun j y hj hy => by
      by_cases hc : tsSeekMatch w.key ft y.2.ts = true
      · exact absurd (seekMatch_iff.1 hc) (h4 j y hj hy)
      · simpa using hc)
  rw [htl]
  rfl

/-- A query with one where clause runs that clause on the tree of the index it picks. -/
theorem IndexSt.tsQuery {wd : IndexMeta → UInt16} (h : IndexIs data parse wd s fm is c) (hs : Faithful db.idx s.file.bytes) (hq : q.where_ = [w])
    (hv : tsProcessWhere w.value = some (ft, v)) (hp : Picks is w.key ft k p m) (fuel : Nat) (hfu : is.length ≤ fuel) :
    db.query fuel select q =
      tsClause (clientTree db fm p m) fuel fuel (tsRow (clientTree db fm p m) select) w.op q.dir v := by
  have hne : is ≠ [] := by intro h0; rw [h0] at hp; simp [Picks] at hp
  unfold TsDb.query
  rw [hq]
  simp only [List.any_nil, Bool.false_eq_true, if_false]
  rw [h.tsFile hs, h.tsHeaders hs hne fuel hfu]
  simp only [TsDb.clauses]
  rw [h.tsClauseTree hs hv hp fuel hfu]
  simp only [TsRows.andThen_nil]

/-- The client's tree object for the index it picked. -/
theorem IndexSt.tsOf (h : IndexIs data parse (fun m => wd m.width) s fm is c) (hs : Sees db data s.file.bytes) (hk : is[k]? = some (p, m))
    (hw : wd m.width = m.width)
    (he : ∀ e ∈ c k, Readable (db.parse fm.format.toByte.toNat m.fieldType.toNat) ⟨data, parse, m.width⟩ e.1 ∧ SmallPtr e.2) :
    ∃ free es ps, TsOf (clientTree db fm p m) (Appendable.treeAt data parse m.width p) s free es ps ∧ es.Perm (c k) := by
  obtain ⟨free, ps, cnt, E, P, h1, h2, h3⟩ := h.treeAt
  obtain ⟨ti, tw, tp⟩ := h1.forest.tree k _ (h3 k p m hk)
  simp only [hw] at ti
  exact ⟨_, _, _, ⟨ti, ⟨hs.idx, hs.dat, rfl, hs.len, fun e hee => he e (tp.mem_iff.1 hee)⟩, (h.tsIndex hs.idx hk).2⟩, tp⟩

theorem tsRow_record (hd : Faithful db.dat data) {tt : TsTree} (htt : tt.dat = db.dat) {x : MemPtr} (h1 : 2 ≤ x.length.toNat)
    (h2 : x.offset.toNat < data.length) : tsRow tt select x.ts = select (record data x) := by
  have ho : x.ts.offset = (x.offset.toNat : Int) := rfl
  have hl : x.ts.length = (x.length.toNat : Int) := rfl
  have hg : tsGet tt.dat x.ts.offset (x.ts.offset + x.ts.length - 1) = .ok (record data x) := by
    unfold tsGet
    rw [if_neg (by omega), htt, hd.one (by omega) (by omega) (by omega)]
    unfold record
    rw [ho, hl, Int.toNat_natCast,
      show ((x.offset.toNat : Int) + x.length.toNat - 1 + 1 - x.offset.toNat).toNat = x.length.toNat by omega]
  unfold tsRow
  rw [hg]
  rfl

theorem gather_congr {r1 r2 : MemPtr → Res β} : ∀ {xs : List (RV × MemPtr)}, (∀ e ∈ xs, r1 e.2 = r2 e.2) → gather r1 xs = gather r2 xs
  | [], _ => rfl
  | e :: xs, h => by
    unfold gather
    rw [h e (by simp), gather_congr (fun e he => h e (by simp [he]))]

theorem Spec.Answer.perm {es es' : List (RV × MemPtr)} (h : es.Perm es') {op : TsOp} {v : Bytes} {d : TsDir} {xs : List (RV × MemPtr)} (ha : Answer es op v d xs) :
    Answer es' op v d xs := ⟨fun e => by rw [ha.1 e, h.mem_iff], ha.2⟩

end Appendable
