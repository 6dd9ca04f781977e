import Verif.Lemmas.Stale
import Verif.Props.TsClient
import Verif.Props.Session
/-! C90: a client that has read the first meta page keeps the root pointers it has seen there. -/
namespace Appendable
open Spec Tree

theorem reply_kept {mp : TsMp} (h : mp.kept ≠ none) (idx idx' : Resolver) : mp.reply idx = mp.reply idx' := by
  unfold TsMp.reply
  cases hk : mp.kept with
  | none => exact absurd hk h
  | some r => rfl

theorem next_kept {mp : TsMp} (h : mp.kept ≠ none) (idx idx' : Resolver) : mp.next idx = mp.next idx' := by
  unfold TsMp.next
  rw [reply_kept h idx idx']

theorem next_keeps {mp q : TsMp} {idx : Resolver} (h : mp.next idx = .ok (some q)) (hq : q.page.index ≠ 0) : q.kept ≠ none := by
  unfold TsMp.next at h
  obtain ⟨o, _, h⟩ := bind_ok_inv.1 h
  cases o with
  | none => cases h
  | some x =>
    simp only [Res.pure_eq, Res.ok.injEq, Option.some.injEq] at h
    subst h
    simp only at hq ⊢
    rw [if_neg hq]
    simp

theorem seekLoop_loaded (idx : Resolver) : ∀ (fuel : Nat) (mp : TsMp) (ys : List (TsMp × TsIndexMeta)), tsSeekLoop idx fuel mp = .ok ys →
    (∃ y tl, ys = y :: tl ∧ y.1.page = mp.page) ∧ ∀ y ∈ ys, y.1.kept ≠ none := by
  intro fuel
  induction fuel with
  | zero => intro mp ys h; cases h
  | succ fuel ih =>
    intro mp ys h
    rw [tsSeekLoop] at h
    obtain ⟨m, hm, h⟩ := bind_ok_inv.1 h
    obtain ⟨o, ho, h⟩ := bind_ok_inv.1 h
    cases o with
    | none =>
      simp only [Res.pure_eq, Res.ok.injEq] at h
      subst h
      refine ⟨⟨_, _, rfl, rfl⟩, fun y hy => ?_⟩
      rw [List.mem_singleton.1 hy]
      simp [TsMp.load]
    | some q =>
      obtain ⟨rest, hr, h⟩ := bind_ok_inv.1 h
      simp only [Res.pure_eq, Res.ok.injEq] at h
      subst h
      refine ⟨⟨_, _, rfl, rfl⟩, fun y hy => ?_⟩
      rcases List.mem_cons.1 hy with h | h
      · rw [h]; simp [TsMp.load]
      · exact (ih q rest hr).2 y h

/-- If all slots are on one page that has been read, the loop over them makes no request. -/
theorem seekLoop_kept (idx idx' : Resolver) : ∀ (fuel : Nat) (mp : TsMp) (ys : List (TsMp × TsIndexMeta)), mp.kept ≠ none →
    tsSeekLoop idx fuel mp = .ok ys → (∀ y ∈ ys, y.1.page.index ≠ 0) → tsSeekLoop idx' fuel mp = .ok ys := by
  intro fuel
  induction fuel with
  | zero => intro mp ys _ h; cases h
  | succ fuel ih =>
    intro mp ys hk h hi
    have hm' : mp.indexMeta idx' = mp.indexMeta idx := by
      unfold TsMp.indexMeta
      rw [reply_kept hk idx' idx]
    have hl' : mp.load idx' = mp.load idx := by
      unfold TsMp.load
      rw [reply_kept hk idx' idx]
    rw [tsSeekLoop] at h ⊢
    rw [hm', hl', next_kept hk idx' idx]
    obtain ⟨m, hm, h⟩ := bind_ok_inv.1 h
    obtain ⟨o, ho, h⟩ := bind_ok_inv.1 h
    rw [hm, ho]
    cases o with
    | none => exact h
    | some q =>
      obtain ⟨rest, hr, h⟩ := bind_ok_inv.1 h
      simp only [Res.pure_eq, Res.ok.injEq] at h
      subst h
      obtain ⟨⟨y, tl, e1, e2⟩, _⟩ := seekLoop_loaded idx fuel q rest hr
      have hq : q.page.index ≠ 0 := by
        rw [← e2]
        exact hi y (by simp [e1])
      have := ih q rest (next_keeps ho hq) hr (fun y hy => hi y (List.mem_cons_of_mem _ hy))
      simp only [Res.bind_ok, this]
      rfl

theorem tsPagesFrom_head {idx : Resolver} {fuel : Nat} {p : TsPage} {ps : List TsPage} (h : tsPagesFrom idx fuel p = .ok ps) : p ∈ ps := by
  cases fuel with
  | zero => cases h
  | succ fuel =>
    rw [tsPagesFrom] at h
    obtain ⟨o, ho, h⟩ := bind_ok_inv.1 h
    cases o with
    | none => simp only [Res.pure_eq, Res.ok.injEq] at h; subst h; simp
    | some q =>
      obtain ⟨rest, _, h⟩ := bind_ok_inv.1 h
      simp only [Res.pure_eq, Res.ok.injEq] at h
      subst h; simp

/-- A client that has read the first meta page from `idx`, where all slots are on that page, finds there the slot and the root
pointer of then, whatever the server does now. -/
theorem seek_stale {idx idx' : Resolver} {fuel : Nat} {c : TsClient} {r : Res (List Bytes)} (f : AsNew idx fuel c)
    (ht : c.tree = some ⟨tsFilePage, some r⟩) {name : Bytes} {ft : Nat} {ps : List TsPage} {ms : List TsIndexMeta}
    (hp : tsMetaPages idx fuel = .ok ps) (hm : tsMapM (fun p => p.indexMeta idx) ps = .ok ms) (hi : ∀ p ∈ ps, p.index ≠ 0)
    {p : TsPage} {m : TsIndexMeta} {tl : List (TsPage × TsIndexMeta)}
    (hh : (ps.zip ms).filter (fun x => tsSeekMatch name ft x.2) = (p, m) :: tl) :
    ∃ mp tl', (c.seek idx' fuel name ft).1 = .ok ((mp, m) :: tl') ∧ mp.root idx' = p.root idx := by
  have hfp : c.filePage = ⟨tsFilePage, some r⟩ := by unfold TsClient.filePage; rw [ht]; rfl
  unfold tsMetaPages at hp
  obtain ⟨o, ho, hp⟩ := bind_ok_inv.1 hp
  cases o with
  | none => cases hp
  | some qp =>
  simp only at hp
  have hgq : ∃ q, c.filePage.next idx = .ok (some q) ∧ Good idx q ∧ q.page = qp := by
    rcases f.filePage.2.next with ⟨h1, h2⟩ | ⟨q, h1, h2, gq⟩ | ⟨e, h1, h2⟩ | ⟨h1, h2⟩
    · rw [f.filePage.1, ho] at h1; cases h1
    · rw [f.filePage.1, ho] at h1; cases h1; exact ⟨q, h2, gq, rfl⟩
    · rw [f.filePage.1, ho] at h1; cases h1
    · rw [f.filePage.1, ho] at h1; cases h1
  obtain ⟨q, hq, gq, rfl⟩ := hgq
  have hqi := hi _ (tsPagesFrom_head hp)
  obtain ⟨ys, hy, hx, hg⟩ := (seekLoop_agree idx fuel q gq _).2 ⟨ps, ms, hp, hm, rfl⟩
  have hyi : ∀ y ∈ ys, y.1.page.index ≠ 0 := by
    intro y hy'
    have : (y.1.page, y.2) ∈ ps.zip ms := by rw [← hx]; exact List.mem_map.2 ⟨y, hy', rfl⟩
    exact hi _ (List.of_mem_zip this).1
  have hld := (seekLoop_loaded idx fuel q ys hy).2
  have hs := seekLoop_kept idx idx' fuel q ys (next_keeps hq hqi) hy hyi
  have hseek : (c.seek idx' fuel name ft).1 = .ok (ys.filter (fun x => tsSeekMatch name ft x.2)) := by
    unfold TsClient.seek
    rw [next_kept (by rw [hfp]; simp) idx' idx, hq]
    simp only [Res.bind_ok, hs, Res.pure_eq]
  rw [← hx, List.filter_map] at hh
  obtain ⟨y, tl', e1, e2, e3⟩ : ∃ y tl', ys.filter (fun x => tsSeekMatch name ft x.2) = y :: tl' ∧ y.1.page = p ∧ y.2 = m := by
    cases hc : ys.filter (fun x => tsSeekMatch name ft x.2) with
    | nil =>
      rw [show ((fun x : TsPage × TsIndexMeta => tsSeekMatch name ft x.2) ∘ (fun y : TsMp × TsIndexMeta => (y.1.page, y.2))) =
        (fun x : TsMp × TsIndexMeta => tsSeekMatch name ft x.2) from rfl, hc] at hh
      cases hh
    | cons y tl' =>
      rw [show ((fun x : TsPage × TsIndexMeta => tsSeekMatch name ft x.2) ∘ (fun y : TsMp × TsIndexMeta => (y.1.page, y.2))) =
        (fun x : TsMp × TsIndexMeta => tsSeekMatch name ft x.2) from rfl, hc] at hh
      simp only [List.map_cons, List.cons.injEq, Prod.mk.injEq] at hh
      exact ⟨y, tl', rfl, hh.1.1, hh.1.2⟩
  have hymem : y ∈ ys := (List.mem_filter.1 (show y ∈ ys.filter (fun x => tsSeekMatch name ft x.2) by rw [e1]; simp)).1
  refine ⟨y.1, tl', by rw [hseek, e1, ← e3], ?_⟩
  rw [← e2, ← (hg y hymem).root]
  unfold TsMp.root
  rw [reply_kept (hld y hymem) idx' idx]

variable {parse : Bytes → Bytes} {wd : UInt16 → UInt16} {data : Bytes} {i : IndexFile} {s s' : PF} {fm : FileMeta}
  {is : List (LP × IndexMeta)} {c : Nat → List (RV × MemPtr)} {β : Type} {select : Bytes → Res β} {db : TsDb} {q : TsQuery}
  {op : TsOp} {v : Bytes} {k : Nat} {p : LP} {m : IndexMeta} {key : RV} {value : MemPtr}

/-- What a client that has read the fields of the index file of state `s` runs for a query with one condition, whatever the files
are now: the clause on the tree that hangs at the root pointer of state `s`. -/
theorem query_stale (h : IndexIs data parse (fun m => wd m.width) s fm is c) {idx0 : Resolver} (seen : Faithful idx0 s.file.bytes)
    (first : ∀ x ∈ is, x.1.index ≠ 0) {w : TsWhere} {ft : Nat} (hq : q.where_ = [w]) (hv : tsProcessWhere w.value = some (ft, v))
    (hp : Picks is w.key ft k p m) {fuel : Nat} (hfu : is.length ≤ fuel) {c0 c1 : TsClient} {hs : List (Bytes × List Nat)}
    (before : Session (fun db => db.idx = idx0) fuel TsClient.new c0) (ok : (c0.fields idx0 fuel).1 = .ok hs)
    (later : Session (fun _ => True) fuel (c0.fields idx0 fuel).2 c1) :
    (c1.query db fuel select q).1 =
      tsClause { clientTree db fm p m with rootPtr := .ok (MemPtr.decode (slice s.file.bytes p.rootPos.toNat 12)).ts } fuel fuel
        (tsRow { clientTree db fm p m with rootPtr := .ok (MemPtr.decode (slice s.file.bytes p.rootPos.toNat 12)).ts } select) w.op q.dir v := by
  have hne : is ≠ [] := by intro h0; rw [h0] at hp; simp [Picks] at hp
  have f0 := Session.fresh before
  obtain ⟨f1, _⟩ := f0.fields
  have weaker : ∀ {c : TsClient}, Session (fun db => db.idx = idx0) fuel TsClient.new c → Session (fun _ => True) fuel TsClient.new c := by
    intro c s
    induction s with
    | start => exact .start
    | metadata db _ _ ih => exact .metadata db trivial ih
    | seek db name ft _ _ ih => exact .seek db name ft trivial ih
    | headers db _ _ ih => exact .headers db trivial ih
    | fields db _ _ ih => exact .fields db trivial ih
    | query db select q _ _ ih => exact .query db select q trivial ih
  have hh0 : (c0.fields idx0 fuel).2.headers = some (.ok hs) := by rw [fields_headers, ok]
  have hc := C89_after_success_partial fuel c0 (weaker before) idx0 hs ok c1 later
  have kk : Kept c1 := by
    rw [hc]
    exact ((Kept.new.session (weaker before)).fields idx0 fuel).1
  rw [← hc] at f1 hh0
  have htree : ∃ r, c1.tree = some ⟨tsFilePage, some r⟩ := by
    have h1 := kk.linked (kk.headers hs hh0)
    cases ht : c1.tree with
    | none => exact absurd ht h1
    | some mp =>
      obtain ⟨h2, h3⟩ := kk.tree mp ht
      obtain ⟨pg, o⟩ := mp
      cases o with
      | none => exact absurd rfl h3
      | some r => simp only at h2; subst h2; exact ⟨r, rfl⟩
  obtain ⟨r, htree⟩ := htree
  -- the file metadata
  have hmeta : (c1.metadata db.idx).1 = .ok ⟨fm.version.toNat, fm.format.toByte.toNat, fm.readOffset.toNat, (tsUvarint (putUvarint fm.entries)).1⟩ := by
    rw [metadata_kept htree idx0 db.idx, f1.metadata, h.tsFile seen]
  -- the headers
  have hhs : hs = tsCollectMetas (is.map (fun x => x.2.ts)) := by
    have := f1.headers _ hh0
    rw [h.tsHeaders seen hne fuel hfu] at this
    have := (this hs).1 rfl
    cases this; rfl
  have hfind : ∃ x, hs.find? (fun h => h.1 == w.key) = some x := by
    have := (foldHeader_mem (name := w.key) (ms := is.map (fun x => x.2.ts)) (hs := [])).2
      (.inr ⟨m.ts, List.mem_map.2 ⟨_, List.mem_of_getElem? hp.1, rfl⟩, hp.2.1⟩)
    obtain ⟨x, hx, hx2⟩ := this
    cases hcx : hs.find? (fun h => h.1 == w.key) with
    | some y => exact ⟨y, rfl⟩
    | none =>
      rw [hhs] at hcx
      exact absurd hx2 (by simpa using List.find?_eq_none.1 hcx x hx)
  obtain ⟨x, hx⟩ := hfind
  obtain ⟨tl, htl⟩ := filter_zip_head (P := fun m => tsSeekMatch w.key ft m.ts) (f := LP.ts) (g := IndexMeta.ts)
    (Q := fun m => tsSeekMatch w.key ft m) (fun _ => rfl) hp.1 (seekMatch_iff.2 ⟨hp.2.1, hp.2.2.1⟩)
    (fun j y hj hy => by
      by_cases hc : tsSeekMatch w.key ft y.2.ts = true
      · exact absurd (seekMatch_iff.1 hc) (hp.2.2.2 j y hj hy)
      · simpa using hc)
  obtain ⟨mp, tl', e1, e2⟩ := seek_stale (idx' := db.idx) f1 htree (h.tsMetaPages_ok seen hne fuel hfu) (h.tsMetas seen)
    (fun pg hpg => by
      obtain ⟨x, hx, rfl⟩ := List.mem_map.1 hpg
      have := first x hx
      intro h0
      exact this (UInt8.toNat_inj.1 h0)) htl
  rw [(h.tsIndex seen hp.1).2] at e2
  rw [query_kept hh0, hq, hmeta, touch_kept htree]
  simp only [List.tail_cons, List.any_nil, Bool.false_eq_true, if_false, TsClient.clauses]
  unfold TsClient.clauseTree
  rw [hx]
  simp only [hv, e1, Res.bind_ok, Res.pure_eq, e2, TsRows.andThen_nil]
  rfl

/-- **C90** is violated when the root of an index moves: a client that has read the fields of the index file before the insert that
moves the root pointer of an index (all indexes being on the first meta page) never sees the last entries of that index again, neither
new ones nor those that it could see before: its later queries `field < v` and `field <= v`, descending, return the records of a proper
part `xs` of the entries only, from which all entries above some key are missing; a client that starts now gets those of all. -/
theorem C90_split_violated (hw : SmallWidths wd) (h : IndexRun parse wd data i s fm is c) (hwm : wd m.width = m.width)
    (first : ∀ x ∈ is, x.1.index ≠ 0) (hk : is[k]? = some (p, m)) (hne : c k ≠ []) (hko : KeyOK ⟨data, parse, m.width⟩ key)
    (hins : (treeAt data parse m.width p).insert key value s = (.ok (), s'))
    (moved : slice s'.file.bytes p.rootPos.toNat 12 ≠ slice s.file.bytes p.rootPos.toNat 12)
    (idx0 : Resolver) (seen : Faithful idx0 s.file.bytes)
    (hs : Served parse data s' fm is (setAt c k ((key, value) :: c k)) db q op v k p m) (hop : op = .lt ∨ op = .le) (hd : q.dir = .desc)
    (select : Bytes → Res β) :
    ∃ xs lost, (xs ++ lost).Perm ((key, value) :: c k) ∧ lost ≠ [] ∧ (∀ x ∈ xs, ∀ y ∈ lost, KeyLt x.1 y.1) ∧
      (∃ ys, Answer xs op v .desc ys ∧ ∃ N, ∀ fuel, N ≤ fuel → ∀ (c0 c1 : TsClient) (headers : List (Bytes × List Nat)),
        Session (fun db => db.idx = idx0) fuel TsClient.new c0 → (c0.fields idx0 fuel).1 = .ok headers →
        Session (fun _ => True) fuel (c0.fields idx0 fuel).2 c1 → (c1.query db fuel select q).1 = rowsOf data select ys) ∧
      (∃ ys, Answer ((key, value) :: c k) op v .desc ys ∧ Returns db select q (rowsOf data select ys)) := by
  have hrun : IndexRun parse wd data i s' fm is (setAt c k ((key, value) :: c k)) :=
    .insert h hk (by rw [hwm]; exact hko) (by rw [hwm]; exact hins)
  obtain ⟨hi, _⟩ := indexRun_is hw h
  obtain ⟨hi', _⟩ := indexRun_is hw hrun
  have hck : setAt c k ((key, value) :: c k) k = (key, value) :: c k := by simp [setAt]
  obtain ⟨ys', a1, a2⟩ := C47_below_desc_partial hw hrun hwm hs hop hd select
  rw [hck] at a1
  obtain ⟨name, val, ft, hq, hv, hp⟩ := hs.ask
  obtain ⟨free0, ps0, cnt0, E0, P0, g1, g2, g3⟩ := hi.treeAt
  obtain ⟨ti, tw, tp⟩ := g1.forest.tree k _ (g3 k p m hk)
  simp only [hwm] at ti tw
  obtain ⟨free', es', ps', ho, hperm⟩ := hi'.tsOf (db := db) (k := k) (p := p) (m := m) hs.sees hp.1 hwm
    (fun e he => ⟨(hs.entries e he).1, (hs.entries e he).2.1⟩)
  rw [hck] at hperm
  have hne0 : E0 k ≠ [] := by
    intro h0; rw [h0] at tp; exact hne (List.nil_perm.1 tp)
  obtain ⟨ht, es1, es2, ps1, r1, r2, r3, r4, r5, _⟩ := insert_moved tw.vlen hko ti hne0 hins
  have r3 := r3 moved
  have hp12 : (es1 ++ es2).Perm ((key, value) :: c k) := r2.perm.trans (tp.cons _)
  obtain ⟨tt, htt⟩ : ∃ tt : TsTree, tt = { clientTree db fm p m with rootPtr := .ok (MemPtr.decode (slice s.file.bytes p.rootPos.toNat 12)).ts } := ⟨_, rfl⟩
  have hview : TsView tt (treeAt data parse m.width p).cfg s'.file.bytes es1 := by
    have := ho.view.sub (es' := es1) (fun e he => hperm.mem_iff.2 (hp12.mem_iff.1 (by simp [he])))
    subst htt
    exact ⟨this.idx, this.dat, this.width, this.len, this.ents⟩
  have hroot : tt.rootPtr = .ok (MemPtr.ts ⟨(MemPtr.decode (slice s.file.bytes p.rootPos.toNat 12)).offset,
      (MemPtr.decode (slice s.file.bytes p.rootPos.toNat 12)).length⟩) := by subst htt; rfl
  obtain ⟨ys, b1, b2⟩ := rep_clause_desc (row := tsRow tt select) hview r1 hroot hop v
  refine ⟨es1, es2, hp12, r3, ?_, ⟨ys, b1, is.length + fuel s' + es1.length + 2, ?_⟩, ⟨ys', a1, a2⟩⟩
  · intro x hx y hy
    exact (List.pairwise_append.1 r4).2.2 x hx y hy
  · intro fl hfl c0 c1 headers before ok later
    rw [query_stale hi seen first hq hv hp (by omega) before ok later, ← htt]
    simp only
    rw [hd, b2 fl fl (by omega) (by omega)]
    apply gather_congr
    intro e he
    have hmem : e ∈ setAt c k ((key, value) :: c k) k := by
      rw [hck]
      exact hp12.mem_iff.1 (by simp [((b1.1 e).1 he).1])
    have := hs.entries e hmem
    exact tsRow_record hs.sees.dat (by subst htt; rfl) this.2.2.1 this.2.2.2

end Appendable
