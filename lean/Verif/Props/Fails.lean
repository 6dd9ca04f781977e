import Verif.Spec.Fails
/-! C114: a client some of whose requests fail gives the same answers or exceptions. -/
namespace Appendable
open Spec

variable {α β α' β' : Type}

/-- Related results, or an exception on the left. -/
def RRel (R : α' → α → Prop) (x' : Res α') (x : Res α) : Prop :=
  (∃ a' a, x' = .ok a' ∧ x = .ok a ∧ R a' a) ∨ (x' = .panic ∧ x = .panic) ∨ ∃ e, x' = .err e

theorem RRel.same (x : Res α) : RRel Eq x x := by
  cases x with
  | ok a => exact .inl ⟨a, a, rfl, rfl, rfl⟩
  | err e => exact .inr (.inr ⟨e, rfl⟩)
  | panic => exact .inr (.inl ⟨rfl, rfl⟩)

theorem RRel.ok {R : α' → α → Prop} {a' : α'} {a : α} (h : R a' a) : RRel R (.ok a') (.ok a) := .inl ⟨a', a, rfl, rfl, h⟩

theorem RRel.err {R : α' → α → Prop} {x : Res α} (e : Err) : RRel R (.err e) x := .inr (.inr ⟨e, rfl⟩)

theorem RRel.of {x' x : Res α} (h : SameOrThrows x' x) : RRel Eq x' x := by
  rcases h with rfl | ⟨e, rfl⟩
  · exact .same _
  · exact .err e

theorem RRel.to {x' x : Res α} (h : RRel Eq x' x) : SameOrThrows x' x := by
  rcases h with ⟨a', a, rfl, rfl, rfl⟩ | ⟨rfl, rfl⟩ | ⟨e, rfl⟩
  · exact .inl rfl
  · exact .inl rfl
  · exact .inr ⟨e, rfl⟩

theorem RRel.bind {R : α' → α → Prop} {Q : β' → β → Prop} {x' : Res α'} {x : Res α} {f' : α' → Res β'} {f : α → Res β}
    (h : RRel R x' x) (hf : ∀ a' a, R a' a → RRel Q (f' a') (f a)) : RRel Q (x'.bind f') (x.bind f) := by
  rcases h with ⟨a', a, rfl, rfl, h⟩ | ⟨rfl, rfl⟩ | ⟨e, rfl⟩
  · exact hf _ _ h
  · exact .inr (.inl ⟨rfl, rfl⟩)
  · exact .err e

theorem RRel.bindSame {x' x : Res α} {Q : β' → β → Prop} {f' : α → Res β'} {f : α → Res β}
    (h : RRel Eq x' x) (hf : ∀ a, RRel Q (f' a) (f a)) : RRel Q (x'.bind f') (x.bind f) :=
  h.bind fun a' _ e => e ▸ hf a'

theorem RRel.mono {R Q : α' → α → Prop} {x' : Res α'} {x : Res α} (h : RRel R x' x) (hr : ∀ a' a, R a' a → Q a' a) : RRel Q x' x := by
  rcases h with ⟨a', a, rfl, rfl, h⟩ | h | h
  · exact .inl ⟨a', a, rfl, rfl, hr _ _ h⟩
  · exact .inr (.inl h)
  · exact .inr (.inr h)

theorem cut_cons {a' a : TsRows β} (b : β) (h : SameOrCut a' a) : SameOrCut ⟨b :: a'.rows, a'.fail⟩ ⟨b :: a.rows, a.fail⟩ := by
  rcases h with rfl | ⟨h1, h2⟩
  · exact .inl rfl
  · exact .inr ⟨List.cons_prefix_cons.2 ⟨rfl, h1⟩, h2⟩

theorem cut_err {a : TsRows β} (e : Err) : SameOrCut ⟨[], some e⟩ a := .inr ⟨List.nil_prefix, e, rfl⟩

theorem cut_andThen {a' a b' b : TsRows β} (h : SameOrCut a' a) (hb : SameOrCut b' b) : SameOrCut (a'.andThen b') (a.andThen b) := by
  rcases h with rfl | ⟨h1, e, h2⟩
  · rcases hb with rfl | ⟨h3, e, h4⟩
    · exact .inl rfl
    · unfold TsRows.andThen
      cases h : a'.fail with
      | some x => exact .inl rfl
      | none => exact .inr ⟨(List.prefix_append_right_inj _).2 h3, e, h4⟩
  · have : a'.andThen b' = ⟨a'.rows, some e⟩ := by unfold TsRows.andThen; rw [h2]
    rw [this]
    refine .inr ⟨?_, e, rfl⟩
    unfold TsRows.andThen
    cases a.fail with
    | some x => exact h1
    | none => exact h1.trans (List.prefix_append _ _)

theorem cut_map (f : α → β) {a' a : TsRows α} (h : SameOrCut a' a) : SameOrCut (a'.map f) (a.map f) := by
  rcases h with rfl | ⟨h1, e, h2⟩
  · exact .inl rfl
  · exact .inr ⟨h1.map f, e, h2⟩

theorem cut_rows {R : α' → α → Prop} {x' : Res α'} {x : Res α} {f' : α' → TsRows β} {f : α → TsRows β} (h : RRel R x' x)
    (hf : ∀ a' a, R a' a → SameOrCut (f' a') (f a)) : SameOrCut (x'.rows f') (x.rows f) := by
  rcases h with ⟨a', a, rfl, rfl, h⟩ | ⟨rfl, rfl⟩ | ⟨e, rfl⟩
  · exact hf _ _ h
  · exact .inl rfl
  · exact cut_err e

theorem cut_rowsSame {x' x : Res α} {f' f : α → TsRows β} (h : RRel Eq x' x)
    (hf : ∀ a, SameOrCut (f' a) (f a)) : SameOrCut (x'.rows f') (x.rows f) := cut_rows h fun a' _ e => e ▸ hf a'

/-! ### The list of indexes -/

theorem Spec.Fails.rel {r' r : Resolver} (h : Fails r' r) (req : List (Int × Int)) : RRel Eq (r' req) (r req) := .of (h req)

theorem one_rel {r' r : Resolver} (h : Fails r' r) (a b : Int) : RRel Eq (r'.one a b) (r.one a b) :=
  (h.rel _).bindSame fun _ => .same _

theorem get_rel {r' r : Resolver} (h : Fails r' r) (a b : Int) : RRel Eq (tsGet r' a b) (tsGet r a b) := by
  unfold tsGet
  split
  · exact .same _
  · exact one_rel h a b

theorem metadata_rel {r' r : Resolver} (h : Fails r' r) (p : TsPage) : RRel Eq (p.metadata r') (p.metadata r) :=
  (one_rel h _ _).bindSame fun _ => .same _

theorem slotRoot_rel {r' r : Resolver} (h : Fails r' r) (p : TsPage) : RRel Eq (p.root r') (p.root r) :=
  (one_rel h _ _).bindSame fun _ => .same _

theorem slotNext_rel {r' r : Resolver} (h : Fails r' r) (p : TsPage) : RRel Eq (p.next r') (p.next r) :=
  (one_rel h _ _).bindSame fun _ => .same _

theorem indexMeta_rel {r' r : Resolver} (h : Fails r' r) (p : TsPage) : RRel Eq (p.indexMeta r') (p.indexMeta r) :=
  (metadata_rel h p).bindSame fun _ => .same _

theorem fileMeta_rel {r' r : Resolver} (h : Fails r' r) : RRel Eq (tsFileMetadata r') (tsFileMetadata r) :=
  (metadata_rel h _).bindSame fun _ => .same _

theorem pagesFrom_rel {r' r : Resolver} (h : Fails r' r) : ∀ (fuel : Nat) (p : TsPage), RRel Eq (tsPagesFrom r' fuel p) (tsPagesFrom r fuel p)
  | 0, _ => .same _
  | fuel + 1, p => by
    unfold tsPagesFrom
    refine (slotNext_rel h p).bindSame fun a => ?_
    cases a with
    | none => exact .same _
    | some q => exact (pagesFrom_rel h fuel q).bindSame fun _ => .same _

theorem metaPages_rel {r' r : Resolver} (h : Fails r' r) (fuel : Nat) : RRel Eq (tsMetaPages r' fuel) (tsMetaPages r fuel) := by
  unfold tsMetaPages
  refine (slotNext_rel h _).bindSame fun a => ?_
  cases a with
  | none => exact .same _
  | some q => exact pagesFrom_rel h fuel q

theorem mapM_rel {f' f : α → Res β} (h : ∀ a, RRel Eq (f' a) (f a)) : ∀ as : List α, RRel Eq (tsMapM f' as) (tsMapM f as)
  | [] => .same _
  | a :: as => (h a).bindSame fun _ => (mapM_rel h as).bindSame fun _ => .same _

theorem headers_rel {r' r : Resolver} (h : Fails r' r) (fuel : Nat) : RRel Eq (tsIndexHeaders r' fuel) (tsIndexHeaders r fuel) :=
  (metaPages_rel h fuel).bindSame fun _ => (mapM_rel (fun p => indexMeta_rel h p) _).bindSame fun _ => .same _

theorem seek_rel {r' r : Resolver} (h : Fails r' r) (fuel : Nat) (name : Bytes) (ty : Nat) :
    RRel Eq (tsSeek r' fuel name ty) (tsSeek r fuel name ty) :=
  (metaPages_rel h fuel).bindSame fun _ => (mapM_rel (fun p => indexMeta_rel h p) _).bindSame fun _ => .same _

/-! ### Trees -/

/-- The same trees, but for requests that fail. -/
structure TreeFails (t' t : TsTree) : Prop where
  idx : Fails t'.idx t.idx
  dat : Fails t'.dat t.dat
  parse : t'.parse = t.parse
  width : t'.width = t.width
  root : RRel Eq t'.rootPtr t.rootPtr

variable {t' t : TsTree}

theorem unmarshal_rel {r' r : Resolver} (h : Fails r' r) (parse : Bytes → Res Bytes) (w : Nat) (buf : Bytes) :
    RRel Eq (tsUnmarshal r' parse w buf) (tsUnmarshal r parse w buf) := by
  unfold tsUnmarshal
  split
  · exact .same _
  · simp only
    split
    · exact .same _
    · refine RRel.bindSame ?_ fun _ => .same _
      unfold tsFetch
      split
      · exact (h.rel _).bindSame fun _ => .same _
      · exact .same _

theorem TreeFails.readNode (h : TreeFails t' t) (p : Option TsPtr) : RRel Eq (t'.readNode p) (t.readNode p) := by
  unfold TsTree.readNode
  cases p with
  | none => exact .same _
  | some p =>
    simp only [h.parse, h.width]
    exact (one_rel h.idx _ _).bindSame fun _ => unmarshal_rel h.dat _ _ _

theorem TreeFails.rootNode (h : TreeFails t' t) : RRel Eq t'.root t.root := h.root.bindSame fun _ => h.readNode _

theorem TreeFails.traverse (h : TreeFails t' t) (key : TsRV) : ∀ (fuel : Nat) (n : TsNode), RRel Eq (t'.traverse key fuel n) (t.traverse key fuel n)
  | 0, _ => .same _
  | fuel + 1, n => by
    unfold TsTree.traverse
    split
    simp only
    split
    · exact .same _
    · exact (h.readNode _).bindSame fun c => (h.traverse key fuel c).bindSame fun _ => .same _

theorem TreeFails.descend (h : TreeFails t' t) (pick : TsNode → Int) : ∀ (fuel : Nat) (n : TsNode), RRel Eq (t'.descend pick fuel n) (t.descend pick fuel n)
  | 0, _ => .same _
  | fuel + 1, n => by
    unfold TsTree.descend
    refine (h.readNode _).bindSame fun c => ?_
    split
    · exact .same _
    · exact h.descend pick fuel c

theorem TreeFails.first (h : TreeFails t' t) (fuel : Nat) : RRel Eq (t'.first fuel) (t.first fuel) :=
  h.rootNode.bindSame fun _ => (h.descend _ _ _).bindSame fun _ => .same _

theorem TreeFails.last (h : TreeFails t' t) (fuel : Nat) : RRel Eq (t'.last fuel) (t.last fuel) :=
  h.rootNode.bindSame fun _ => (h.descend _ _ _).bindSame fun _ => .same _

theorem TreeFails.init (h : TreeFails t' t) (fuel : Nat) (key : TsRV) : RRel Eq (t'.initRecords fuel key) (t.initRecords fuel key) :=
  h.rootNode.bindSame fun _ => h.traverse _ _ _

theorem TreeFails.incr (h : TreeFails t' t) (δ : Int) : ∀ rs : List TsRec, RRel Eq (t'.incr δ rs) (t.incr δ rs)
  | [] => .same _
  | r :: rs => by
    unfold TsTree.incr
    simp only
    split
    · refine (h.incr δ rs).bindSame fun x => ?_
      obtain ⟨ok, rs'⟩ := x
      simp only
      split
      · exact .same _
      · cases rs' with
        | nil => exact .same _
        | cons p ps => exact (h.readNode _).bindSame fun _ => .same _
    · exact .same _

theorem TreeFails.next (h : TreeFails t' t) (fuel : Nat) (it : TsIter) : RRel Eq (it.next t' fuel) (it.next t fuel) := by
  unfold TsIter.next
  cases it.records with
  | nil => exact (h.init _ _).bindSame fun _ => .same _
  | cons r rs => exact (h.incr _ _).bindSame fun _ => .same _

theorem TreeFails.prev (h : TreeFails t' t) (fuel : Nat) (it : TsIter) : RRel Eq (it.prev t' fuel) (it.prev t fuel) := by
  unfold TsIter.prev
  cases it.records with
  | nil => exact (h.init _ _).bindSame fun _ => (h.incr _ _).bindSame fun _ => .same _
  | cons r rs => exact (h.incr _ _).bindSame fun _ => .same _

theorem TreeFails.scan (h : TreeFails t' t) (depth : Nat) {row' row : TsPtr → Res β} (hr : ∀ p, RRel Eq (row' p) (row p)) (forward : Bool)
    (stop : Bytes → Bool) : ∀ (fuel : Nat) (it : TsIter), SameOrCut (tsScan t' depth row' forward stop fuel it) (tsScan t depth row forward stop fuel it)
  | 0, _ => .inl rfl
  | fuel + 1, it => by
    unfold tsScan
    have hs : RRel Eq (if forward then it.next t' depth else it.prev t' depth) (if forward then it.next t depth else it.prev t depth) := by
      cases forward
      · exact h.prev _ _
      · exact h.next _ _
    rcases hs.to with hs | ⟨e, hs⟩
    · rw [hs]
      split
      · exact .inl rfl
      · exact .inl rfl
      · exact .inl rfl
      · rename_i it' _
        split
        · rename_i k p _ _
          split
          · exact .inl rfl
          · rcases (hr p).to with hp | ⟨e, hp⟩
            · rw [hp]
              split
              · exact .inl rfl
              · exact .inl rfl
              · exact cut_cons _ (h.scan depth hr forward stop fuel it')
            · rw [hp]
              exact cut_err e
        · exact .inl rfl
    · rw [hs]
      exact cut_err e

theorem TreeFails.scanFrom (h : TreeFails t' t) (depth : Nat) {row' row : TsPtr → Res β} (hr : ∀ p, RRel Eq (row' p) (row p)) (forward : Bool)
    (stop : Bytes → Bool) (fuel : Nat) {k' k : Res TsRV} (hk : RRel Eq k' k) :
    SameOrCut (tsScanFrom t' depth row' forward stop fuel k') (tsScanFrom t depth row forward stop fuel k) := by
  rcases hk.to with rfl | ⟨e, rfl⟩
  · unfold tsScanFrom
    cases k' with
    | panic => exact .inl rfl
    | err e => exact .inl rfl
    | ok k => exact h.scan depth hr forward stop fuel _
  · exact cut_err e

theorem TreeFails.clause (h : TreeFails t' t) (depth fuel : Nat) {row' row : TsPtr → Res β} (hr : ∀ p, RRel Eq (row' p) (row p)) (op : TsOp)
    (ord : TsDir) (v : Bytes) : SameOrCut (tsClause t' depth fuel row' op ord v) (tsClause t depth fuel row op ord v) := by
  cases op <;> cases ord <;> simp only [tsClause] <;>
    first
      | exact h.scanFrom depth hr _ _ fuel (.same _)
      | exact h.scanFrom depth hr _ _ fuel (h.first _)
      | exact h.scanFrom depth hr _ _ fuel (h.last _)

theorem TreeFails.row (h : TreeFails t' t) (select : Bytes → Res β) (p : TsPtr) : RRel Eq (tsRow t' select p) (tsRow t select p) :=
  (get_rel h.dat _ _).bindSame fun _ => .same _

theorem TreeFails.jsClause (h : TreeFails t' t) (depth fuel : Nat) {row' row : TsPtr → Res β} (hr : ∀ p, RRel Eq (row' p) (row p)) (op : Bytes)
    (ord : Bytes) (v : Bytes) : SameOrCut (jsClause t' depth fuel row' op ord v) (jsClause t depth fuel row op ord v) := by
  unfold Appendable.jsClause
  by_cases h1 : op = [62]
  · simp only [if_pos h1]; exact h.clause depth fuel hr _ _ v
  by_cases h2 : op = [62, 61]
  · simp only [if_neg h1, if_pos h2]; exact h.clause depth fuel hr _ _ v
  by_cases h3 : op = [61, 61]
  · simp only [if_neg h1, if_neg h2, if_pos h3]; exact h.clause depth fuel hr _ _ v
  by_cases h4 : op = [60, 61]
  · simp only [if_neg h1, if_neg h2, if_neg h3, if_pos h4]; exact h.clause depth fuel hr _ _ v
  by_cases h5 : op = [60]
  · simp only [if_neg h1, if_neg h2, if_neg h3, if_neg h4, if_pos h5]; exact h.clause depth fuel hr _ _ v
  simp only [if_neg h1, if_neg h2, if_neg h3, if_neg h4, if_neg h5]
  exact .inl rfl

/-! ### Conditions -/

variable {db' db : TsDb}

theorem tree_of (h : FailsDb db' db) (format ft w : Nat) (p : TsPage) :
    TreeFails ⟨db'.idx, db'.dat, db'.parse format ft, w, p.root db'.idx⟩ ⟨db.idx, db.dat, db.parse format ft, w, p.root db.idx⟩ :=
  ⟨h.idx, h.dat, by rw [h.parse], rfl, slotRoot_rel h.idx p⟩

theorem clauseTree_rel (h : FailsDb db' db) (fuel : Nat) (fm : TsFileMeta) (headers : List (Bytes × List Nat)) (w : TsWhere) :
    RRel (fun x' x => TreeFails x'.1 x.1 ∧ x'.2 = x.2) (db'.clauseTree fuel fm headers w) (db.clauseTree fuel fm headers w) := by
  unfold TsDb.clauseTree
  cases headers.find? (fun h => h.1 == w.key) with
  | none => exact .err _
  | some x =>
    simp only
    cases tsProcessWhere w.value with
    | none => exact .err _
    | some y =>
      obtain ⟨ft, v⟩ := y
      simp only
      refine (seek_rel h.idx fuel w.key ft).bindSame fun ps => ?_
      cases ps with
      | nil => exact .err _
      | cons pm rest =>
        obtain ⟨p, m⟩ := pm
        exact .ok ⟨tree_of h .., rfl⟩

theorem clauses_rel (h : FailsDb db' db) (fuel : Nat) (select : Bytes → Res β) (dir : TsDir) (fm : TsFileMeta)
    (headers : List (Bytes × List Nat)) : ∀ ws : List TsWhere,
      SameOrCut (db'.clauses fuel select dir fm headers ws) (db.clauses fuel select dir fm headers ws)
  | [] => .inl rfl
  | w :: ws => by
    unfold TsDb.clauses
    rcases clauseTree_rel h fuel fm headers w with ⟨x', x, h1, h2, h3, h4⟩ | ⟨h1, h2⟩ | ⟨e, h1⟩
    · rw [h1, h2]
      obtain ⟨t', v'⟩ := x'
      obtain ⟨t, v⟩ := x
      simp only at h4
      subst h4
      exact cut_andThen (h3.clause fuel fuel (h3.row select) w.op dir v') (clauses_rel h fuel select dir fm headers ws)
    · rw [h1, h2]
      exact .inl rfl
    · rw [h1]
      exact cut_err e

theorem conds_rel (h : FailsDb db' db) (fuel : Nat) (select : Bytes → Res β) (ord : Bytes) (fm : TsFileMeta)
    (headers : List (Bytes × List Nat)) : ∀ ws : List JsCond,
      SameOrCut (db'.conds fuel select ord fm headers ws) (db.conds fuel select ord fm headers ws)
  | [] => .inl rfl
  | w :: ws => by
    unfold TsDb.conds
    refine cut_rows (clauseTree_rel h fuel fm headers _) fun x' x hx => ?_
    rw [hx.2]
    exact cut_andThen (hx.1.jsClause fuel fuel (hx.1.row select) w.operation ord x.2) (conds_rel h fuel select ord fm headers ws)

/-! ### Searches -/

/-- The same tables of trees, but for requests that fail. -/
inductive TreesFail : PriorityTable Nat (TsTree × TfMap) → PriorityTable Nat (TsTree × TfMap) → Prop where
  | nil : TreesFail [] []
  | cons {k : Nat} {t' t : TsTree} {m : TfMap} {a' a : PriorityTable Nat (TsTree × TfMap)} (h : TreeFails t' t) (hs : TreesFail a' a) :
      TreesFail ((k, t', m) :: a') ((k, t, m) :: a)

theorem TreesFail.get {a' a : PriorityTable Nat (TsTree × TfMap)} (h : TreesFail a' a) (k : Nat) :
    (tableGet a' k = none ∧ tableGet a k = none) ∨
    ∃ t' t m, tableGet a' k = some (t', m) ∧ tableGet a k = some (t, m) ∧ TreeFails t' t := by
  induction h with
  | nil => exact .inl ⟨rfl, rfl⟩
  | @cons k0 t' t m a' a h _ ih =>
    unfold tableGet at ih ⊢
    rw [List.find?_cons, List.find?_cons]
    by_cases hk : k0 == k
    · simp only [hk]
      exact .inr ⟨t', t, m, rfl, rfl, h⟩
    · simp only [hk]
      exact ih

theorem TreesFail.put {a' a : PriorityTable Nat (TsTree × TfMap)} (h : TreesFail a' a) (k : Nat) {t' t : TsTree} (m : TfMap)
    (ht : TreeFails t' t) : TreesFail (tableSet k (t', m) a') (tableSet k (t, m) a) := by
  induction h with
  | nil => exact .cons ht .nil
  | @cons k0 u' u m0 a' a h hs ih =>
    unfold tableSet
    by_cases hk : k0 == k
    · simp only [hk, if_true]
      exact .cons ht hs
    · simp only [hk]
      exact .cons h ih

/-- The same states of a search, but for requests that fail. -/
structure StateFails {S : Type} (st' st : TsSearchState S) : Prop where
  pages : st'.pages = st.pages
  trees : TreesFail st'.trees st.trees
  fresh : st'.fresh = st.fresh
  table : st'.table = st.table

theorem searchPage_rel (h : FailsDb db' db) (fuel : Nat) (name : Bytes) (pages : PriorityTable Nat TsPage) (ft : Nat) :
    RRel Eq (db'.searchPage fuel name pages ft) (db.searchPage fuel name pages ft) := by
  unfold TsDb.searchPage
  cases tableGet pages ft with
  | some p => exact .same _
  | none => exact (seek_rel h.idx fuel name ft).bindSame fun _ => .same _

theorem searchTree_rel (h : FailsDb db' db) (format : Nat) {a' a : PriorityTable Nat (TsTree × TfMap)} (ha : TreesFail a' a) (ft : Nat)
    (p : TsPage) (m : TsIndexMeta) : TreesFail (db'.searchTree format a' ft p m) (db.searchTree format a ft p m) := by
  unfold TsDb.searchTree
  rcases ha.get m.fieldType with ⟨h1, h2⟩ | ⟨t', t, tf, h1, h2, _⟩
  · rw [h1, h2]
    exact ha.put ft [] (tree_of h ..)
  · rw [h1, h2]
    exact ha

theorem termFrequency_rel (h : TreeFails t' t) (depth fuel : Nat) (v : Bytes) (tf : TfMap) (fresh : Nat) :
    RRel Eq (tsTermFrequency t' depth fuel v tf fresh) (tsTermFrequency t depth fuel v tf fresh) := by
  unfold tsTermFrequency
  rcases h.scanFrom depth (row' := fun p => .ok p) (row := fun p => .ok p) (fun _ => .same _) true (fun k => tsCompareBytes k v ≠ 0) fuel
    (k' := .ok ⟨⟨0, 0⟩, v⟩) (.same _) with hs | ⟨_, e, hs⟩
  · simp only [hs]
    exact .same _
  · simp only [hs]
    exact .err e

theorem searchHits_rel {S : Type} (A : ScoreArith S) (fuel : Nat) (n : Int) {st' st : TsSearchState S} (hs : StateFails st' st) (ft : Nat)
    (v : Bytes) : RRel StateFails (TsDb.searchHits A fuel n st' ft v) (TsDb.searchHits A fuel n st ft v) := by
  unfold TsDb.searchHits
  rcases hs.trees.get ft with ⟨h1, h2⟩ | ⟨t', t, tf, h1, h2, h3⟩
  · rw [h1, h2]
    exact .err _
  · rw [h1, h2]
    simp only [hs.fresh, hs.pages, hs.table]
    exact (termFrequency_rel h3 fuel fuel v tf st.fresh).bindSame fun r => .ok ⟨rfl, hs.trees.put ft r.1 h3, rfl, rfl⟩

theorem searchToken_rel {S : Type} (h : FailsDb db' db) (A : ScoreArith S) (fuel format : Nat) (n : Int) (name : Bytes)
    {st' st : TsSearchState S} (hs : StateFails st' st) (ft : Nat) (v : Bytes) :
    RRel StateFails (db'.searchToken A fuel format n name st' ft v) (db.searchToken A fuel format n name st ft v) := by
  unfold TsDb.searchToken
  rw [hs.pages]
  refine (searchPage_rel h fuel name st.pages ft).bindSame fun x => ?_
  refine (indexMeta_rel h.idx x.1).bindSame fun m => ?_
  refine searchHits_rel A fuel n ?_ ft v
  exact ⟨rfl, searchTree_rel h format hs.trees ft x.1 m, hs.fresh, hs.table⟩

theorem searchTokens_rel {S : Type} (h : FailsDb db' db) (A : ScoreArith S) (fuel format : Nat) (n : Int) (name : Bytes) :
    ∀ (toks : List (Nat × Bytes)) {st' st : TsSearchState S}, StateFails st' st →
      RRel StateFails (db'.searchTokens A fuel format n name st' toks) (db.searchTokens A fuel format n name st toks)
  | [], _, _, hs => .ok hs
  | (ft, v) :: toks, _, _, hs =>
    (searchToken_rel h A fuel format n name hs ft v).bind fun _ _ hs => searchTokens_rel h A fuel format n name toks hs

theorem searchRows_rel {S : Type} (h : FailsDb db' db) : ∀ l : List (TsSpan × S), SameOrCut (db'.searchRows l) (db.searchRows l)
  | [] => .inl rfl
  | (k, s) :: rest => by
    unfold TsDb.searchRows
    rcases (get_rel h.dat k.start k.stop).to with hg | ⟨e, hg⟩
    · rw [hg]
      split
      · exact .inl rfl
      · exact .inl rfl
      · exact cut_cons _ (searchRows_rel h rest)
    · rw [hg]
      exact cut_err e

/-! ### The properties -/

/-- C114, the list of fields: the same list, or an exception. -/
theorem C114_fields (h : FailsDb db' db) (fuel : Nat) : SameOrThrows (tsIndexHeaders db'.idx fuel) (tsIndexHeaders db.idx fuel) :=
  (headers_rel h.idx fuel).to

/-- C114, queries with conditions: the same rows, or the first of them and then an exception. -/
theorem C114_query (h : FailsDb db' db) (fuel : Nat) (select : Bytes → Res β) (q : TsQuery) :
    SameOrCut (db'.query fuel select q) (db.query fuel select q) := by
  unfold TsDb.query
  have hm := (fileMeta_rel h.idx).to
  have hh := (headers_rel h.idx fuel).to
  have key : ∀ (f' f : TsFileMeta → List (Bytes × List Nat) → TsRows β), (∀ a b, SameOrCut (f' a b) (f a b)) →
      SameOrCut (match tsFileMetadata db'.idx, tsIndexHeaders db'.idx fuel with
        | .ok fm, .ok headers => f' fm headers
        | .err e, _ => ⟨[], some e⟩
        | _, .err e => ⟨[], some e⟩
        | _, _ => ⟨[], some (.msg "panic")⟩)
       (match tsFileMetadata db.idx, tsIndexHeaders db.idx fuel with
        | .ok fm, .ok headers => f fm headers
        | .err e, _ => ⟨[], some e⟩
        | _, .err e => ⟨[], some e⟩
        | _, _ => ⟨[], some (.msg "panic")⟩) := by
    intro f' f hf
    rcases hm with hm | ⟨e, hm⟩
    · rw [hm]
      rcases hh with hh | ⟨e, hh⟩
      · rw [hh]
        cases tsFileMetadata db.idx <;> cases tsIndexHeaders db.idx fuel <;> first | exact hf _ _ | exact .inl rfl
      · rw [hh]
        cases tsFileMetadata db.idx <;> exact cut_err _
    · rw [hm]
      exact cut_err e
  cases q.where_ with
  | nil => exact key (fun _ _ => ⟨[], none⟩) (fun _ _ => ⟨[], none⟩) fun _ _ => .inl rfl
  | cons w ws =>
    simp only
    split
    · exact .inl rfl
    · exact key _ _ fun fm hs => clauses_rel h fuel select q.dir fm hs (w :: ws)

/-- C114, whole queries, with a search, conditions or both. -/
theorem C114_ask {S : Type} (h : FailsDb db' db) (A : ScoreArith S) (lower : JsString → JsString) (rand : Nat → Nat) (fuel : Nat)
    (select : Bytes → Res β) (q : JsAsk) : SameOrCut (db'.ask A lower rand fuel select q) (db.ask A lower rand fuel select q) := by
  unfold TsDb.ask
  split
  · exact .inl rfl
  refine cut_rowsSame (fileMeta_rel h.idx) fun fm => cut_rowsSame (headers_rel h.idx fuel) fun headers => ?_
  refine cut_andThen (cut_map _ ?_) (cut_map _ (conds_rel h fuel select q.ord fm headers q.where_))
  unfold TsDb.searchPart
  cases q.search with
  | none => exact .inl rfl
  | some s =>
    refine cut_rowsSame (.same _) fun c => cut_rowsSame (.same _) fun toks => cut_rowsSame (.same _) fun soup => ?_
    refine cut_rows (searchTokens_rel h A fuel fm.format fm.entries s.key _ ⟨rfl, .nil, rfl, rfl⟩) fun st' st hs => ?_
    rw [hs.table]
    exact searchRows_rel h _

end Appendable
