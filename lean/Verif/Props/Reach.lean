import Verif.Props.TsClient
import Verif.Model.TsSearch
/-! C106: rows anywhere in the data file can be found.  They cannot: the client never asks for a row that starts at
2^31 or above, and throws for a row of one byte. -/
namespace Appendable
open Spec Tree

/-! ### Every pointer the client decodes is below 2^31 -/

/-- A pointer the client can have decoded. -/
def NearPtr (p : TsPtr) : Prop := p.offset < 2 ^ 31 ∧ p.length < 2 ^ 31

/-- A node the client can have decoded. -/
structure NearNode (n : TsNode) : Prop where
  keys : ∀ k ∈ n.keys, NearPtr k.dp
  leaf : ∀ p ∈ n.leafPtrs, NearPtr p
  int : ∀ o ∈ n.intPtrs, o < 2 ^ 31

theorem tsUvarintLoop_near : ∀ (bs : Bytes) (i : Nat) (s x : UInt32), (tsUvarintLoop bs i s x).1 < 2 ^ 31
  | [], _, _, _ => by simp [tsUvarintLoop]
  | b :: bs, i, s, x => by
    unfold tsUvarintLoop
    split
    · simp
    · split
      · split
        · simp
        · exact (toInt32_range _).2
      · exact tsUvarintLoop_near bs _ _ _

theorem tsUvarint_near (bs : Bytes) : (tsUvarint bs).1 < 2 ^ 31 := tsUvarintLoop_near bs 0 0 0

theorem tsReadPtr_near (buf : Bytes) (m : Int) : NearPtr (tsReadPtr buf m).1 := ⟨tsUvarint_near _, tsUvarint_near _⟩

theorem tsReadKey_near (w : Nat) (buf : Bytes) (m : Int) : NearPtr (tsReadKey w buf m).1.dp := by
  unfold tsReadKey
  dsimp only
  split
  · exact tsReadPtr_near buf m
  · exact tsReadPtr_near buf m

theorem tsReadMany_all {α : Type} {P : α → Prop} {read : Bytes → Int → α × Int} (h : ∀ b m, P (read b m).1) (buf : Bytes) :
    ∀ (n : Nat) (m : Int), ∀ a ∈ (tsReadMany read buf n m).1, P a
  | 0, _, a, ha => by simp [tsReadMany] at ha
  | n + 1, m, a, ha => by
    simp only [tsReadMany, List.mem_cons] at ha
    rcases ha with rfl | ha
    · exact h _ _
    · exact tsReadMany_all h buf n _ a ha

theorem tsFill_near {parse : Bytes → Res Bytes} : ∀ (ks : List TsRV) (ds : List Bytes) (r : List TsRV), (∀ k ∈ ks, NearPtr k.dp) →
    tsFill parse ks ds = .ok r → ∀ k ∈ r, NearPtr k.dp
  | ks, [], r, hk, h => by
    rw [show tsFill parse ks [] = .ok ks by cases ks <;> rfl] at h
    cases h; exact hk
  | [], _ :: _, r, hk, h => by simp [tsFill] at h
  | k :: ks, d :: ds, r, hk, h => by
    simp only [tsFill] at h
    cases hp : parse d with
    | panic => rw [hp] at h; cases h
    | err e => rw [hp] at h; cases h
    | ok v =>
      rw [hp] at h
      cases hf : tsFill parse ks ds with
      | panic => rw [hf] at h; cases h
      | err e => rw [hf] at h; cases h
      | ok r' =>
        rw [hf] at h
        cases h
        intro x hx
        rcases List.mem_cons.1 hx with rfl | hx
        · exact hk k (by simp)
        · exact tsFill_near ks ds r' (fun k hk' => hk k (by simp [hk'])) hf x hx

theorem tsFetch_near {dat : Resolver} {parse : Bytes → Res Bytes} {w : Nat} {ks r : List TsRV} (hk : ∀ k ∈ ks, NearPtr k.dp)
    (h : tsFetch dat parse w ks = .ok r) : ∀ k ∈ r, NearPtr k.dp := by
  unfold tsFetch at h
  split at h
  · cases hd : dat (ks.map (fun k => (k.dp.offset, k.dp.offset + k.dp.length - 1))) with
    | panic => rw [hd] at h; cases h
    | err e => rw [hd] at h; cases h
    | ok ds => rw [hd] at h; exact tsFill_near ks ds r hk h
  · cases h; exact hk

theorem tsUnmarshal_near {dat : Resolver} {parse : Bytes → Res Bytes} {w : Nat} {buf : Bytes} {n : TsNode}
    (h : tsUnmarshal dat parse w buf = .ok n) : NearNode n := by
  unfold tsUnmarshal at h
  dsimp only at h
  split at h
  · cases h
  · split at h
    · cases h
    · have hk := tsReadMany_all (P := fun k : TsRV => NearPtr k.dp) (tsReadKey_near w) buf
        (if decide (leNat (buf.take 4) > 2147483647) then 2 ^ 32 - leNat (buf.take 4) else leNat (buf.take 4)) 4
      generalize hg : tsReadMany (tsReadKey w) buf _ 4 = g at h hk
      obtain ⟨ks, m⟩ := g
      dsimp only at h hk
      cases hf : tsFetch dat parse w ks with
      | panic => rw [hf] at h; cases h
      | err e => rw [hf] at h; cases h
      | ok r =>
        rw [hf] at h
        simp only [bind, Res.bind] at h
        split at h
        · cases h
          exact ⟨tsFetch_near hk hf, tsReadMany_all tsReadPtr_near buf _ _, by simp⟩
        · cases h
          exact ⟨tsFetch_near hk hf, by simp, tsReadMany_all (P := fun o : Int => o < 2 ^ 31)
            (read := fun b m => ((tsUvarint (jsSliceFrom b m)).1, m + (tsUvarint (jsSliceFrom b m)).2)) (fun b m => tsUvarint_near _) buf _ _⟩

theorem readNode_near {t : TsTree} {p : Option TsPtr} {n : TsNode} (h : t.readNode p = .ok n) : NearNode n := by
  unfold TsTree.readNode at h
  cases p with
  | none => cases h
  | some p =>
    dsimp only at h
    cases hb : t.idx.one p.offset (p.offset + 4096 - 1) with
    | panic => rw [hb] at h; cases h
    | err e => rw [hb] at h; cases h
    | ok b => rw [hb] at h; exact tsUnmarshal_near h

theorem pointer_near {n : TsNode} {i : Int} {p : TsPtr} (hn : NearNode n) (h : n.pointer i = some p) : NearPtr p := by
  unfold TsNode.pointer at h
  split at h
  · cases h
  · split at h
    · exact hn.leaf p (List.mem_of_getElem? h)
    · rw [Option.map_eq_some_iff] at h
      obtain ⟨o, ho, rfl⟩ := h
      exact ⟨hn.int o (List.mem_of_getElem? ho), by show (0 : Int) < 2 ^ 31; decide⟩

/-- C44 is violated for every node with a number from 2^31 on: whatever page the client is given, it does not decode that node
from it. -/
theorem C44_large_violated (n : Node) (hn : (∃ k ∈ n.keys, ¬ SmallPtr k.dp) ∨ (∃ p ∈ n.leafPtrs, ¬ SmallPtr p) ∨ ∃ p ∈ n.intPtrs, 2 ^ 31 ≤ p.toNat)
    (dat : Resolver) (parse : Bytes → Res Bytes) (w : Nat) (page : Bytes) :
    tsUnmarshal dat parse w page ≠ .ok
      ⟨n.keys.map (fun k => ⟨⟨k.dp.offset.toNat, k.dp.length.toNat⟩, k.value⟩),
        n.leafPtrs.map (fun p => ⟨p.offset.toNat, p.length.toNat⟩), n.intPtrs.map (fun p => (p.toNat : Int))⟩ := by
  intro h
  obtain ⟨h1, h2, h3⟩ := tsUnmarshal_near h
  rcases hn with ⟨k, hk, hs⟩ | ⟨p, hp, hs⟩ | ⟨p, hp, hs⟩
  · have := h1 _ (List.mem_map.2 ⟨k, hk, rfl⟩)
    simp only [NearPtr] at this
    exact hs ⟨by omega, by omega⟩
  · have := h2 _ (List.mem_map.2 ⟨p, hp, rfl⟩)
    simp only [NearPtr] at this
    exact hs ⟨by omega, by omega⟩
  · have := h3 _ (List.mem_map.2 ⟨p, hp, rfl⟩)
    omega

/-- The records of an iterator, all with nodes the client decoded. -/
def NearRecs (rs : List TsRec) : Prop := ∀ r ∈ rs, NearNode r.node

theorem bind_from {α β : Type} {x : Res α} {f : α → Res β} {b : β} (h : x.bind f = .ok b) : ∃ a, x = .ok a ∧ f a = .ok b := by
  cases x with
  | ok a => exact ⟨a, rfl, h⟩
  | err e => cases h
  | panic => cases h

theorem root_near {t : TsTree} {n : TsNode} (h : t.root = .ok n) : NearNode n := by
  obtain ⟨p, _, h⟩ := bind_from h
  exact readNode_near h

theorem traverse_near {t : TsTree} {key : TsRV} : ∀ (f : Nat) (n : TsNode) (rs : List TsRec), NearNode n →
    t.traverse key f n = .ok rs → NearRecs rs
  | 0, _, _, _, h => by cases h
  | f + 1, n, rs, hn, h => by
    unfold TsTree.traverse at h
    dsimp only at h
    split at h
    · cases h
      intro r hr
      rw [List.mem_singleton] at hr
      subst hr; exact hn
    · obtain ⟨c, hc, h⟩ := bind_from h
      obtain ⟨path, hp, h⟩ := bind_from h
      cases h
      intro r hr
      rcases List.mem_append.1 hr with hr | hr
      · exact traverse_near f c path (readNode_near hc) hp r hr
      · rw [List.mem_singleton] at hr
        subst hr; exact hn

theorem initRecords_near {t : TsTree} {key : TsRV} {f : Nat} {rs : List TsRec} (h : t.initRecords f key = .ok rs) : NearRecs rs := by
  obtain ⟨n, hn, h⟩ := bind_from h
  exact traverse_near f n rs (root_near hn) h

theorem incr_near {t : TsTree} {d : Int} : ∀ (rs : List TsRec) (ok : Bool) (rs' : List TsRec), NearRecs rs →
    t.incr d rs = .ok (ok, rs') → NearRecs rs'
  | [], _, _, hn, h => by cases h; exact hn
  | r :: rs, ok, rs', hn, h => by
    have hr : NearNode r.node := hn r (by simp)
    have hrs : NearRecs rs := fun x hx => hn x (by simp [hx])
    have cons : ∀ (x : TsRec) (l : List TsRec), NearNode x.node → NearRecs l → NearRecs (x :: l) := by
      intro x l hx hl y hy
      rcases List.mem_cons.1 hy with rfl | hy
      · exact hx
      · exact hl y hy
    unfold TsTree.incr at h
    dsimp only at h
    split at h
    · obtain ⟨⟨ok', l⟩, hl, h⟩ := bind_from h
      have hnl := incr_near rs ok' l hrs hl
      dsimp only at h
      split at h
      · cases h; exact cons _ _ hr hnl
      · cases l with
        | nil => cases h; exact cons _ _ hr hnl
        | cons p l =>
          dsimp only at h
          obtain ⟨n, hn', h⟩ := bind_from h
          cases h
          exact cons _ _ (readNode_near hn') hnl
    · cases h; exact cons _ _ hr hrs

theorem next_near {t : TsTree} {f : Nat} {it it' : TsIter} {ok : Bool} (hn : NearRecs it.records)
    (h : it.next t f = .ok (ok, it')) : NearRecs it'.records := by
  unfold TsIter.next at h
  split at h
  · obtain ⟨rs, hr, h⟩ := bind_from h
    have := initRecords_near hr
    cases rs with
    | nil => cases h
    | cons r rs => cases h; exact this
  · next r rs he =>
    rw [he] at hn
    obtain ⟨⟨ok', l⟩, hl, h⟩ := bind_from h
    cases h
    exact incr_near _ _ _ hn hl

theorem prev_near {t : TsTree} {f : Nat} {it it' : TsIter} {ok : Bool} (hn : NearRecs it.records)
    (h : it.prev t f = .ok (ok, it')) : NearRecs it'.records := by
  unfold TsIter.prev at h
  split at h
  · obtain ⟨rs, hr, h⟩ := bind_from h
    obtain ⟨⟨ok', l⟩, hl, h⟩ := bind_from h
    cases h
    exact incr_near _ _ _ (initRecords_near hr) hl
  · next r rs he =>
    rw [he] at hn
    obtain ⟨⟨ok', l⟩, hl, h⟩ := bind_from h
    cases h
    exact incr_near _ _ _ hn hl

theorem step_near {t : TsTree} {f : Nat} {fw : Bool} {it it' : TsIter} {ok : Bool} (hn : NearRecs it.records)
    (h : (if fw then it.next t f else it.prev t f) = .ok (ok, it')) : NearRecs it'.records := by
  cases fw
  · exact prev_near hn h
  · exact next_near hn h

theorem getPointer_near {it : TsIter} {p : TsPtr} (hn : NearRecs it.records) (h : it.getPointer = some p) : NearPtr p := by
  unfold TsIter.getPointer at h
  split at h
  · cases h
  · next r rs he =>
    rw [he] at hn
    exact pointer_near (hn r (by simp)) h

/-! ### Every row comes from such a pointer -/

variable {β : Type} {select : Bytes → Res β} {db : TsDb} {q : TsQuery}

theorem scan_rows {t : TsTree} {depth : Nat} {row : TsPtr → Res β} {fw : Bool} {stop : Bytes → Bool} {b : β} :
    ∀ (f : Nat) (it : TsIter), NearRecs it.records → b ∈ (tsScan t depth row fw stop f it).rows → ∃ p, NearPtr p ∧ row p = .ok b
  | 0, _, _, h => by simp [tsScan] at h
  | f + 1, it, hn, h => by
    unfold tsScan at h
    split at h
    · simp at h
    · simp at h
    · simp at h
    · next it' he =>
      have hn' := step_near hn he
      split at h
      · next k p _ hp =>
        split at h
        · simp at h
        · split at h
          · simp at h
          · simp at h
          · next b' hb =>
            rcases List.mem_cons.1 h with rfl | h
            · exact ⟨p, getPointer_near hn' hp, hb⟩
            · exact scan_rows f it' hn' h
      · simp at h

theorem scanFrom_rows {t : TsTree} {depth f : Nat} {row : TsPtr → Res β} {fw : Bool} {stop : Bytes → Bool} {key : Res TsRV} {b : β}
    (h : b ∈ (tsScanFrom t depth row fw stop f key).rows) : ∃ p, NearPtr p ∧ row p = .ok b := by
  unfold tsScanFrom at h
  split at h
  · simp at h
  · simp at h
  · exact scan_rows f _ (by intro r hr; simp [tsIter] at hr) h

theorem clause_rows {t : TsTree} {depth f : Nat} {row : TsPtr → Res β} {op : TsOp} {d : TsDir} {v : Bytes} {b : β}
    (h : b ∈ (tsClause t depth f row op d v).rows) : ∃ p, NearPtr p ∧ row p = .ok b := by
  unfold tsClause at h
  split at h <;> exact scanFrom_rows h

theorem clauses_rows {fuel : Nat} {dir : TsDir} {fm : TsFileMeta} {hs : List (Bytes × List Nat)} {b : β} : ∀ (ws : List TsWhere),
    b ∈ (db.clauses fuel select dir fm hs ws).rows → ∃ t : TsTree, t.dat = db.dat ∧ ∃ p, NearPtr p ∧ tsRow t select p = .ok b
  | [], h => by simp [TsDb.clauses] at h
  | w :: ws, h => by
    unfold TsDb.clauses at h
    split at h
    · simp at h
    · simp at h
    · next t v ht =>
      have hd : t.dat = db.dat := by
        unfold TsDb.clauseTree at ht
        split at ht
        · cases ht
        · split at ht
          · cases ht
          · obtain ⟨l, _, ht⟩ := bind_from ht
            cases l with
            | nil => cases ht
            | cons x l => cases ht; rfl
      unfold TsRows.andThen at h
      split at h
      · exact ⟨t, hd, clause_rows h⟩
      · rcases List.mem_append.1 h with h | h
        · exact ⟨t, hd, clause_rows h⟩
        · exact clauses_rows ws h

/-- C106 is violated: whatever the index file says, and whatever is asked, every row the client returns is the answer to a
request for a range of at least two bytes that starts before 2^31.  A row that starts at 2 GB or above, or that has only
one byte, is never returned. -/
theorem C106_reach_violated (fuel : Nat) (select : Bytes → Res β) (q : TsQuery) {b : β} (hb : b ∈ (db.query fuel select q).rows) :
    ∃ start stop : Int, start < 2 ^ 31 ∧ start < stop ∧ stop < 2 ^ 32 ∧
      ∃ d, db.dat.one start stop = .ok d ∧ select d = .ok b := by
  have : ∃ t : TsTree, t.dat = db.dat ∧ ∃ p, NearPtr p ∧ tsRow t select p = .ok b := by
    unfold TsDb.query at hb
    split at hb
    · split at hb
      · simp at hb
      · split at hb
        · exact clauses_rows _ hb
        · simp at hb
        · simp at hb
        · simp at hb
    · split at hb <;> simp at hb
  obtain ⟨t, ht, p, ⟨hp, hl⟩, hr⟩ := this
  obtain ⟨d, hd, hr⟩ := bind_from hr
  unfold tsGet at hd
  split at hd
  · cases hd
  · exact ⟨p.offset, p.offset + p.length - 1, hp, by omega, by omega, d, by rw [← ht]; exact hd, hr⟩

/-- C106 is violated, in terms of the file: if the resolver answers with bytes of the data file or not at all, every row
that is returned is a piece of the data file that starts before 2^31 and for which at least two bytes were asked.  So a
line that starts at 2^31 or above, and does not occur before, is not returned, whatever is indexed and whatever is asked. -/
theorem C106_far_violated {data : Bytes} (hd : ∀ start stop d, db.dat.one start stop = .ok d →
      0 ≤ start ∧ d = slice data start.toNat (stop + 1 - start).toNat) (fuel : Nat) (q : TsQuery) {line : Bytes}
    (hl : ∀ o n, o < 2 ^ 31 → 2 ≤ n → slice data o n ≠ line) : line ∉ (db.query fuel .ok q).rows := by
  intro hb
  obtain ⟨a, z, h1, h2, _, d, h3, h4⟩ := C106_reach_violated fuel .ok q hb
  obtain ⟨h5, h6⟩ := hd a z d h3
  refine hl a.toNat (z + 1 - a).toNat (by omega) (by omega) ?_
  rw [← h6]
  exact Res.ok.inj h4

/-! ### Searches -/

/-- A range the client can have computed from a pointer. -/
def NearSpan (k : TsSpan) : Prop := k.start < 2 ^ 31 ∧ k.stop < 2 ^ 32

/-- All keys of the map are such ranges. -/
def NearTable {S : Type} (t : PriorityTable TsSpan S) : Prop := ∀ e ∈ t, NearSpan e.1

theorem tableSet_all {K S : Type} [BEq K] {P : K → S → Prop} {k : K} {v : S} (hv : ∀ k', k' = k ∨ (k' == k) = true → P k' v) : ∀ (t : PriorityTable K S),
    (∀ e ∈ t, P e.1 e.2) → ∀ e ∈ tableSet k v t, P e.1 e.2
  | [], _, e, he => by
    simp only [tableSet, List.mem_singleton] at he
    subst he; exact hv k (.inl rfl)
  | x :: t, h, e, he => by
    unfold tableSet at he
    split at he
    · next hx =>
      rcases List.mem_cons.1 he with rfl | he
      · exact hv _ (.inr hx)
      · exact h e (by simp [he])
    · rcases List.mem_cons.1 he with rfl | he
      · exact h e (by simp)
      · exact tableSet_all hv t (fun e he => h e (by simp [he])) e he

theorem NearTable.set {S : Type} {t : PriorityTable TsSpan S} (h : NearTable t) {k : TsSpan} (hk : NearSpan k) (v : S) : NearTable (tableSet k v t) := by
  refine tableSet_all (P := fun k _ => NearSpan k) ?_ t h
  intro k' hk'
  rcases hk' with rfl | hk'
  · exact hk
  · rw [eq_of_beq hk']; exact hk

theorem tfVisit_near : ∀ (rows : List TsPtr) (acc : TfMap × Nat), (∀ p ∈ rows, NearPtr p) → NearTable acc.1 → NearTable (rows.foldl tfVisit acc).1
  | [], _, _, h => h
  | p :: rows, acc, hr, h => by
    refine tfVisit_near rows (tfVisit acc p) (fun p hp => hr p (by simp [hp])) ?_
    have hp := hr p (by simp)
    exact h.set (k := ⟨acc.2, p.offset, p.offset + p.length - 1⟩) ⟨hp.1, by have := hp.1; have := hp.2; dsimp only; omega⟩ _

theorem termFrequency_near {t : TsTree} {depth f : Nat} {v : Bytes} {tf : TfMap} {n : Nat} {r : TfMap × Nat} (h : NearTable tf)
    (hr : tsTermFrequency t depth f v tf n = .ok r) : NearTable r.1 := by
  unfold tsTermFrequency at hr
  dsimp only at hr
  split at hr
  · cases hr
  · cases hr
    refine tfVisit_near _ _ (fun p hp => ?_) h
    obtain ⟨p', hp', he⟩ := scanFrom_rows hp
    cases he; exact hp'

theorem scoreAll_near {S : Type} {A : ScoreArith S} {n : Int} {tf : TfMap} {table : PriorityTable TsSpan S} (h1 : NearTable tf)
    (h2 : NearTable table) : NearTable (tsScoreAll A n tf table) := by
  unfold tsScoreAll
  dsimp only
  generalize tsIdf A n tf.length = idf
  induction tf generalizing table with
  | nil => exact h2
  | cons e tf ih =>
    rw [List.foldl_cons]
    refine ih (fun x hx => h1 x (by simp [hx])) ?_
    unfold tableInsert
    exact h2.set (h1 e (by simp)) _

/-- The state of a search: everything in it comes from decoded pointers. -/
structure NearState {S : Type} (st : TsSearchState S) : Prop where
  table : NearTable st.table
  trees : ∀ x ∈ st.trees, NearTable x.2.2

theorem NearState.hits {S : Type} {A : ScoreArith S} {f : Nat} {n : Int} {st st' : TsSearchState S} {ft : Nat} {v : Bytes} (h : NearState st)
    (hr : TsDb.searchHits A f n st ft v = .ok st') : NearState st' := by
  unfold TsDb.searchHits at hr
  split at hr
  · cases hr
  · next t tf ht =>
    obtain ⟨r, h1, h2⟩ := bind_from hr
    cases h2
    have htf : NearTable tf := by
      unfold tableGet at ht
      rw [Option.map_eq_some_iff] at ht
      obtain ⟨x, hx, he⟩ := ht
      have := h.trees x (List.mem_of_find?_eq_some hx)
      rw [he] at this
      exact this
    have hn := termFrequency_near htf h1
    exact ⟨scoreAll_near hn h.table, tableSet_all (P := fun _ (x : TsTree × TfMap) => NearTable x.2) (fun _ _ => hn) _ h.trees⟩

theorem NearState.tokens {S : Type} {A : ScoreArith S} {f fmt : Nat} {n : Int} {name : Bytes} : ∀ (toks : List (Nat × Bytes)) (st st' : TsSearchState S),
    NearState st → db.searchTokens A f fmt n name st toks = .ok st' → NearState st'
  | [], st, st', h, hr => by cases hr; exact h
  | (ft, v) :: toks, st, st', h, hr => by
    unfold TsDb.searchTokens at hr
    obtain ⟨st1, h1, hr⟩ := bind_from hr
    refine NearState.tokens toks st1 st' ?_ hr
    unfold TsDb.searchToken at h1
    obtain ⟨x, _, h1⟩ := bind_from h1
    obtain ⟨m, _, h1⟩ := bind_from h1
    refine NearState.hits (st := ⟨x.2, db.searchTree fmt st.trees ft x.1 m, st.fresh, st.table⟩) ⟨h.table, ?_⟩ h1
    dsimp only
    unfold TsDb.searchTree
    split
    · exact h.trees
    · exact tableSet_all (P := fun _ (x : TsTree × TfMap) => NearTable x.2) (fun _ _ => by intro e he; simp at he) _ h.trees

theorem searchRows_near {S : Type} {b : Bytes × S} : ∀ (l : List (TsSpan × S)), (∀ e ∈ l, NearSpan e.1) → b ∈ (db.searchRows l).rows →
    ∃ k, NearSpan k ∧ tsGet db.dat k.start k.stop = .ok b.1
  | [], _, h => by simp [TsDb.searchRows] at h
  | (k, s) :: l, hl, h => by
    unfold TsDb.searchRows at h
    split at h
    · simp at h
    · simp at h
    · next d hd =>
      rcases List.mem_cons.1 h with rfl | h
      · exact ⟨k, hl (k, s) (by simp), hd⟩
      · exact searchRows_near l (fun e he => hl e (by simp [he])) h

theorem rows_from {α : Type} {r : Res α} {f : α → TsRows β} {b : β} (h : b ∈ (r.rows f).rows) : ∃ a, r = .ok a ∧ b ∈ (f a).rows := by
  cases r with
  | ok a => exact ⟨a, rfl, h⟩
  | err e => simp [Res.rows] at h
  | panic => simp [Res.rows] at h

/-- C106 is violated for text searches, too: every row found is the answer to a request for a range of at least two bytes that
starts before 2^31, whatever the index file says and whatever is searched. -/
theorem C106_search_violated {S : Type} (A : ScoreArith S) (lower : JsString → JsString) (rand : Nat → Nat) (fuel : Nat) (q : TsSearch) {row : Bytes × S}
    (hb : row ∈ (db.search A lower rand fuel q).rows) :
    ∃ start stop : Int, start < 2 ^ 31 ∧ start < stop ∧ stop < 2 ^ 32 ∧ db.dat.one start stop = .ok row.1 := by
  obtain ⟨fm, _, hb⟩ := rows_from hb
  obtain ⟨hs, _, hb⟩ := rows_from hb
  obtain ⟨_, _, hb⟩ := rows_from hb
  obtain ⟨toks, _, hb⟩ := rows_from hb
  obtain ⟨soup, _, hb⟩ := rows_from hb
  obtain ⟨st, hst, hb⟩ := rows_from hb
  have hn := NearState.tokens _ _ _ ⟨by intro e he; simp at he, by intro e he; simp at he⟩ hst
  obtain ⟨k, hk, hd⟩ := searchRows_near _ (fun e he => hn.table e ((List.mergeSort_perm _ _).mem_iff.1 he)) hb
  unfold tsGet at hd
  split at hd
  · cases hd
  · exact ⟨k.start, k.stop, hk.1, by omega, hk.2, hd⟩

/-! ### What the client returns does not depend on what lies behind -/

/-- Two resolvers that agree on all requests for ranges that start before 2^31 and end before 2^32. -/
def AgreeBelow (r r' : Resolver) : Prop :=
  ∀ ranges : List (Int × Int), (∀ x ∈ ranges, x.1 < 2 ^ 31 ∧ x.2 < 2 ^ 32) → r ranges = r' ranges

theorem tsUnmarshal_agree {dat dat' : Resolver} (h : AgreeBelow dat dat') (parse : Bytes → Res Bytes) (w : Nat) (buf : Bytes) :
    tsUnmarshal dat parse w buf = tsUnmarshal dat' parse w buf := by
  have hf : ∀ n, tsFetch dat parse w (tsReadMany (tsReadKey w) buf n 4).1 = tsFetch dat' parse w (tsReadMany (tsReadKey w) buf n 4).1 := by
    intro n
    unfold tsFetch
    split
    · rw [h]
      intro x hx
      obtain ⟨k, hk, rfl⟩ := List.mem_map.1 hx
      have := tsReadMany_all (P := fun k : TsRV => NearPtr k.dp) (tsReadKey_near w) buf n 4 k hk
      obtain ⟨h1, h2⟩ := this
      exact ⟨h1, by dsimp only; omega⟩
    · rfl
  unfold tsUnmarshal
  dsimp only
  split
  · rfl
  · split
    · rfl
    · rw [hf]

/-- Two trees that differ in the resolver of the data file only. -/
structure Twin (t t' : TsTree) : Prop where
  idx : t.idx = t'.idx
  dat : AgreeBelow t.dat t'.dat
  parse : t.parse = t'.parse
  width : t.width = t'.width
  root : t.rootPtr = t'.rootPtr

theorem Twin.readNode {t t' : TsTree} (h : Twin t t') (p : Option TsPtr) : t.readNode p = t'.readNode p := by
  unfold TsTree.readNode
  cases p with
  | none => rfl
  | some p =>
    dsimp only
    rw [h.idx, h.parse, h.width]
    congr 1
    funext b
    exact tsUnmarshal_agree h.dat _ _ b

theorem Twin.root' {t t' : TsTree} (h : Twin t t') : t.root = t'.root := by
  unfold TsTree.root
  rw [h.root]
  congr 1
  funext p
  exact h.readNode _

theorem Twin.traverse {t t' : TsTree} (h : Twin t t') (key : TsRV) : ∀ (f : Nat) (n : TsNode), t.traverse key f n = t'.traverse key f n
  | 0, _ => rfl
  | f + 1, n => by
    unfold TsTree.traverse
    dsimp only
    rw [h.readNode]
    congr 1
    congr 1
    funext c
    rw [h.traverse key f c]

theorem Twin.descend {t t' : TsTree} (h : Twin t t') (pick : TsNode → Int) : ∀ (f : Nat) (n : TsNode), t.descend pick f n = t'.descend pick f n
  | 0, _ => rfl
  | f + 1, n => by
    unfold TsTree.descend
    rw [h.readNode]
    congr 1
    funext c
    rw [h.descend pick f c]

theorem Twin.first {t t' : TsTree} (h : Twin t t') (f : Nat) : t.first f = t'.first f := by
  unfold TsTree.first
  rw [h.root']
  congr 1
  funext n
  rw [h.descend]

theorem Twin.last {t t' : TsTree} (h : Twin t t') (f : Nat) : t.last f = t'.last f := by
  unfold TsTree.last
  rw [h.root']
  congr 1
  funext n
  rw [h.descend]

theorem Twin.initRecords {t t' : TsTree} (h : Twin t t') (f : Nat) (key : TsRV) : t.initRecords f key = t'.initRecords f key := by
  unfold TsTree.initRecords
  rw [h.root']
  congr 1
  funext n
  rw [h.traverse]

theorem Twin.incr {t t' : TsTree} (h : Twin t t') (d : Int) : ∀ rs, t.incr d rs = t'.incr d rs
  | [] => rfl
  | r :: rs => by
    unfold TsTree.incr
    dsimp only
    rw [h.incr d rs]
    congr 1
    congr 1
    funext ⟨ok, l⟩
    dsimp only
    congr 1
    cases l with
    | nil => rfl
    | cons p l =>
      dsimp only
      rw [h.readNode]

theorem Twin.step {t t' : TsTree} (h : Twin t t') (f : Nat) (fw : Bool) (it : TsIter) :
    (if fw then it.next t f else it.prev t f) = (if fw then it.next t' f else it.prev t' f) := by
  have h1 : it.next t f = it.next t' f := by
    unfold TsIter.next
    split
    · rw [h.initRecords]
    · rw [h.incr]
  have h2 : it.prev t f = it.prev t' f := by
    unfold TsIter.prev
    split
    · rw [h.initRecords]
      congr 1
      funext rs
      rw [h.incr]
    · rw [h.incr]
  rw [h1, h2]

theorem Twin.row {t t' : TsTree} (h : Twin t t') (select : Bytes → Res β) {p : TsPtr} (hp : NearPtr p) :
    tsRow t select p = tsRow t' select p := by
  unfold tsRow tsGet Resolver.one
  rw [h.dat [(p.offset, p.offset + p.length - 1)] (by intro x hx; rw [List.mem_singleton] at hx; subst hx; exact ⟨hp.1, by have := hp.1; have := hp.2; dsimp only; omega⟩)]

theorem Twin.scan {t t' : TsTree} (h : Twin t t') (select : Bytes → Res β) (depth : Nat) (fw : Bool) (stop : Bytes → Bool) :
    ∀ (f : Nat) (it : TsIter), NearRecs it.records →
      tsScan t depth (tsRow t select) fw stop f it = tsScan t' depth (tsRow t' select) fw stop f it
  | 0, _, _ => rfl
  | f + 1, it, hn => by
    unfold tsScan
    rw [← h.step depth fw it]
    cases he : (if fw then it.next t depth else it.prev t depth) with
    | panic => rfl
    | err e => rfl
    | ok x =>
      obtain ⟨ok, it'⟩ := x
      cases ok with
      | false => rfl
      | true =>
        dsimp only
        have hn' := step_near hn he
        cases hk : it'.getKey with
        | none => rfl
        | some k =>
          cases hp : it'.getPointer with
          | none => rfl
          | some p =>
            dsimp only
            rw [h.row select (getPointer_near hn' hp), h.scan select depth fw stop f it' hn']

theorem Twin.clause {t t' : TsTree} (h : Twin t t') (select : Bytes → Res β) (depth f : Nat) (op : TsOp) (d : TsDir) (v : Bytes) :
    tsClause t depth f (tsRow t select) op d v = tsClause t' depth f (tsRow t' select) op d v := by
  have hs : ∀ fw stop key, tsScanFrom t depth (tsRow t select) fw stop f key = tsScanFrom t' depth (tsRow t' select) fw stop f key := by
    intro fw stop key
    unfold tsScanFrom
    cases key with
    | panic => rfl
    | err e => rfl
    | ok k => exact h.scan select depth fw stop f _ (by intro r hr; simp [tsIter] at hr)
  unfold tsClause
  split <;> simp only [hs, h.first, h.last]

/-- C106 is violated: two data files that cannot be told apart by requests that start before 2^31 and end before 2^32 give the
same answers, rows and errors, to every query. -/
theorem C106_blind_violated {db db' : TsDb} (hi : db.idx = db'.idx) (hp : db.parse = db'.parse) (hd : AgreeBelow db.dat db'.dat)
    (fuel : Nat) (select : Bytes → Res β) (q : TsQuery) : db.query fuel select q = db'.query fuel select q := by
  have hc : ∀ dir fm hs ws, db.clauses fuel select dir fm hs ws = db'.clauses fuel select dir fm hs ws := by
    intro dir fm hs ws
    induction ws with
    | nil => rfl
    | cons w ws ih =>
      unfold TsDb.clauses TsDb.clauseTree
      rw [← hi, ← hp, ih]
      cases hs.find? (fun h => h.1 == w.key) with
      | none => rfl
      | some _ =>
        dsimp only
        cases tsProcessWhere w.value with
        | none => rfl
        | some x =>
          obtain ⟨ft, v⟩ := x
          dsimp only
          cases tsSeek db.idx fuel w.key ft with
          | panic => rfl
          | err e => rfl
          | ok l =>
            cases l with
            | nil => rfl
            | cons x l =>
              obtain ⟨p, m⟩ := x
              simp only [bind, Res.bind, pure]
              rw [Twin.clause (t := ⟨db.idx, db.dat, db.parse fm.format m.fieldType, m.width, p.root db.idx⟩)
                (t' := ⟨db.idx, db'.dat, db.parse fm.format m.fieldType, m.width, p.root db.idx⟩) ⟨rfl, hd, rfl, rfl, rfl⟩]
  unfold TsDb.query
  rw [← hi]
  simp only [hc]

/-! ### Below 2^31 -/

theorem gather_ok (row : MemPtr → Bytes) : ∀ xs : List (RV × MemPtr), gather (fun p => .ok (row p)) xs = ⟨xs.map (fun e => row e.2), none⟩
  | [] => rfl
  | e :: es => by
    unfold gather
    rw [gather_ok row es]
    rfl

/-- C106 for data files below 2 GB: a query `field <= v` or `field < v`, descending, returns the record of every entry whose value
meets the condition, if the records have at least two bytes (and so have the values that are not stored in the index,
which the client's parser reads as the writer's).  Missing: files of 2 GB and more and records of one byte
(`C106_reach_violated`, `C106_far_violated`, `C106_blind_violated`); the other conditions are C46 and C47. -/
theorem C106_near_partial {parse : Bytes → Bytes} {wd : UInt16 → UInt16} {data : Bytes} {i : IndexFile} {s : PF} {fm : FileMeta}
    {is : List (LP × IndexMeta)} {c : Nat → List (RV × MemPtr)} {op : TsOp} {v name : Bytes} {value : JsVal} {ft k : Nat} {p : LP} {m : IndexMeta}
    (hw : SmallWidths wd) (h : IndexRun parse wd data i s fm is c) (hwm : wd m.width = m.width) (hsees : Sees db data s.file.bytes)
    (hq : q.where_ = [⟨name, op, value⟩]) (hv : tsProcessWhere value = some (ft, v)) (hp : Picks is name ft k p m)
    (hop : op = .lt ∨ op = .le) (hd : q.dir = .desc) (hdata : data.length < 2 ^ 31) (hne : c k ≠ [])
    (hrec : ∀ e ∈ c k, e.2.offset.toNat + e.2.length.toNat ≤ data.length ∧ 2 ≤ e.2.length.toNat)
    (hkey : ∀ e ∈ c k, e.1.dp.offset.toNat + e.1.dp.length.toNat ≤ data.length ∧ (m.width = 0 → 2 ≤ e.1.dp.length.toNat ∧
      db.parse fm.format.toByte.toNat m.fieldType.toNat (slice data e.1.dp.offset.toNat e.1.dp.length.toNat) = .ok e.1.value)) :
    ∃ rows, Returns db .ok q ⟨rows, none⟩ ∧ ∀ e ∈ c k, Matches op e.1.value v → record data e.2 ∈ rows := by
  have hs : Served parse data s fm is c db q op v k p m := by
    refine ⟨hsees, ⟨name, value, ft, hq, hv, hp⟩, hne, fun e he => ?_⟩
    have h1 := hrec e he
    have h2 := hkey e he
    refine ⟨⟨⟨by omega, by omega⟩, h2.2⟩, ⟨by omega, by omega⟩, h1.2, ?_⟩
    show e.2.offset.toNat < data.length
    omega
  obtain ⟨xs, h1, h2⟩ := C47_below_desc_partial hw h hwm hs hop hd .ok
  refine ⟨xs.map (fun e => record data e.2), ?_, fun e he hm => List.mem_map.2 ⟨e, (h1.1 e).2 ⟨he, hm⟩, rfl⟩⟩
  rw [← gather_ok (record data)]
  exact h2

/-! ### Examples -/

namespace ReachDemo

/-- A leaf with one entry whose record starts at 2^31. -/
def far : Node := ⟨[⟨2147483648, 10⟩], [], [⟨⟨2147483655, 3⟩, [120]⟩]⟩

/-- `C44_large_violated` is about such nodes. -/
example : ∃ p ∈ far.leafPtrs, ¬ SmallPtr p := ⟨⟨2147483648, 10⟩, by simp [far], by unfold SmallPtr; decide⟩

/-- The client reads negative positions. -/
example : (far.marshal 2).isOk = true ∧ tsUnmarshal (serve []) .ok 2 (far.content 2) =
    .ok ⟨[⟨⟨-2147483641, 3⟩, [120]⟩], [⟨-2147483648, 10⟩], []⟩ := by decide +kernel

/-- A leaf with one entry whose record is the second byte. -/
def short : Node := ⟨[⟨1, 1⟩], [], [⟨⟨1, 1⟩, [120]⟩]⟩

def file (n : Node) : Bytes := n.content 2 ++ List.replicate (4096 - (n.content 2).length) 0
def tree (n : Node) : TsTree := ⟨serve (file n), serve [97, 98, 99], .ok, 2, .ok ⟨0, 4096⟩⟩

/-- A row of two bytes is found, one of one byte is not: the client throws. -/
example : (tsClause (tree ⟨[⟨1, 2⟩], [], [⟨⟨1, 1⟩, [120]⟩]⟩) 9 9 (tsRow (tree ⟨[⟨1, 2⟩], [], [⟨⟨1, 1⟩, [120]⟩]⟩) .ok) .le .desc [120]).rows = [[98, 99]] ∧
    (tsClause (tree short) 9 9 (tsRow (tree short) .ok) .le .desc [120]).rows = [] ∧
    (tsClause (tree short) 9 9 (tsRow (tree short) .ok) .le .desc [120]).fail = some (.msg "Invalid range") := by decide +kernel

/-- A resolver that refuses ranges that do not start in a file. -/
def strict (data : Bytes) : Resolver := fun ranges =>
  if ranges.all (fun x => decide (0 ≤ x.1)) then serve data ranges else .err (.msg "416")

theorem strict_one {data : Bytes} (start stop : Int) (d : Bytes) (h : (strict data).one start stop = .ok d) :
    0 ≤ start ∧ d = slice data start.toNat (stop + 1 - start).toNat := by
  unfold Resolver.one strict at h
  by_cases h0 : 0 ≤ start
  · simp only [List.all_cons, List.all_nil, h0, decide_true, Bool.and_self, if_true, serve, List.map_cons, List.map_nil, bind, Res.bind,
      pure] at h
    exact ⟨h0, (Res.ok.inj h).symm⟩
  · simp [h0, bind, Res.bind] at h

/-- `n` bytes `a`, and a line `{}` behind them -/
def big (n : Nat) : Bytes := List.replicate n 97 ++ [123, 125]

/-- The hypotheses of `C106_far_violated` are met: the line `{}` is in this file, and is not returned. -/
example {n : Nat} (hn : 2 ^ 31 ≤ n) (idx : Resolver) (parse : Nat → Nat → Bytes → Res Bytes) (fuel : Nat) (q : TsQuery) :
    slice (big n) n 2 = [123, 125] ∧ [123, 125] ∉ ((⟨idx, strict (big n), parse⟩ : TsDb).query fuel .ok q).rows := by
  constructor
  · unfold slice big
    rw [List.drop_append_of_le_length (by rw [List.length_replicate]; exact Nat.le_refl n), List.drop_replicate, Nat.sub_self]
    rfl
  · refine C106_far_violated (data := big n) strict_one fuel q (fun o k ho hk he => ?_)
    have h1 : (slice (big n) o k)[0]? = some 97 := by
      unfold slice big
      rw [List.getElem?_take, if_pos (by omega), List.getElem?_drop, List.getElem?_append_left (by rw [List.length_replicate]; omega),
        List.getElem?_replicate, if_pos (by omega)]
    rw [he] at h1
    cases h1

/-- The hypotheses of `C106_blind_violated` are met by any two files with the same first 2^32 bytes. -/
example {data data' : Bytes} (h : data.take (2 ^ 32) = data'.take (2 ^ 32)) : AgreeBelow (strict data) (strict data') := by
  intro ranges hr
  unfold strict
  split
  · next hall =>
    unfold serve
    congr 1
    refine List.map_congr_left (fun x hx => ?_)
    have h0 : 0 ≤ x.1 := by simpa using List.all_eq_true.1 hall x hx
    have h1 := hr x hx
    have hs : ∀ f : Bytes, slice f x.1.toNat (x.2 + 1 - x.1).toNat = slice (f.take (2 ^ 32)) x.1.toNat (x.2 + 1 - x.1).toNat := by
      intro f
      unfold slice
      rw [List.drop_take, List.take_take, Nat.min_eq_left (by omega)]
    rw [hs data, h, ← hs data']
  · rfl

end ReachDemo

end Appendable
