import Verif.Lemmas.TsQuery
import Verif.Lemmas.Miss
/-! C43-C48: the TypeScript client. -/
namespace Appendable
open Spec Tree

/-! ### C43: varints -/

/-- C43: the client reads as many bytes as the writer wrote, and reads the value if it is below 2^31.  Missing: larger
values (`C43_varint_violated`). -/
theorem C43_varint_partial (v : UInt64) (rest : Bytes) :
    (tsUvarint (putUvarint v ++ rest)).2 = ((putUvarint v).length : Int) ∧
    (v.toNat < 2 ^ 31 → (tsUvarint (putUvarint v ++ rest)).1 = (v.toNat : Int)) :=
  ⟨(tsUvarint_spec v rest).1, (tsUvarint_spec v rest).2.2⟩

/-- C43 is violated for every value from 2^31 on: the client computes with 32-bit integers and gets another value. -/
theorem C43_varint_violated (v : UInt64) (hv : 2 ^ 31 ≤ v.toNat) (rest : Bytes) :
    (tsUvarint (putUvarint v ++ rest)).1 ≠ (v.toNat : Int) := by
  have := (tsUvarint_spec v rest).2.1.2
  omega

example : tsUvarint (putUvarint 300 ++ [7]) = (300, 2) := by decide +kernel
example : (tsUvarint (putUvarint 4294967297)).1 = 1 := by decide +kernel

/-! ### C44: nodes -/

/-- C44: whatever node the writer serialized, the client decodes the same keys and pointers from it, whatever follows in
the page, if every number in it is below 2^31, the data file is served faithfully and, for keys stored by reference, the
client's parser agrees with the writer's and the values have at least two bytes in the data file. -/
theorem C44_node_partial {dat : Resolver} {parse : Bytes → Res Bytes} {cfg : Cfg} (hd : Faithful dat cfg.data) (n : Node)
    (h : NodeOK cfg n) (hk : ∀ k ∈ n.keys, Readable parse cfg k) (hl : ∀ p ∈ n.leafPtrs, SmallPtr p)
    (hi : ∀ p ∈ n.intPtrs, p.toNat < 2 ^ 31) (b rest : Bytes) (hb : n.marshal cfg.width = .ok b) :
    tsUnmarshal dat parse cfg.width.toNat (b ++ rest) = .ok
      ⟨n.keys.map (fun k => ⟨⟨k.dp.offset.toNat, k.dp.length.toNat⟩, k.value⟩),
        n.leafPtrs.map (fun p => ⟨p.offset.toNat, p.length.toNat⟩), n.intPtrs.map (fun p => (p.toNat : Int))⟩ := by
  have h1 := h.1
  have h2 := h.2.1
  rw [marshal_ok (by rw [Nat.mod_eq_of_lt (by omega)]; omega)] at hb
  cases hb
  exact tsUnmarshal_content hd n h hk hl hi rest

/-- A resolver that serves a file. -/
def serve (file : Bytes) : Resolver := fun ranges =>
  .ok (ranges.map (fun x => slice file x.1.toNat (x.2 + 1 - x.1).toNat))

theorem serve_faithful (file : Bytes) : Faithful (serve file) file := fun _ _ => rfl

/-- an internal node with a key stored by reference -/
example : tsUnmarshal (serve [10, 11, 12, 13]) (fun b => .ok b.reverse) 0 (((⟨[], [4096, 8192], [⟨⟨1, 3⟩, [13, 12, 11]⟩]⟩ : Node).content 0) ++ [9])
    = .ok ⟨[⟨⟨1, 3⟩, [13, 12, 11]⟩], [], [4096, 8192]⟩ :=
  C44_node_partial (cfg := ⟨[10, 11, 12, 13], List.reverse, 0⟩) (serve_faithful _) _ (by decide)
    (by simp [Readable, SmallPtr]; decide) (by simp) (by simp) _ _ (marshal_ok (by decide))

/-! ### C45: metadata -/

variable {parse : Bytes → Bytes} {wd : UInt16 → UInt16} {data : Bytes} {i : IndexFile} {s : PF} {fm : FileMeta}
  {is : List (LP × IndexMeta)} {c : Nat → List (RV × MemPtr)}

theorem mem_firstOccurrences {α : Type} [DecidableEq α] : ∀ {l : List α} {a : α}, a ∈ firstOccurrences l ↔ a ∈ l
  | [], a => by simp [firstOccurrences]
  | b :: l, a => by
    unfold firstOccurrences
    rw [List.mem_cons, List.mem_filter, mem_firstOccurrences]
    by_cases h : a = b <;> simp [h]

theorem firstOccurrences_snoc {α : Type} [DecidableEq α] (a : α) : ∀ l : List α,
    firstOccurrences (l ++ [a]) = if a ∈ l then firstOccurrences l else firstOccurrences l ++ [a]
  | [] => by simp [firstOccurrences]
  | b :: l => by
    simp only [List.cons_append, firstOccurrences]
    rw [firstOccurrences_snoc a l]
    by_cases h1 : a ∈ l
    · simp [h1]
    · by_cases h2 : a = b
      · subst h2; simp [h1, List.filter_append]
      · simp [h1, h2, List.filter_append]

theorem nodup_firstOccurrences {α : Type} [DecidableEq α] : ∀ l : List α, (firstOccurrences l).Nodup
  | [] => by simp [firstOccurrences]
  | b :: l => by
    unfold firstOccurrences
    rw [List.nodup_cons]
    exact ⟨by simp [List.mem_filter], List.Pairwise.sublist List.filter_sublist (nodup_firstOccurrences l)⟩

theorem addHeader_map {T : Bytes → List Nat} {a : Bytes} {t : Nat} : ∀ {L : List Bytes}, L.Nodup →
    tsAddHeader (L.map (fun n => (n, T n))) a t =
      if a ∈ L then L.map (fun n => (n, if n = a then T n ++ [t] else T n)) else L.map (fun n => (n, T n)) ++ [(a, [t])]
  | [], _ => by simp [tsAddHeader]
  | b :: L, h => by
    rw [List.nodup_cons] at h
    simp only [List.map_cons, tsAddHeader]
    by_cases hb : b = a
    · subst hb
      simp only [if_true, List.mem_cons, true_or]
      congr 1
      apply List.map_congr_left
      intro n hn
      rw [if_neg (by rintro rfl; exact h.1 hn)]
    · have hb' : ¬ a = b := fun h => hb h.symm
      simp only [hb, if_false, List.mem_cons, hb', false_or]
      rw [addHeader_map h.2]
      split <;> simp

/-- The headers: the field names in the order of their first index, each with the types of its indexes in order. -/
theorem collectMetas_eq (ms : List TsIndexMeta) : tsCollectMetas ms = (firstOccurrences (ms.map (·.fieldName))).map
    (fun n => (n, (ms.filter (fun m => decide (m.fieldName = n))).map (·.fieldType))) := by
  have key : ∀ l : List TsIndexMeta, tsCollectMetas l.reverse = (firstOccurrences (l.reverse.map (·.fieldName))).map
      (fun n => (n, (l.reverse.filter (fun m => decide (m.fieldName = n))).map (·.fieldType))) := by
    intro l
    induction l with
    | nil => rfl
    | cons m l ih =>
      unfold tsCollectMetas at ih ⊢
      rw [List.reverse_cons, List.foldl_append, List.foldl_cons, List.foldl_nil, ih,
        addHeader_map (nodup_firstOccurrences _), List.map_append, List.map_cons, List.map_nil, firstOccurrences_snoc]
      by_cases hm : m.fieldName ∈ l.reverse.map (·.fieldName)
      · rw [if_pos hm, if_pos (mem_firstOccurrences.2 hm)]
        apply List.map_congr_left
        intro n hn
        rw [List.filter_append, List.map_append]
        by_cases hn2 : m.fieldName = n
        · simp [hn2, List.filter_cons]
        · have : ¬ n = m.fieldName := fun h => hn2 h.symm
          simp [hn2, this, List.filter_cons]
      · rw [if_neg hm, if_neg (fun h => hm (mem_firstOccurrences.1 h)), List.map_append]
        congr 1
        · apply List.map_congr_left
          intro n hn
          have : ¬ m.fieldName = n := by rintro rfl; exact hm (mem_firstOccurrences.1 hn)
          rw [List.filter_append]
          simp [this, List.filter_cons]
        · have hf : l.reverse.filter (fun x => decide (x.fieldName = m.fieldName)) = [] := by
            rw [List.filter_eq_nil_iff]
            intro x hx
            simp only [decide_eq_true_eq]
            intro hc
            exact hm (List.mem_map.2 ⟨x, hx, hc⟩)
          rw [List.map_cons, List.map_nil, List.filter_append, hf]
          simp [List.filter_cons]
  have := key ms.reverse
  rwa [List.reverse_reverse] at this

/-- C45: along every history of an index file with at least one index, the client sees the file metadata, the slots of
the indexes in order, their metadata and roots, and the field names with the types of their indexes, as the writer
stored them (the counts of entries and bytes if they are below 2^31).  Missing: larger counts, and a file without index
(`C45_no_index_violated`). -/
theorem C45_metadata_partial (hw : SmallWidths wd) (h : IndexRun parse wd data i s fm is c) {idx : Resolver}
    (hf : Faithful idx s.file.bytes) (hne : is ≠ []) :
    (∃ e : Int, tsFileMetadata idx = .ok ⟨fm.version.toNat, fm.format.toByte.toNat, fm.readOffset.toNat, e⟩ ∧
      (fm.entries.toNat < 2 ^ 31 → e = fm.entries.toNat)) ∧
    (∀ fuel, is.length ≤ fuel →
      tsMetaPages idx fuel = .ok (is.map (fun x => ⟨x.1.offset.toNat, x.1.index.toNat⟩)) ∧
      tsIndexHeaders idx fuel = .ok ((firstOccurrences (is.map (·.2.fieldName))).map
        (fun n => (n, (is.filter (fun x => decide (x.2.fieldName = n))).map (·.2.fieldType.toNat))))) ∧
    ∀ x ∈ is, (∃ l : Int, TsPage.indexMeta idx ⟨x.1.offset.toNat, x.1.index.toNat⟩ =
        .ok ⟨x.2.fieldName, x.2.fieldType.toNat, x.2.width.toNat, l⟩ ∧ (x.2.totalLen.toNat < 2 ^ 31 → l = x.2.totalLen.toNat)) ∧
      ∃ r, (x.1.root s).1 = .ok r ∧ TsPage.root idx ⟨x.1.offset.toNat, x.1.index.toNat⟩ = .ok ⟨r.offset.toNat, r.length.toNat⟩ := by
  obtain ⟨hi, _⟩ := indexRun_is hw h
  refine ⟨⟨_, hi.tsFile hf, fun he => ?_⟩, fun fuel hfu => ⟨hi.tsMetaPages_ok hf hne fuel hfu, ?_⟩, fun x hx => ?_⟩
  · have := (tsUvarint_spec fm.entries []).2.2 he
    rwa [List.append_nil] at this
  · rw [hi.tsHeaders hf hne fuel hfu, collectMetas_eq]
    simp only [List.map_map, List.filter_map]
    rfl
  · obtain ⟨k, hk⟩ := List.mem_iff_getElem?.1 hx
    obtain ⟨g1, g2⟩ := hi.tsIndex hf (p := x.1) (m := x.2) hk
    refine ⟨⟨_, g1, fun hl => ?_⟩, ?_⟩
    · have := (tsUvarint_spec x.2.totalLen []).2.2 hl
      rwa [List.append_nil] at this
    · obtain ⟨⟨free, ps, cnt, E, P, h1, h2⟩, h3, h4⟩ := hi
      have hsl : ((places ps cnt).tail.map slotAt)[k]? = some x.1 := by rw [h2]; simp [hk]
      rw [List.getElem?_map] at hsl
      obtain ⟨y, hy, hye⟩ := Option.map_eq_some_iff.1 hsl
      rw [List.getElem?_tail] at hy
      obtain ⟨m1, m2, _⟩ := places_mem (p := y.1) (i := y.2) (List.mem_of_getElem? hy) h1.slots.inv.cle
      have hat := h1.slots.inv.pages.atSlot m1 m2
      have hye' : slotAt (y.1, y.2) = x.1 := hye
      rw [hye'] at hat
      refine ⟨_, by rw [lp_root_ok hat], ?_⟩
      exact ts_root hf hat

/-- C45 is violated by an index file without index (as opening an empty file creates it): the client fails to list its
fields, although it has none. -/
theorem C45_no_index_violated (hw : SmallWidths wd) (h : IndexRun parse wd data i s fm [] c) {idx : Resolver}
    (hf : Faithful idx s.file.bytes) (fuel : Nat) : tsIndexHeaders idx fuel = .err (.msg "failed to fetch meta pages") := by
  obtain ⟨hi, _⟩ := indexRun_is hw h
  unfold tsIndexHeaders
  rw [hi.tsMetaPages_none hf fuel]
  rfl

/-! ### C46, C47: queries -/

variable {β : Type} {select : Bytes → Res β} {db : TsDb} {q : TsQuery} {op : TsOp} {v : Bytes} {k : Nat} {p : LP} {m : IndexMeta}

theorem Spec.Served.tree (hw : SmallWidths wd) (h : IndexRun parse wd data i s fm is c) (hwm : wd m.width = m.width)
    (hs : Served parse data s fm is c db q op v k p m) (select : Bytes → Res β) :
    ∃ tt free es ps, TsOf tt (treeAt data parse m.width p) s free es ps ∧ es.Perm (c k) ∧ es ≠ [] ∧
      (∀ xs, (∀ e ∈ xs, e ∈ es) → (∀ depth fl, fuel s ≤ depth → es.length + 1 < fl →
        tsClause tt depth fl (tsRow tt select) op q.dir v = gather (fun p => tsRow tt select p.ts) xs) →
        Returns db select q (rowsOf data select xs)) ∧
      (∀ r, (∀ depth fl, fuel s ≤ depth → es.length + 1 < fl →
        tsClause tt depth fl (tsRow tt select) op q.dir v = r) → Returns db select q r) := by
  obtain ⟨hi, _⟩ := indexRun_is hw h
  obtain ⟨name, value, ft, hq, hv, hp⟩ := hs.ask
  obtain ⟨free, es, ps, ho, hperm⟩ := hi.tsOf (db := db) (k := k) (p := p) (m := m) hs.sees hp.1 hwm
    (fun e he => ⟨(hs.entries e he).1, (hs.entries e he).2.1⟩)
  have hrun : ∀ r, (∀ depth fl, fuel s ≤ depth → es.length + 1 < fl →
        tsClause (clientTree db fm p m) depth fl (tsRow (clientTree db fm p m) select) op q.dir v = r) → Returns db select q r := by
    intro r hr
    refine ⟨is.length + fuel s + es.length + 2, fun fuel hfu => ?_⟩
    rw [hi.tsQuery hs.sees.idx hq hv hp fuel (by omega)]
    exact hr fuel fuel (by omega) (by omega)
  refine ⟨clientTree db fm p m, free, es, ps, ho, hperm, ?_, ?_, hrun⟩
  · intro h0; subst h0; exact hs.nonempty (List.nil_perm.1 hperm)
  · intro xs hxs hc
    refine hrun _ (fun depth fl h1 h2 => ?_)
    rw [hc depth fl h1 h2]
    apply gather_congr
    intro e he
    have := hs.entries e (hperm.mem_iff.1 (hxs e he))
    exact tsRow_record hs.sees.dat rfl this.2.2.1 this.2.2.2

theorem one_page_on {t : Tree} {es es' : List (RV × MemPtr)} {k : RV} {on : Bool} {xs : List (RV × MemPtr)} (ha : Ascending es) (hp : es.Perm es')
    (h1 : leafBytes t.cfg.width es' ≤ pageSize) (hon : Hit t es k → on = true) (hxs : ∀ e ∈ xs, e ∈ es ∧ ¬ KeyLt e.1 k) :
    (if on then xs else []) = xs := by
  cases xs with
  | nil => simp
  | cons x xs =>
    have := hxs x (by simp)
    rw [hon (hit_of_one ha hp h1 ⟨x, hp.mem_iff.1 this.1, this.2⟩)]; rfl

theorem start_le {es : List (RV × MemPtr)} {op : TsOp} (hs : ∀ e ∈ es, e.1.dp.offset.toNat < 2 ^ 31) {v : Bytes} {ord : TsDir} {xs : List (RV × MemPtr)}
    (hop : op = .eq ∨ (op = .ge ∧ ord = .asc) ∨ (op = .gt ∧ ord = .asc)) (ha : Answer es op v .asc xs) :
    ∀ e ∈ xs, e ∈ es ∧ ¬ KeyLt e.1 (startKey op v) := by
  intro e he
  obtain ⟨h1, h2⟩ := (ha.1 e).1 he
  refine ⟨h1, ?_⟩
  rcases hop with rfl | ⟨rfl, _⟩ | ⟨rfl, _⟩
  · show ¬ KeyLt e.1 (lowKey v)
    rw [lt_lowKey, h2]; exact lex_irrefl _
  · show ¬ KeyLt e.1 (lowKey v)
    rw [lt_lowKey]
    rcases h2 with h2 | h2
    · exact fun h => lex_irrefl _ (lex_trans h h2)
    · rw [h2]; exact lex_irrefl _
  · show ¬ KeyLt e.1 (highKey v)
    rw [lt_highKey (hs e h1)]
    exact (not_le_gt _ _).2 h2

/-- The scans from a start key: all or nothing, as `Next` of the writer's iterator decides. -/
theorem query_forward (hw : SmallWidths wd) (h : IndexRun parse wd data i s fm is c) (hwm : wd m.width = m.width)
    (hs : Served parse data s fm is c db q op v k p m)
    (hop : op = .eq ∨ (op = .ge ∧ q.dir = .asc) ∨ (op = .gt ∧ q.dir = .asc)) (select : Bytes → Res β) :
    ∃ (xs : List (RV × MemPtr)) (on : Bool), Answer (c k) op v .asc xs ∧
      Returns db select q (rowsOf data select (if on then xs else [])) ∧
      (∃ it s', (iter (startKey op v)).next (treeAt data parse m.width p) s = (.ok (on, it), s')) ∧
      (leafBytes m.width (c k) ≤ 4096 → (if on then xs else []) = xs) ∧
      ((∀ e ∈ c k, ¬ KeyLt e.1 (startKey op v)) → on = true) := by
  obtain ⟨tt, free, es, ps, ho, hperm, hne, hrun, _⟩ := hs.tree hw h hwm select
  obtain ⟨xs, on, h1, h2, h3, h4, h5⟩ := ho.clause_asc (row := tsRow tt select) hne hop v
  refine ⟨xs, on, h1.perm hperm, hrun _ ?_ h5, h4, fun h6 => ?_, fun h6 => h3 ?_⟩
  · intro e he
    cases on with
    | true => exact ((h1.1 e).1 he).1
    | false => simp at he
  · exact one_page_on (t := treeAt data parse m.width p) ho.is.asc hperm h6 h2 (start_le ho.small hop h1)
  · have := rank_lt_iff ho.is.asc (startKey op v)
    have hpos : 0 < es.length := List.length_pos_iff.2 hne
    have h7 := this 0 hpos
    have h8 := h6 es[0] (hperm.mem_iff.1 (List.getElem_mem hpos))
    have : ¬ 0 < rank es (startKey op v) := fun hc => h8 (h7.1 hc)
    omega

/-- C46: `field == v` returns, in index order, the records of exactly the entries with the value `v`, or nothing at all;
nothing exactly if `Next` of the writer's iterator from the key (`v`, data pointer 0) reports the end.  It returns all
if no smaller value is stored.  Missing: it may return nothing although there are matches (`C46_eq_violated`). -/
theorem C46_eq_partial (hw : SmallWidths wd) (h : IndexRun parse wd data i s fm is c) (hwm : wd m.width = m.width)
    (hs : Served parse data s fm is c db q .eq v k p m) (select : Bytes → Res β) :
    ∃ (xs : List (RV × MemPtr)) (on : Bool), Answer (c k) .eq v .asc xs ∧
      Returns db select q (rowsOf data select (if on then xs else [])) ∧
      (∃ it s', (iter ⟨⟨0, 0⟩, v⟩).next (treeAt data parse m.width p) s = (.ok (on, it), s')) ∧
      ((∀ e ∈ c k, ¬ List.Lex (· < ·) e.1.value v) → on = true) := by
  obtain ⟨xs, on, h1, h2, h3, _, h4⟩ := query_forward hw h hwm hs (.inl rfl) select
  exact ⟨xs, on, h1, h2, h3, fun h5 => h4 (fun e he hlt => h5 e he ((lt_lowKey e.1 v).1 hlt))⟩

/-- C46 for indexes of one page: `field == v` returns exactly the records whose field has the value `v`. -/
theorem C46_eq_one_page_partial (hw : SmallWidths wd) (h : IndexRun parse wd data i s fm is c) (hwm : wd m.width = m.width)
    (hs : Served parse data s fm is c db q .eq v k p m) (h1 : leafBytes m.width (c k) ≤ 4096) (select : Bytes → Res β) :
    ∃ xs, Answer (c k) .eq v .asc xs ∧ Returns db select q (rowsOf data select xs) := by
  obtain ⟨xs, on, g1, g2, _, g3, _⟩ := query_forward hw h hwm hs (.inl rfl) select
  rw [g3 h1] at g2
  exact ⟨xs, g1, g2⟩

/-- In an index of more than one page with different values, searching from some stored value with data pointer 0 finds
nothing. -/
theorem missed (hw : SmallWidths wd) (h : IndexRun parse wd data i s fm is c) (hwm : wd m.width = m.width)
    (hk : is[k]? = some (p, m)) (hbig : 4096 < leafBytes m.width (c k))
    (hval : ∀ e ∈ c k, ∀ e' ∈ c k, e.1.value = e'.1.value → e = e') (hdp : ∀ e ∈ c k, e.1.dp ≠ ⟨0, 0⟩) :
    ∃ e ∈ c k, ∃ it s', (iter ⟨⟨0, 0⟩, e.1.value⟩).next (treeAt data parse m.width p) s = (.ok (false, it), s') := by
  obtain ⟨hi, _⟩ := indexRun_is hw h
  obtain ⟨free, ps, cnt, E, P, h1, h2, h3⟩ := hi.treeAt
  obtain ⟨ti, tw, tp⟩ := h1.forest.tree k _ (h3 k p m hk)
  simp only [hwm] at ti
  obtain ⟨e, he, _, hmiss⟩ := miss ti (show pageSize < leafBytes m.width (E k) by rw [leafBytes_perm tp]; exact hbig)
  refine ⟨e, tp.mem_iff.1 he, ?_⟩
  have hkey : KeyLt ⟨⟨0, 0⟩, e.1.value⟩ e.1 := by
    refine .inr ⟨rfl, ?_⟩
    have hne := hdp e (tp.mem_iff.1 he)
    by_cases ho : e.1.dp.offset = 0
    · right
      refine ⟨ho.symm, ?_⟩
      rw [UInt32.lt_iff_toNat_lt]
      have : e.1.dp.length ≠ 0 := by
        intro hl; apply hne
        cases hd : e.1.dp with
        | mk a b => rw [hd] at ho hl; simp only at ho hl; rw [ho, hl]
      have : e.1.dp.length.toNat ≠ 0 := fun hc => this (UInt32.toNat_inj.1 hc)
      show (0 : UInt32).toNat < _
      simp only [UInt32.toNat_zero]
      omega
    · left
      rw [UInt64.lt_iff_toNat_lt]
      have : e.1.dp.offset.toNat ≠ 0 := fun hc => ho (UInt64.toNat_inj.1 hc)
      show (0 : UInt64).toNat < _
      simp only [UInt64.toNat_zero]
      omega
  exact hmiss ⟨⟨0, 0⟩, e.1.value⟩ hkey (by
    intro x hx hlt
    rcases hlt with hlt | ⟨hv, hlt⟩
    · exact .inl hlt
    · have := hval x (tp.mem_iff.1 hx) e (tp.mem_iff.1 he) hv
      subst this
      exact absurd (Or.inr ⟨rfl, hlt⟩) (KeyLt.irrefl x.1))

/-- C46 is violated in every index of more than one page whose values are all different and whose data pointers are not
zero: there is a stored value for which `==` returns nothing. -/
theorem C46_eq_violated (hw : SmallWidths wd) (h : IndexRun parse wd data i s fm is c) (hwm : wd m.width = m.width)
    (hk : is[k]? = some (p, m)) (hbig : 4096 < leafBytes m.width (c k))
    (hval : ∀ e ∈ c k, ∀ e' ∈ c k, e.1.value = e'.1.value → e = e') (hdp : ∀ e ∈ c k, e.1.dp ≠ ⟨0, 0⟩) :
    ∃ e ∈ c k, ∀ {β : Type} (db : TsDb) (q : TsQuery) (select : Bytes → Res β),
      Served parse data s fm is c db q .eq e.1.value k p m → Returns db select q ⟨[], none⟩ := by
  obtain ⟨e, he, it, s', hn⟩ := missed hw h hwm hk hbig hval hdp
  refine ⟨e, he, fun {β} db q select hs => ?_⟩
  obtain ⟨xs, on, _, g2, ⟨it', s'', g3⟩, _⟩ := C46_eq_partial hw h hwm hs select
  rw [hn] at g3
  cases g3
  exact g2

/-- C47: `field < v` and `field <= v` in descending order return exactly the records in the range, in order.
`field >= v` and `field > v` in ascending order return these, or nothing at all; nothing exactly if `Next` of the writer's
iterator from the start key reports the end.  Missing: this case (`C47_ge_violated`), and the other orders. -/
theorem C47_below_desc_partial (hw : SmallWidths wd) (h : IndexRun parse wd data i s fm is c) (hwm : wd m.width = m.width)
    (hs : Served parse data s fm is c db q op v k p m) (hop : op = .lt ∨ op = .le) (hd : q.dir = .desc) (select : Bytes → Res β) :
    ∃ xs, Answer (c k) op v .desc xs ∧ Returns db select q (rowsOf data select xs) := by
  obtain ⟨tt, free, es, ps, ho, hperm, hne, hrun, _⟩ := hs.tree hw h hwm select
  obtain ⟨xs, h1, h2⟩ := ho.clause_desc (row := tsRow tt select) hne hop v
  exact ⟨xs, h1.perm hperm, hrun xs (fun e he => ((h1.1 e).1 he).1) (by rw [hd]; exact h2)⟩

/-- C47, `>=` ascending: the records in the range in order, or nothing. -/
theorem C47_ge_asc_partial (hw : SmallWidths wd) (h : IndexRun parse wd data i s fm is c) (hwm : wd m.width = m.width)
    (hs : Served parse data s fm is c db q .ge v k p m) (hd : q.dir = .asc) (select : Bytes → Res β) :
    ∃ (xs : List (RV × MemPtr)) (on : Bool), Answer (c k) .ge v .asc xs ∧
      Returns db select q (rowsOf data select (if on then xs else [])) ∧
      (∃ it s', (iter ⟨⟨0, 0⟩, v⟩).next (treeAt data parse m.width p) s = (.ok (on, it), s')) ∧
      ((∀ e ∈ c k, ¬ List.Lex (· < ·) e.1.value v) → on = true) := by
  obtain ⟨xs, on, h1, h2, h3, _, h4⟩ := query_forward hw h hwm hs (.inr (.inl ⟨rfl, hd⟩)) select
  exact ⟨xs, on, h1, h2, h3, fun h5 => h4 (fun e he hlt => h5 e he ((lt_lowKey e.1 v).1 hlt))⟩

/-- C47, `>` ascending: the records in the range in order, or nothing. -/
theorem C47_gt_asc_partial (hw : SmallWidths wd) (h : IndexRun parse wd data i s fm is c) (hwm : wd m.width = m.width)
    (hs : Served parse data s fm is c db q .gt v k p m) (hd : q.dir = .asc) (select : Bytes → Res β) :
    ∃ (xs : List (RV × MemPtr)) (on : Bool), Answer (c k) .gt v .asc xs ∧
      Returns db select q (rowsOf data select (if on then xs else [])) ∧
      (∃ it s', (iter ⟨⟨18446744073709551615, 0⟩, v⟩).next (treeAt data parse m.width p) s = (.ok (on, it), s')) := by
  obtain ⟨xs, on, h1, h2, h3, _, h4⟩ := query_forward hw h hwm hs (.inr (.inr ⟨rfl, hd⟩)) select
  exact ⟨xs, on, h1, h2, h3⟩

/-- C47, `>=` and `>` ascending, for indexes of one page: exactly the records in the range, in order. -/
theorem C47_above_asc_one_page_partial (hw : SmallWidths wd) (h : IndexRun parse wd data i s fm is c) (hwm : wd m.width = m.width)
    (hs : Served parse data s fm is c db q op v k p m) (hop : op = .ge ∨ op = .gt) (hd : q.dir = .asc)
    (h1 : leafBytes m.width (c k) ≤ 4096) (select : Bytes → Res β) :
    ∃ xs, Answer (c k) op v .asc xs ∧ Returns db select q (rowsOf data select xs) := by
  obtain ⟨xs, on, g1, g2, _, g3, _⟩ := query_forward hw h hwm hs
    (hop.elim (fun h => .inr (.inl ⟨h, hd⟩)) (fun h => .inr (.inr ⟨h, hd⟩))) select
  rw [g3 h1] at g2
  exact ⟨xs, g1, g2⟩

/-- C47, `<` and `<=` ascending, for indexes of more than one page: exactly the records in the range, in order.
Missing: indexes of one page (`C47_below_asc_violated`). -/
theorem C47_below_asc_partial (hw : SmallWidths wd) (h : IndexRun parse wd data i s fm is c) (hwm : wd m.width = m.width)
    (hs : Served parse data s fm is c db q op v k p m) (hop : op = .lt ∨ op = .le) (hd : q.dir = .asc)
    (hbig : 4096 < leafBytes m.width (c k)) (select : Bytes → Res β) :
    ∃ xs, Answer (c k) op v .asc xs ∧ Returns db select q (rowsOf data select xs) := by
  obtain ⟨tt, free, es, ps, ho, hperm, hne, hrun, _⟩ := hs.tree hw h hwm select
  obtain ⟨xs, h1, h2⟩ := ho.clause_first (row := tsRow tt select)
    (show pageSize < leafBytes m.width es by rw [leafBytes_perm hperm]; exact hbig) hop v
  exact ⟨xs, h1.perm hperm, hrun xs (fun e he => ((h1.1 e).1 he).1) (by rw [hd]; exact h2)⟩

/-- C47, what orders the rows: the direction of the first `orderBy` entry, and ascending order without `orderBy`.  (`<` and
`<=`; ascending order for indexes of more than one page.) -/
theorem C47_order_partial (hw : SmallWidths wd) (h : IndexRun parse wd data i s fm is c) (hwm : wd m.width = m.width)
    (hs : Served parse data s fm is c db q op v k p m) (hop : op = .lt ∨ op = .le) {d : TsDir}
    (hord : (q.orderBy = none ∧ d = .asc) ∨ ∃ f rest, q.orderBy = some ((f, d) :: rest))
    (hbig : d = .asc → 4096 < leafBytes m.width (c k)) (select : Bytes → Res β) :
    ∃ xs, Answer (c k) op v d xs ∧ Returns db select q (rowsOf data select xs) := by
  have hd : q.dir = d := by
    rcases hord with ⟨h1, rfl⟩ | ⟨f, rest, h1⟩
    · unfold TsQuery.dir; rw [h1]
    · unfold TsQuery.dir; rw [h1]
  cases d with
  | asc => exact C47_below_asc_partial hw h hwm hs hop hd (hbig rfl) select
  | desc => exact C47_below_desc_partial hw h hwm hs hop hd select

/-- C47 is violated by every index of more than one page whose values are all different and whose data pointers are not
zero: there is a stored value `v` for which `field >= v`, ascending, returns nothing. -/
theorem C47_ge_violated (hw : SmallWidths wd) (h : IndexRun parse wd data i s fm is c) (hwm : wd m.width = m.width)
    (hk : is[k]? = some (p, m)) (hbig : 4096 < leafBytes m.width (c k))
    (hval : ∀ e ∈ c k, ∀ e' ∈ c k, e.1.value = e'.1.value → e = e') (hdp : ∀ e ∈ c k, e.1.dp ≠ ⟨0, 0⟩) :
    ∃ e ∈ c k, ∀ {β : Type} (db : TsDb) (q : TsQuery) (select : Bytes → Res β), q.dir = .asc →
      Served parse data s fm is c db q .ge e.1.value k p m → Returns db select q ⟨[], none⟩ := by
  obtain ⟨e, he, it, s', hn⟩ := missed hw h hwm hk hbig hval hdp
  refine ⟨e, he, fun {β} db q select hd hs => ?_⟩
  obtain ⟨xs, on, _, g2, ⟨it', s'', g3⟩, _⟩ := C47_ge_asc_partial hw h hwm hs hd select
  rw [hn] at g3
  cases g3
  exact g2

/-- C47 is violated by every index of more than one page: `field >= v` and `field > v` in descending order never return
the record of the greatest entry, and `field > v` returns the records with value `v` in addition. -/
theorem C47_above_desc_violated (hw : SmallWidths wd) (h : IndexRun parse wd data i s fm is c) (hwm : wd m.width = m.width)
    (hs : Served parse data s fm is c db q op v k p m) (hop : op = .gt ∨ op = .ge) (hd : q.dir = .desc)
    (hbig : 4096 < leafBytes m.width (c k)) (select : Bytes → Res β) :
    ∃ top ∈ c k, (∀ e ∈ c k, e ≠ top → KeyLt e.1 top.1) ∧
      ∃ xs, (∀ e, e ∈ xs ↔ e ∈ c k ∧ e ≠ top ∧ Matches .ge e.1.value v) ∧ Ordered .desc xs ∧
        Returns db select q (rowsOf data select xs) := by
  obtain ⟨tt, free, es, ps, ho, hperm, hne, hrun, _⟩ := hs.tree hw h hwm select
  obtain ⟨xs, h1, h2⟩ := ho.clause_last (row := tsRow tt select)
    (show pageSize < leafBytes m.width es by rw [leafBytes_perm hperm]; exact hbig) hop v
  have hasc := ho.is.asc
  have hsplit : es = es.dropLast ++ [es.getLast hne] := (List.dropLast_concat_getLast hne).symm
  generalize hi : es.dropLast = ini at *
  generalize hl : es.getLast hne = top at *
  have hlt : ∀ e ∈ ini, KeyLt e.1 top.1 := by
    rw [hsplit] at hasc
    intro e he
    exact (List.pairwise_append.1 hasc).2.2 e he top (by simp)
  have hmem : ∀ e, e ∈ ini ↔ e ∈ c k ∧ e ≠ top := by
    intro e
    rw [← hperm.mem_iff, hsplit, List.mem_append, List.mem_singleton]
    constructor
    · intro he
      exact ⟨.inl he, by rintro rfl; exact KeyLt.irrefl _ (hlt e he)⟩
    · rintro ⟨h | h, h2⟩
      · exact h
      · exact absurd h h2
  refine ⟨top, hperm.mem_iff.1 (by rw [hsplit]; simp), fun e he hne => hlt e ((hmem e).2 ⟨he, hne⟩), xs, fun e => ?_, h1.2, ?_⟩
  · rw [h1.1 e, hmem e, and_assoc]
  · refine hrun xs (fun e he => ?_) (by rw [hd]; exact h2)
    rw [hsplit]; exact List.mem_append_left _ ((h1.1 e).1 he).1

/-- C47 is violated by an index of one page whose least entry has its record at the start of the data file: `field < v`
and `field <= v` in ascending order throw "empty node" instead of returning the records.  (The client takes the record
pointer for the pointer of a page, and reads the free page list.  That list starts with zeros unless pages were
freed.) -/
theorem C47_below_asc_violated (hw : SmallWidths wd) (h : IndexRun parse wd data i s fm is c) (hwm : wd m.width = m.width)
    (hs : Served parse data s fm is c db q op v k p m) (hop : op = .lt ∨ op = .le) (hd : q.dir = .asc)
    (h1 : leafBytes m.width (c k) ≤ 4096) {e : RV × MemPtr} (he : e ∈ c k) (hlow : ∀ x ∈ c k, x ≠ e → KeyLt e.1 x.1)
    (he0 : e.2.offset = 0) (h0 : s.file.bytes.take 4 = [0, 0, 0, 0]) (select : Bytes → Res β) :
    Returns db select q ⟨[], some (.msg "empty node")⟩ := by
  obtain ⟨tt, free, es, ps, ho, hperm, hne, _, hrun⟩ := hs.tree hw h hwm select
  refine hrun _ (fun depth fl hdep _ => ?_)
  have hfirst : tt.first depth = .err (.msg "empty node") := by
    obtain ⟨hh, off, n, path, p, hf, hr, hn, hof, hb, _, _⟩ := init_path ho.is hne minKey
    have hroot := ho.root_ok hr hn hof
    have hz : hh = 0 := by
      by_cases hc : hh = 0
      · exact hc
      · have := hb hc
        change pageSize < leafBytes m.width es at this
        rw [leafBytes_perm hperm] at this
        unfold pageSize at this; omega
    subst hz
    obtain ⟨hsh, hes⟩ := hr.leafEntries hn
    have hpos : 0 < es.length := List.length_pos_iff.2 hne
    have hlen : es.length = n.leafPtrs.length := by rw [hes, List.length_zip, hsh.1]; omega
    have hfst : es[0] = e := by
      by_cases hc : es[0] = e
      · exact hc
      · exfalso
        have h2 := hlow _ (hperm.mem_iff.1 (List.getElem_mem hpos)) hc
        obtain ⟨j, hj, hje⟩ := List.mem_iff_getElem.1 (hperm.mem_iff.2 he)
        have hj0 : 0 < j := by
          rcases Nat.eq_zero_or_pos j with h | h
          · subst h; exact absurd hje hc
          · exact h
        have h3 := List.pairwise_iff_getElem.1 ho.is.asc 0 j hpos hj hj0
        rw [hje] at h3
        exact KeyLt.irrefl _ (h2.trans h3)
    have hptr : n.leafPtrs[0]? = some e.2 := by
      have : (n.keys.zip n.leafPtrs)[0]? = some e := by rw [← hes, List.getElem?_eq_getElem hpos, hfst]
      obtain ⟨_, h4⟩ := List.getElem?_zip_eq_some.1 this
      exact h4
    have hleaf : n.ts.leaf = true := by
      rw [Node.ts_leaf]
      unfold Node.leaf
      simp only [decide_eq_true_eq]; omega
    have hpt : n.ts.pointer 0 = some ⟨0, e.2.length.toNat⟩ := by
      unfold TsNode.pointer
      rw [if_neg (by omega), hleaf]
      simp only [if_true, Node.ts, Int.toNat_zero, List.getElem?_map, hptr, Option.map_some, MemPtr.ts, he0]
      rfl
    have hB : 4096 ≤ s.file.bytes.length := by
      have := ho.is.slotInside
      have := hn.inside
      unfold pageSize at this; omega
    obtain ⟨d, rfl⟩ : ∃ d, depth = d + 1 := ⟨depth - 1, by have : 0 < fuel s := Nat.succ_pos _; omega⟩
    unfold TsTree.first
    rw [hroot]
    simp only [Res.bind_ok]
    have hread : tt.readNode (n.ts.pointer 0) = .err (.msg "empty node") := by
      rw [hpt]
      unfold TsTree.readNode
      simp only
      rw [ho.view.idx.one (by omega) (by omega) (by omega)]
      simp only [Res.bind_ok]
      have hsl : slice s.file.bytes (0 : Int).toNat ((0 : Int) + 4096 - 1 + 1 - 0).toNat = s.file.bytes.take 4096 := by
        rw [show ((0 : Int) + 4096 - 1 + 1 - 0).toNat = 4096 by omega]
        unfold slice
        rw [Int.toNat_zero, List.drop_zero]
      rw [hsl]
      unfold tsUnmarshal
      rw [if_neg (by rw [List.length_take]; omega)]
      have : leNat ((s.file.bytes.take 4096).take 4) = 0 := by
        rw [List.take_take, show min 4 4096 = 4 by omega, h0]; rfl
      simp only [this, if_true]
    unfold TsTree.descend
    rw [hread]
    rfl
  rcases hop with rfl | rfl
  · rw [hd]; simp only [tsClause, hfirst, tsScanFrom]
  · rw [hd]; simp only [tsClause, hfirst, tsScanFrom]

/-! ### C48: several conditions, limit -/

/-- C48 is violated: the limit of a query has no influence. -/
theorem C48_limit_violated (fuel : Nat) (select : Bytes → Res β) (q : TsQuery) (n : Nat) :
    db.query fuel select { q with limit := some n } = db.query fuel select q := rfl

/-- C48: a query with conditions on two fields is refused. -/
theorem C48_two_fields_refused (fuel : Nat) (select : Bytes → Res β) (q : TsQuery) (w w' : TsWhere) (ws : List TsWhere)
    (hq : q.where_ = w :: ws) (hw : w' ∈ ws) (hk : w'.key ≠ w.key) :
    ∃ m, db.query fuel select q = ⟨[], some (.msg m)⟩ := by
  unfold TsDb.query
  rw [hq]
  simp only
  rw [if_pos]
  · exact ⟨_, rfl⟩
  · rw [List.any_eq_true]
    exact ⟨w', hw, by simpa using hk⟩

/-- C48 is violated: a query with several conditions on one field returns the results of the first condition followed
by those of the others, not those that satisfy all. -/
theorem C48_conjunction_violated (fuel : Nat) (select : Bytes → Res β) (q : TsQuery) (w w' : TsWhere) (ws : List TsWhere)
    (hq : q.where_ = w :: w' :: ws) (hk : ∀ x ∈ w' :: ws, x.key = w.key) :
    db.query fuel select q = (db.query fuel select { q with where_ := [w] }).andThen
      (db.query fuel select { q with where_ := w' :: ws }) := by
  have h1 : (w' :: ws).any (fun x => x.key != w.key) = false := by
    rw [List.any_eq_false]; intro x hx; simp [hk x hx]
  have h2 : ws.any (fun x => x.key != w'.key) = false := by
    rw [List.any_eq_false]; intro x hx; simp [hk x (by simp [hx]), hk w' (by simp)]
  unfold TsDb.query
  rw [hq]
  simp only [h1, h2, List.any_nil, Bool.false_eq_true, if_false]
  have hdir : TsQuery.dir { q with where_ := [w] } = q.dir := rfl
  have hdir' : TsQuery.dir { q with where_ := w' :: ws } = q.dir := rfl
  rw [hdir, hdir']
  generalize tsFileMetadata db.idx = a
  generalize tsIndexHeaders db.idx fuel = b
  cases a <;> cases b <;> simp only [TsRows.andThen]
  rename_i fm hs
  simp only [TsDb.clauses]
  cases db.clauseTree fuel fm hs w with
  | err e => rfl
  | panic => rfl
  | ok x =>
    simp only []
    generalize tsClause x.1 fuel fuel (tsRow x.1 select) w.op q.dir x.2 = r
    obtain ⟨r1, r2⟩ := r
    unfold TsRows.andThen
    cases r2 with
    | none => simp
    | some e => rfl

/-- C48 is violated, in terms of the rows: first those of the first condition, and then, unless that throws, those of the
remaining conditions. -/
theorem C48_rows_violated (fuel : Nat) (select : Bytes → Res β) (q : TsQuery) (w w' : TsWhere) (ws : List TsWhere)
    (hq : q.where_ = w :: w' :: ws) (hk : ∀ x ∈ w' :: ws, x.key = w.key) (a b : TsRows β)
    (ha : db.query fuel select { q with where_ := [w] } = a) (hb : db.query fuel select { q with where_ := w' :: ws } = b) :
    (a.fail = none → (db.query fuel select q).rows = a.rows ++ b.rows ∧ (db.query fuel select q).fail = b.fail) ∧
    (∀ e, a.fail = some e → (db.query fuel select q).rows = a.rows ∧ (db.query fuel select q).fail = some e) := by
  rw [C48_conjunction_violated fuel select q w w' ws hq hk, ha, hb]
  unfold TsRows.andThen
  constructor
  · intro h; rw [h]; exact ⟨rfl, rfl⟩
  · intro e h; rw [h]; exact ⟨rfl, rfl⟩

end Appendable
