import Verif.Props.Fails
import Verif.Props.Midway
/-! C115: a client of an index file that is cut short. -/
namespace Appendable
open Spec Tree

variable {β : Type}

/-- C115 (partial: the server refuses requests for bytes that it does not have): a query on files that are cut short gives the rows that it gives
on the whole files, or the first of them and then an exception. -/
theorem C115_refused_partial {S : Type} (n m : Nat) (db : TsDb) (A : ScoreArith S) (lower : JsString → JsString) (rand : Nat → Nat) (fuel : Nat)
    (select : Bytes → Res β) (q : JsAsk) :
    SameOrCut ((cutDb n m db).ask A lower rand fuel select q) (db.ask A lower rand fuel select q) := by
  have h : ∀ (n : Nat) (r : Resolver), Fails (upTo n r) r := by
    intro n r ranges
    unfold upTo
    split
    · exact .inl rfl
    · exact .inr ⟨_, rfl⟩
  exact C114_ask (db' := cutDb n m db) (db := db) ⟨h n db.idx, h m db.dat, rfl⟩ A lower rand fuel select q

theorem slice_cut {B : Bytes} {n p k : Nat} (h : p + k ≤ n) : slice (B.take n) p k = slice B p k := by
  unfold slice
  rw [List.drop_take, List.take_take, Nat.min_eq_left (by omega)]

theorem MetaInv.cut {B : Bytes} {ps : List Nat} {cnt n : Nat} {ds : List Bytes} (h : MetaInv B ps cnt ds) (hn : ∀ p ∈ ps, p + pageSize ≤ n)
    (hb : n ≤ B.length) : MetaInv (B.take n) ps cnt ds := by
  have hl : (B.take n).length = n := by rw [List.length_take]; omega
  have hsm := h.pages.small
  refine ⟨⟨fun p hp => ?_, by omega⟩, h.nodup, h.first, h.cle, h.cpos, ?_, h.len, ?_, ?_⟩
  · obtain ⟨h1, h2, h3⟩ := h.pages.page p hp
    exact ⟨h1, h2, by rw [hl]; exact hn p hp⟩
  · exact h.chain.of_same fun p hp => slice_cut (by have := hn p hp; unfold pageSize at this; omega)
  · intro k x d hx hd
    obtain ⟨h1, h2⟩ := h.md k x d hx hd
    refine ⟨h1, ?_⟩
    unfold MdAt at *
    obtain ⟨p, i⟩ := x
    obtain ⟨m1, m2, _⟩ := places_mem (List.mem_of_getElem? hx) h.cle
    have := hn p m1
    rw [← h2]
    exact slice_cut (by unfold slotPos pageSize at *; simp only; omega)
  · rw [← h.zero]
    have := hn _ (lastPg_mem h.ne)
    have := h.cle
    exact slice_cut (by unfold slotPos pageSize at *; omega)

theorem places_page {cnt : Nat} (h : 1 ≤ cnt) : ∀ {ps : List Nat} {p : Nat}, p ∈ ps → (p, 0) ∈ places ps cnt
  | [q], p, hp => by
    have : p = q := by simpa using hp
    subst this
    unfold places
    exact List.mem_map.2 ⟨0, by rw [List.mem_range'_1]; omega, rfl⟩
  | q :: q' :: r, p, hp => by
    unfold places
    rcases List.mem_cons.1 hp with rfl | hp
    · exact List.mem_append_left _ (List.mem_map.2 ⟨0, by rw [List.mem_range'_1]; omega, rfl⟩)
    · exact List.mem_append_right _ (places_page h hp)

/-! ### The first four bytes of a leaf -/

theorem readKey_end {w : Nat} (hw : w ≠ 0) {buf : Bytes} (hb : buf.length = 4) : tsReadKey w buf 4 = (⟨⟨0, 0⟩, []⟩, 4) := by
  have hd : buf.drop 4 = [] := List.drop_eq_nil_of_le (by omega)
  have hs : jsSliceFrom buf 4 = [] := by
    unfold jsSliceFrom jsIndex
    rw [if_neg (by omega), hb]
    exact hd
  have hv : jsSlice buf 4 (4 + (w : Int) - 1) = [] := by
    unfold jsSlice
    have : jsIndex buf.length 4 = 4 := by unfold jsIndex; rw [if_neg (by omega), hb]; rfl
    rw [this, hd, List.take_nil]
  have hu : tsUvarint [] = (0, 0) := by decide
  unfold tsReadKey tsReadPtr
  simp only [hs, hu, if_neg hw, Int.add_zero, hv, List.length_nil]
  rfl

theorem readPtr_end {buf : Bytes} (hb : buf.length = 4) : tsReadPtr buf 4 = (⟨0, 0⟩, 4) := by
  have hs : jsSliceFrom buf 4 = [] := by
    unfold jsSliceFrom jsIndex
    rw [if_neg (by omega), hb]
    exact List.drop_eq_nil_of_le (by simp only [hb]; omega)
  have hu : tsUvarint [] = (0, 0) := by decide
  unfold tsReadPtr
  simp only [hs, hu, Int.add_zero]

theorem readMany_const {α : Type} {read : Bytes → Int → α × Int} {buf : Bytes} {a : α} (h : read buf 4 = (a, 4)) :
    ∀ n, tsReadMany read buf n 4 = (List.replicate n a, 4)
  | 0 => rfl
  | n + 1 => by
    unfold tsReadMany
    rw [h]
    simp only [readMany_const h n, List.replicate_succ]

theorem unmarshal_header {dat : Resolver} {parse : Bytes → Res Bytes} {w n : Nat} (hw : w ≠ 0) (h0 : 0 < n) (h1 : n < 2 ^ 31) :
    tsUnmarshal dat parse w (leBytes 4 (2 ^ 32 - n)) = .ok ⟨List.replicate n ⟨⟨0, 0⟩, []⟩, List.replicate n ⟨0, 0⟩, []⟩ := by
  have hl : (leBytes 4 (2 ^ 32 - n)).length = 4 := by simp
  unfold tsUnmarshal
  rw [if_neg (by omega), List.take_of_length_le (by omega), leNat_leBytes 4 _ (by omega)]
  simp only
  rw [if_neg (by omega)]
  have hd : decide (2 ^ 32 - n > 2147483647) = true := by
    rw [decide_eq_true_eq]; omega
  simp only [hd, if_true, show 2 ^ 32 - (2 ^ 32 - n) = n by omega]
  rw [readMany_const (readKey_end hw hl) n]
  simp only [tsFetch, if_neg hw, Res.bind_ok, Res.pure_eq, readMany_const (readPtr_end hl) n]

theorem compare_empty {v : Bytes} (hv : v ≠ []) (d d' : TsPtr) : tsCompareRV ⟨d, []⟩ ⟨d', v⟩ < 0 := by
  cases v with
  | nil => exact absurd rfl hv
  | cons x v =>
    have : tsCompareBytes [] (x :: v) = -1 := by
      unfold tsCompareBytes
      simp [tsCompareBytesAux]
    unfold tsCompareRV
    simp only [this]
    rw [if_pos (by decide)]
    decide

theorem search_blank {v : Bytes} (hv : v ≠ []) (d : TsPtr) (n : Nat) :
    tsBinarySearch (List.replicate n ⟨⟨0, 0⟩, []⟩) ⟨d, v⟩ = (n, false) := by
  unfold tsBinarySearch
  have : bsearchLoop tsCompareRV (List.replicate n (⟨⟨0, 0⟩, []⟩ : TsRV)) ⟨d, v⟩ (List.replicate n (⟨⟨0, 0⟩, []⟩ : TsRV)).length 0
      (List.replicate n (⟨⟨0, 0⟩, []⟩ : TsRV)).length = n := by
    apply bsearchLoop_spec tsCompareRV _ _ n
    · intro i hi _
      rw [List.getElem_replicate]
      exact compare_empty hv _ _
    · intro i hi hc
      rw [List.length_replicate] at hi
      omega
    · omega
    · rw [List.length_replicate]; omega
    · omega
    · omega
  rw [this]
  simp

/-- A client that gets only the header of the root leaf finds nothing, and notices nothing. -/
theorem header_scan {t : TsTree} {n : Nat} (h0 : 0 < n) (hr : t.root = .ok ⟨List.replicate n ⟨⟨0, 0⟩, []⟩, List.replicate n ⟨0, 0⟩, []⟩) {op : TsOp} {ord : TsDir}
    (hop : op = .eq ∨ (op = .ge ∧ ord = .asc) ∨ (op = .gt ∧ ord = .asc)) {v : Bytes} (hv : v ≠ []) (row : TsPtr → Res β) (depth fuel : Nat) :
    tsClause t (depth + 1) (fuel + 1) row op ord v = ⟨[], none⟩ := by
  have key : ∀ (d : TsPtr) (stop : Bytes → Bool), tsScanFrom t (depth + 1) row true stop (fuel + 1) (.ok ⟨d, v⟩) = ⟨[], none⟩ := by
    intro d stop
    have hl : (⟨List.replicate n ⟨⟨0, 0⟩, []⟩, List.replicate n ⟨0, 0⟩, []⟩ : TsNode).leaf = true := by
      unfold TsNode.leaf; simpa using h0
    have hi : t.initRecords (depth + 1) ⟨d, v⟩ = .ok [⟨⟨List.replicate n ⟨⟨0, 0⟩, []⟩, List.replicate n ⟨0, 0⟩, []⟩, n⟩] := by
      unfold TsTree.initRecords
      rw [hr]
      simp only [Res.bind_ok]
      unfold TsTree.traverse
      simp only [search_blank hv, hl, if_true]
    have hn : (tsIter ⟨d, v⟩).next t (depth + 1) = .ok (false, ⟨⟨d, v⟩, [⟨⟨List.replicate n ⟨⟨0, 0⟩, []⟩, List.replicate n ⟨0, 0⟩, []⟩, n⟩]⟩) := by
      unfold TsIter.next tsIter
      simp only [hi, Res.bind_ok, Res.pure_eq, TsNode.numPointers, List.length_nil, List.length_replicate]
      simp
    unfold tsScanFrom tsScan
    simp only [if_true, hn]
  rcases hop with rfl | ⟨rfl, rfl⟩ | ⟨rfl, rfl⟩
  · cases ord <;> (simp only [tsClause]; exact key _ _)
  · simp only [tsClause]; exact key _ _
  · simp only [tsClause]; exact key _ _

theorem page_span (a : Nat) : ((a : Int) + 4096 - 1 + 1 - (a : Int)).toNat = 4096 := by omega

/-! ### The whole client -/

variable {parse : Bytes → Bytes} {wd : UInt16 → UInt16} {data : Bytes} {i : IndexFile} {s : PF} {fm : FileMeta}
  {is : List (LP × IndexMeta)} {c : Nat → List (RV × MemPtr)} {k : Nat} {p : LP} {m : IndexMeta}

/-- C115 is violated if the server sends what it has (as HTTP servers do): let an index of one page, with the values inside of it, lie behind the
list of indexes.  If the index file is cut after the first four bytes of this page, every query `==` (and `>`, `>=` in ascending order) for a
value that is not empty returns no rows and throws no exception. -/
theorem C115_short_violated (hw : SmallWidths wd) (h : IndexRun parse wd data i s fm is c) (hwm : wd m.width = m.width) (hw0 : m.width ≠ 0)
    (hk : is[k]? = some (p, m)) (hne : c k ≠ []) (h1 : leafBytes m.width (c k) ≤ 4096) :
    ∃ off l, (p.root s).1 = .ok ⟨off, l⟩ ∧ off.toNat + 4096 ≤ s.file.bytes.length ∧ ((∀ x ∈ is, x.1.offset.toNat < off.toNat) →
      ∀ {β : Type} (db : TsDb) (q : TsQuery) (op : TsOp) (name : Bytes) (value : JsVal) (ft : Nat) (v : Bytes) (select : Bytes → Res β),
        Faithful db.idx (s.file.bytes.take (off.toNat + 4)) → q.where_ = [⟨name, op, value⟩] → tsProcessWhere value = some (ft, v) →
        Picks is name ft k p m → v ≠ [] → (op = .eq ∨ (op = .ge ∧ q.dir = .asc) ∨ (op = .gt ∧ q.dir = .asc)) →
        Returns db select q ⟨[], none⟩) := by
  obtain ⟨hi, _⟩ := indexRun_is hw h
  obtain ⟨free, ps, cnt, E, P, g1, g2, g3⟩ := hi.treeAt
  obtain ⟨ti, tw, tp⟩ := g1.forest.tree k _ (g3 k p m hk)
  simp only [hwm] at ti
  have hne0 : E k ≠ [] := by
    intro h0; rw [h0] at tp; exact hne (List.nil_perm.1 tp)
  -- the slot of the index
  have hsl : ((places ps cnt).tail.map slotAt)[k]? = some p := by rw [g2]; simp [hk]
  rw [List.getElem?_map] at hsl
  obtain ⟨x, hx, hxp⟩ := Option.map_eq_some_iff.1 hsl
  rw [List.getElem?_tail] at hx
  have hinv := g1.slots.inv
  obtain ⟨m1, m2, _⟩ := places_mem (p := x.1) (i := x.2) (List.mem_of_getElem? hx) hinv.cle
  have hat : AtSlot s.file.bytes p x.1 x.2 := hxp ▸ hinv.pages.atSlot m1 m2
  have hroot := lp_root_ok hat
  have hrp := hat.rootPos
  -- the root
  have hrd : (MemPtr.decode (slice s.file.bytes (treeAt data parse m.width p).rootPos 12)) = MemPtr.decode (slice s.file.bytes (slotPos x.1 x.2) 12) := by
    show MemPtr.decode (slice s.file.bytes p.rootPos.toNat 12) = _
    rw [hrp]
  rcases ti.root with ⟨_, h0, _⟩ | ⟨_, hh, hrep, hbig, _⟩
  · exact absurd h0 hne0
  rw [hrd] at hrep
  obtain ⟨off, l, hptr⟩ : ∃ off l, MemPtr.decode (slice s.file.bytes (slotPos x.1 x.2) 12) = ⟨off, l⟩ := ⟨_, _, rfl⟩
  rw [hptr] at hrep hroot
  have hh0 : hh = 0 := by
    apply Decidable.byContradiction
    intro hc
    have := hbig hc
    rw [leafBytes_perm tp] at this
    have h1' : leafBytes (treeAt data parse m.width p).cfg.width (c k) ≤ 4096 := h1
    unfold pageSize at this
    omega
  subst hh0
  obtain ⟨n, qs, hn, hps, hmem⟩ := hrep
  have hin : off.toNat + pageSize ≤ s.file.bytes.length := hn.inside
  have hoff : off.toNat % pageSize = 0 := hn.aligned
  refine ⟨off, l, by rw [hroot], by unfold pageSize at hin; exact hin, fun hlast {β} db q op name value ft v select hf hq hv hp hv0 hop => ?_⟩
  -- the meta pages are left
  have hpages : ∀ y ∈ ps, y + pageSize ≤ off.toNat + 4 := by
    have hc1 : 1 ≤ cnt := by
      obtain ⟨tl, _, _, hc1⟩ := hinv.firstMetaSlot
      exact hc1
    have hxoff : x.1 < off.toNat := by
      have := hlast _ (List.mem_of_getElem? hk)
      rw [hat.off] at this
      exact this
    have hx1 := (hinv.pages.page x.1 m1).2.1
    intro y hy
    have hy1 := hinv.pages.page y hy
    have hlt : y < off.toNat := by
      by_cases hyf : y = pageSize
      · omega
      · have hm := places_page hc1 hy
        obtain ⟨tl, htl, _, _⟩ := hinv.firstMetaSlot
        have : (y, 0) ∈ (places ps cnt).tail := by
          rw [htl] at hm ⊢
          rcases List.mem_cons.1 hm with he | hm
          · exact absurd (Prod.mk.inj he).1 hyf
          · exact hm
        have : slotAt (y, 0) ∈ is.map (·.1) := by rw [← g2]; exact List.mem_map.2 ⟨_, this, rfl⟩
        obtain ⟨z, hz1, hz2⟩ := List.mem_map.1 this
        have := hlast z hz1
        rw [hz2] at this
        have e : (slotAt (y, 0)).offset.toNat = y := hinv.pages.u64 hy
        omega
    have := hy1.1
    unfold pageSize at *
    omega
  have hcut : MetaInv (s.file.bytes.take (off.toNat + 4)) ps cnt (fm.bytes :: (is.map (·.2)).map IndexMeta.bytes) :=
    hinv.cut hpages (by unfold pageSize at hin; omega)
  obtain ⟨s', hs'⟩ : ∃ s' : PF, s'.file.bytes = s.file.bytes.take (off.toNat + 4) :=
    ⟨{ s with file := { s.file with bytes := s.file.bytes.take (off.toNat + 4) } }, rfl⟩
  have hms : MetaSt s' fm is := ⟨⟨ps, cnt, by rw [hs']; exact hcut, g2⟩, hi.2.1⟩
  refine ⟨is.length + 1, fun fuel hfu => ?_⟩
  rw [hms.tsQuery (by rw [hs']; exact hf) hq hv hp fuel (by omega)]
  obtain ⟨f, rfl⟩ : ∃ f, fuel = f + 1 := ⟨fuel - 1, by omega⟩
  have hkeys := hn.ok.1
  have hsmall := hn.ok.2.1
  have hshape : LeafShape n := (hmem.1 rfl).1
  refine header_scan (n := n.keys.length) hkeys ?_ hop hv0 _ f f
  -- the root that the client reads
  have hrt : p.ts.root db.idx = .ok ⟨off.toNat, l.toNat⟩ := by
    rw [(hms.tsIndex (by rw [hs']; exact hf) hk).2, hs', hrp, slice_cut, hptr]
    · rfl
    · have := hpages x.1 m1
      unfold slotPos pageSize at *
      omega
  unfold TsTree.root
  show ((p.ts.root db.idx).bind _) = _
  rw [hrt]
  show (clientTree db fm p m).readNode (some ⟨off.toNat, l.toNat⟩) = _
  unfold TsTree.readNode
  simp only
  have hlen : (s.file.bytes.take (off.toNat + 4)).length = off.toNat + 4 := by
    rw [List.length_take]; unfold pageSize at hin; omega
  have hone := hf.one (a := (off.toNat : Int)) (b := (off.toNat : Int) + 4096 - 1) (by omega) (by omega) (by rw [hlen]; omega)
  have hpage : slice (s.file.bytes.take (off.toNat + 4)) off.toNat 4096 = leBytes 4 (2 ^ 32 - n.keys.length) := by
    obtain ⟨rest, hr⟩ := hn.stored
    have e1 : slice (s.file.bytes.take (off.toNat + 4)) off.toNat 4096 = slice s.file.bytes off.toNat 4 := by
      unfold slice
      rw [List.drop_take, List.take_take]
      congr 1
      omega
    have e2 : slice s.file.bytes off.toNat 4 = (pageAt s.file.bytes off.toNat).take 4 := by
      unfold pageAt slice
      rw [List.take_take]
      rfl
    rw [e1, e2, hr]
    unfold Node.content
    simp only [List.append_assoc]
    rw [List.take_left' (by simp [encHeader])]
    unfold encHeader
    have hleaf : n.leaf = true := hshape.isLeaf hkeys
    have e3 : (2 ^ 32 - n.keys.length % 2 ^ 32) % 2 ^ 32 = 2 ^ 32 - n.keys.length := by omega
    rw [hleaf, if_pos rfl, e3]
  have e4 := page_span off.toNat
  rw [Int.toNat_natCast, e4, hpage] at hone
  show ((db.idx.one _ _).bind _) = _
  rw [hone]
  exact unmarshal_header (by
    intro hc
    apply hw0
    have hc' : m.width.toNat = 0 := hc
    exact UInt16.toNat_inj.1 (by simpa using hc')) hkeys hsmall

end Appendable
