import Verif.Lemmas.TsSim
import Verif.Model.TsQuery
/-! The loops of the client over a tree. -/
namespace Appendable
open Spec Tree

/-- A loop over a list of entries. -/
def scanList {β : Type} (row : TsPtr → Res β) (stop : Bytes → Bool) : List Entry → TsRows β
  | [] => ⟨[], none⟩
  | e :: es =>
    if stop e.1.value then ⟨[], none⟩
    else match row e.2.ts with
      | .panic => ⟨[], some (.msg "panic")⟩
      | .err e => ⟨[], some e⟩
      | .ok b => ⟨b :: (scanList row stop es).rows, (scanList row stop es).fail⟩

/-- The client's iterator with these records stands at position `i`. -/
def TsAt (tt : TsTree) (t : Tree) (s : PF) (tit : TsIter) (es : List Entry) (i : Nat) (on : Bool) : Prop :=
  ∃ h off path, tit.records = path.map TRec.ts ∧ RecsOK tt t.cfg s.file.bytes 0 path ∧
    Cur t.cfg s.file.bytes h off es path i on

theorem TsAt.entry {tt t s tit es i} (h : TsAt tt t s tit es i true) :
    ∃ e, es[i]? = some e ∧ tit.getKey = some e.1.ts ∧ tit.getPointer = some e.2.ts := by
  obtain ⟨h, off, path, h1, h2, h3⟩ := h
  obtain ⟨r, rest, j, k, v, rfl, h5, h6, h7, h8⟩ := h3.entry rfl
  refine ⟨(k, v), h8, ?_, ?_⟩
  · unfold TsIter.getKey
    rw [h1]
    simp only [List.map_cons, TRec.ts, h5]
    rw [if_neg (by omega)]
    simp [Node.ts, h6]
  · unfold TsIter.getPointer
    rw [h1]
    simp only [List.map_cons, TRec.ts, h5, Node.ts_pointer, h7]
    rfl

theorem TsAt.lt {tt t s tit es i} (h : TsAt tt t s tit es i true) : i < es.length := by
  obtain ⟨_, _, _, _, _, h3⟩ := h
  exact h3.le.2 rfl

theorem TsAt.next {tt t s tit es i on} (h : TsAt tt t s tit es i on) (depth : Nat) :
    ((if on then i + 1 else i) < es.length → ∃ tit', tit.next tt depth = .ok (true, tit') ∧
      TsAt tt t s tit' es (if on then i + 1 else i) true) ∧
    (es.length ≤ (if on then i + 1 else i) → ∃ tit', tit.next tt depth = .ok (false, tit')) := by
  obtain ⟨h, off, path, h1, h2, h3⟩ := h
  obtain ⟨hA, hB⟩ := incr_next (t := t) (s := s) h3
  obtain ⟨b, rs', q, g1, g2, g3⟩ := incr_sim (t := t) (tt := tt) (delta := 1) path 0 s h2
  obtain ⟨r, rest, hpath⟩ := List.exists_cons_of_ne_nil h3.ne
  have hnext : tit.next tt depth = .ok (b, { tit with records := rs'.map TRec.ts }) := by
    rw [hpath] at g2 h1
    unfold TsIter.next
    rw [h1]
    simp only [List.map_cons] at g2 ⊢
    rw [g2]; rfl
  constructor
  · intro hlt
    obtain ⟨path', q', k1, k2⟩ := hA hlt
    have k1' := k1 []
    simp only [List.append_nil, g1, Prod.mk.injEq, Res.ok.injEq] at k1'
    obtain ⟨⟨rfl, rfl, _⟩, _⟩ := k1'
    exact ⟨_, hnext, h, off, rs', rfl, (g3 rfl).1, k2⟩
  · intro hge
    obtain ⟨⟨path', k1⟩, _⟩ := hB hge
    have k1' := k1 [] [] none s rfl
    simp only [List.append_nil, g1, Prod.mk.injEq, Res.ok.injEq] at k1'
    obtain ⟨⟨rfl, _, _⟩, _⟩ := k1'
    exact ⟨_, hnext⟩

theorem TsAt.prev {tt t s tit es i on} (h : TsAt tt t s tit es i on) (depth : Nat) :
    (1 ≤ i → ∃ tit', tit.prev tt depth = .ok (true, tit') ∧ TsAt tt t s tit' es (i - 1) true) ∧
    (i = 0 → ∃ tit', tit.prev tt depth = .ok (false, tit')) := by
  obtain ⟨h, off, path, h1, h2, h3⟩ := h
  obtain ⟨hA, hB⟩ := incr_prev (t := t) (s := s) h3
  obtain ⟨b, rs', q, g1, g2, g3⟩ := incr_sim (t := t) (tt := tt) (delta := -1) path 0 s h2
  obtain ⟨r, rest, hpath⟩ := List.exists_cons_of_ne_nil h3.ne
  have hnext : tit.prev tt depth = .ok (b, { tit with records := rs'.map TRec.ts }) := by
    rw [hpath] at g2 h1
    unfold TsIter.prev
    rw [h1]
    simp only [List.map_cons] at g2 ⊢
    rw [g2]; rfl
  constructor
  · intro hlt
    obtain ⟨path', q', k1, k2⟩ := hA hlt
    have k1' := k1 []
    simp only [List.append_nil, g1, Prod.mk.injEq, Res.ok.injEq] at k1'
    obtain ⟨⟨rfl, rfl, _⟩, _⟩ := k1'
    exact ⟨_, hnext, h, off, rs', rfl, (g3 rfl).1, k2⟩
  · intro hge
    obtain ⟨⟨path', k1⟩, _⟩ := hB hge
    have k1' := k1 [] [] none s rfl
    simp only [List.append_nil, g1, Prod.mk.injEq, Res.ok.injEq] at k1'
    obtain ⟨⟨rfl, _, _⟩, _⟩ := k1'
    exact ⟨_, hnext⟩

section
variable {β : Type} {tt : TsTree} {t : Tree} {s : PF} {es : List Entry} {row : TsPtr → Res β} {stop : Bytes → Bool}

theorem tsScan_true {forward : Bool} {depth fuel : Nat} {it it' : TsIter} {i : Nat} {rest : List Entry} {e : Entry}
    (h : (if forward then it.next tt depth else it.prev tt depth) = .ok (true, it')) (hat : TsAt tt t s it' es i true)
    (he : es[i]? = some e) (hrest : tsScan tt depth row forward stop fuel it' = scanList row stop rest) :
    tsScan tt depth row forward stop (fuel + 1) it = scanList row stop (e :: rest) := by
  obtain ⟨e', h1, h2, h3⟩ := hat.entry
  rw [he] at h1
  cases h1
  rw [tsScan, h]
  simp only [h2, h3]
  rw [scanList]
  show (if stop e.1.value = true then _ else _) = _
  split
  · rfl
  · rw [hrest]
    cases row e.2.ts <;> rfl

theorem tsScan_false {forward : Bool} {depth fuel : Nat} {it it' : TsIter}
    (h : (if forward then it.next tt depth else it.prev tt depth) = .ok (false, it')) :
    tsScan tt depth row forward stop (fuel + 1) it = scanList row stop [] := by
  rw [tsScan, h]; rfl

theorem tsScan_next (depth : Nat) : ∀ (n : Nat) {it : TsIter} {i fuel : Nat}, TsAt tt t s it es i true → es.length - i = n →
    n < fuel → tsScan tt depth row true stop fuel it = scanList row stop (es.drop (i + 1)) := by
  intro n
  induction n with
  | zero => intro it i fuel h hn _; have := h.lt; omega
  | succ n ih =>
    intro it i fuel h hn hf
    obtain ⟨fuel, rfl⟩ : ∃ f, fuel = f + 1 := ⟨fuel - 1, by omega⟩
    obtain ⟨hA, hB⟩ := h.next depth
    simp only [if_true] at hA hB
    by_cases hlt : i + 1 < es.length
    · obtain ⟨it', h1, h2⟩ := hA hlt
      rw [List.drop_eq_getElem_cons hlt]
      exact tsScan_true (forward := true) h1 h2 (List.getElem?_eq_getElem hlt) (ih h2 (by omega) (by omega))
    · obtain ⟨it', h1⟩ := hB (by omega)
      rw [List.drop_of_length_le (by omega)]
      exact tsScan_false (forward := true) h1

theorem tsScan_prev (depth : Nat) : ∀ (i : Nat) {it : TsIter} {on : Bool} {fuel : Nat}, TsAt tt t s it es i on →
    i < fuel → tsScan tt depth row false stop fuel it = scanList row stop (es.take i).reverse := by
  intro i
  induction i with
  | zero =>
    intro it on fuel h hf
    obtain ⟨fuel, rfl⟩ : ∃ f, fuel = f + 1 := ⟨fuel - 1, by omega⟩
    obtain ⟨it', h1⟩ := (h.prev depth).2 rfl
    simp only [List.take_zero, List.reverse_nil]
    exact tsScan_false (forward := false) h1
  | succ i ih =>
    intro it on fuel h hf
    obtain ⟨fuel, rfl⟩ : ∃ f, fuel = f + 1 := ⟨fuel - 1, by omega⟩
    obtain ⟨it', h1, h2⟩ := (h.prev depth).1 (by omega)
    rw [Nat.add_sub_cancel] at h2
    have hlt := h2.lt
    rw [List.take_succ_eq_append_getElem hlt, List.reverse_append, List.reverse_singleton, List.singleton_append]
    exact tsScan_true (forward := false) h1 h2 (List.getElem?_eq_getElem hlt) (ih h2 (by omega))

/-- The client's tree object for the tree `t`. -/
structure TsOf (tt : TsTree) (t : Tree) (s : PF) (free : List Nat) (es : List Entry) (ps : List Nat) : Prop where
  is : TreeIs t s free es ps
  view : TsView tt t.cfg s.file.bytes es
  root : tt.rootPtr = .ok (MemPtr.decode (slice s.file.bytes t.rootPos 12)).ts

variable {free : List Nat} {ps : List Nat}

theorem TsOf.root_ok (h : TsOf tt t s free es ps) {hh : Nat} {off : UInt64} {n : Node} (hr : Rep t.cfg s.file.bytes hh off none none es ps)
    (hn : NodeAt t.cfg s.file.bytes off n) (ho : off = (MemPtr.decode (slice s.file.bytes t.rootPos 12)).offset) : tt.root = .ok n.ts := by
  unfold TsTree.root
  rw [h.root]
  simp only [Res.bind_ok]
  subst ho
  exact hr.tsRead h.view (fun _ h => h) hn _

/-- The first positioning: as that of the Go code. -/
theorem TsOf.init (h : TsOf tt t s free es ps) (hne : es ≠ []) (key : RV) :
    ∃ path on, (∀ depth, fuel s ≤ depth → tt.initRecords depth key.ts = .ok (path.map TRec.ts)) ∧
      (∀ tit : TsIter, tit.records = path.map TRec.ts → TsAt tt t s tit es (rank es key) on) ∧
      (Hit t es key → on = true) ∧ (∃ it q, (iter key).next t s = (.ok (on, it), q)) ∧
      ∃ r rest, path = r :: rest ∧ decide (r.index ≠ r.node.numPointers) = on := by
  obtain ⟨hh, off, n, path, p, hf, hr, hn, ho, hbig, hpath, hrun⟩ := init_path h.is hne key
  have hroot := h.root_ok hr hn ho
  obtain ⟨on, c1, c2⟩ := hpath.cur hr (fun l hl => by cases hl) (fun l hl => by cases hl)
  obtain ⟨s1, s2⟩ := hpath.sim h.view hr (fun _ h => h) (fun l hl => by cases hl) (fun l hl => by cases hl) hn
  have s1' := s1 [] trivial
  rw [List.append_nil] at s1'
  refine ⟨path, on, fun depth hd => ?_, fun tit ht => ⟨hh, off, path, ht, s1', c1⟩, fun hh => hh.on hbig c1 c2, ?_, c1.head⟩
  · unfold TsTree.initRecords
    rw [hroot]
    simp only [Res.bind_ok]
    exact s2 depth (by omega)
  · obtain ⟨r, rest, g1, g2⟩ := c1.head
    refine ⟨⟨key, some path, none⟩, s.upd s.file.bytes p, ?_⟩
    unfold Iter.next
    simp only [iter] at hrun ⊢
    rw [Act.bind_ok hrun]
    simp only [if_true, g1]
    rw [g2]; rfl

/-- A forward loop from a key: everything from its rank on, or nothing (if the key falls behind the last entry of a
leaf). -/
theorem TsOf.forward (h : TsOf tt t s free es ps) (hne : es ≠ []) (key : RV) :
    ∃ on, (Hit t es key → on = true) ∧ (rank es key = 0 → on = true) ∧ (∃ it q, (iter key).next t s = (.ok (on, it), q)) ∧
      ∀ depth fl, fuel s ≤ depth → es.length + 1 < fl →
      tsScan tt depth row true stop fl (tsIter key.ts) = scanList row stop (if on then es.drop (rank es key) else []) := by
  obtain ⟨path, on, h1, h2, h3, hgo, r, rest, h4, h5⟩ := h.init hne key
  have h0 : rank es key = 0 → on = true := by
    intro hz
    obtain ⟨_, _, path', _, _, hc⟩ := h2 ⟨key.ts, path.map TRec.ts⟩ rfl
    exact hc.zero hz
  refine ⟨on, h3, h0, hgo, fun depth fl hd hf => ?_⟩
  have hnext : (tsIter key.ts).next tt depth = .ok (on, ⟨key.ts, path.map TRec.ts⟩) := by
    unfold TsIter.next tsIter
    simp only [h1 depth hd, Res.bind_ok, h4, List.map_cons, Res.pure_eq]
    rw [← h5]
    simp only [TRec.ts, Node.ts_numPointers]
  obtain ⟨fl, rfl⟩ : ∃ f, fl = f + 1 := ⟨fl - 1, by omega⟩
  have hat := h2 ⟨key.ts, path.map TRec.ts⟩ rfl
  cases on with
  | false => exact tsScan_false (forward := true) hnext
  | true =>
    have hlt := hat.lt
    rw [if_pos rfl, List.drop_eq_getElem_cons hlt]
    exact tsScan_true (forward := true) hnext hat (List.getElem?_eq_getElem hlt) (tsScan_next depth _ hat rfl (by omega))

/-- A backward loop from a key: everything before it. -/
theorem TsOf.backward (h : TsOf tt t s free es ps) (hne : es ≠ []) (key : RV) : ∀ depth fl, fuel s ≤ depth → es.length + 1 < fl →
      tsScan tt depth row false stop fl (tsIter key.ts) = scanList row stop (es.take (rank es key)).reverse := by
  obtain ⟨path, on, h1, h2, h3, hgo, r, rest, h4, h5⟩ := h.init hne key
  intro depth fl hd hf
  have hat := h2 ⟨key.ts, path.map TRec.ts⟩ rfl
  have hle : rank es key ≤ es.length := by obtain ⟨_, _, _, _, _, hc⟩ := hat; exact hc.le.1
  rw [← tsScan_prev depth _ hat (fuel := fl) (by omega)]
  obtain ⟨fl, rfl⟩ : ∃ f, fl = f + 1 := ⟨fl - 1, by omega⟩
  have : (tsIter key.ts).prev tt depth = (TsIter.mk key.ts (path.map TRec.ts)).prev tt depth := by
    unfold TsIter.prev tsIter
    simp only [h1 depth hd, Res.bind_ok]
    rw [h4]
    rfl
  rw [tsScan, tsScan]
  simp only [Bool.false_eq_true, if_false, this]

/-! ### first and last -/

theorem Rep.descend_first {cfg : Cfg} {B : Bytes} {h off lo hi es' qs n} (hv : TsView tt cfg B es) (hr : Rep cfg B (h + 1) off lo hi es' qs)
    (hs : ∀ e ∈ es', e ∈ es) (hn : NodeAt cfg B off n) : ∀ fl, h < fl → ∃ m k, tt.descend (fun _ => 0) fl n.ts = .ok m ∧
      m.keys[0]? = some (RV.ts k) ∧ ∃ v, es'[0]? = some (k, v) := by
  induction h generalizing off lo hi es' qs n with
  | zero =>
    intro fl hf
    obtain ⟨fl, rfl⟩ : ∃ f, fl = f + 1 := ⟨fl - 1, by omega⟩
    obtain ⟨hsh, L, hL, rfl⟩ := hr.family hn
    have hlen := hsh.1
    have hp0 : n.intPtrs[0]? = some n.intPtrs[0] := List.getElem?_eq_getElem (by omega)
    have he0 : L[0]? = some (L[0]'(by rw [hL.1]; omega)) := List.getElem?_eq_getElem _
    obtain ⟨lo0, hi0, ps0, hr0⟩ := hL.2 _ _ _ hp0 he0
    obtain ⟨nc, hnc⟩ := hr0.node
    have hfl : L.flatten = L[0]'(by rw [hL.1]; omega) ++ (L.drop 1).flatten := by simpa using flatten_split he0
    obtain ⟨hcs, hce⟩ := hr0.leafEntries hnc
    have hk := hnc.ok.1
    have hget : (L[0]'(by rw [hL.1]; omega))[0]? = some (nc.keys[0], nc.leafPtrs[0]'(by rw [hcs.1]; exact hk)) := by
      rw [hce, List.getElem?_eq_getElem (by rw [zip_length hcs]; exact hk), List.getElem_zip]
    refine ⟨nc.ts, nc.keys[0], ?_, by simp [Node.ts, List.getElem?_eq_getElem hk], nc.leafPtrs[0]'(by rw [hcs.1]; exact hk), ?_⟩
    · rw [TsTree.descend]
      have hptr := Node.ts_pointer n 0
      rw [pointer_internal hsh hp0] at hptr
      simp only [Int.natCast_zero] at hptr
      rw [hptr]
      simp only [Option.map_some]
      rw [show (MemPtr.mk n.intPtrs[0] 0).ts = ⟨(n.intPtrs[0].toNat : Int), 0⟩ from rfl]
      rw [hr0.tsRead hv (fun x hx => hs x (by rw [hfl]; simp [hx])) hnc 0]
      simp only [Res.bind_ok, Node.ts_leaf, hcs.isLeaf hk, if_true, Res.pure_eq]
    · rw [hfl, List.getElem?_append_left (by rw [hce, zip_length hcs]; exact hk)]
      exact hget
  | succ h ih =>
    intro fl hf
    obtain ⟨fl, rfl⟩ : ∃ f, fl = f + 1 := ⟨fl - 1, by omega⟩
    obtain ⟨hsh, L, hL, rfl⟩ := hr.family hn
    have hlen := hsh.1
    have hp0 : n.intPtrs[0]? = some n.intPtrs[0] := List.getElem?_eq_getElem (by omega)
    have he0 : L[0]? = some (L[0]'(by rw [hL.1]; omega)) := List.getElem?_eq_getElem _
    obtain ⟨lo0, hi0, ps0, hr0⟩ := hL.2 _ _ _ hp0 he0
    obtain ⟨nc, hnc⟩ := hr0.node
    have hfl : L.flatten = L[0]'(by rw [hL.1]; omega) ++ (L.drop 1).flatten := by simpa using flatten_split he0
    have hs' : ∀ x ∈ L[0]'(by rw [hL.1]; omega), x ∈ es := fun x hx => hs x (by rw [hfl]; simp [hx])
    obtain ⟨m, k, i1, i2, v, i3⟩ := ih hr0 hs' hnc fl (by omega)
    have hci := (hr0.family hnc).1.isLeaf
    refine ⟨m, k, ?_, i2, v, ?_⟩
    · rw [TsTree.descend]
      have hptr := Node.ts_pointer n 0
      rw [pointer_internal hsh hp0] at hptr
      simp only [Int.natCast_zero] at hptr
      rw [hptr]
      simp only [Option.map_some]
      rw [show (MemPtr.mk n.intPtrs[0] 0).ts = ⟨(n.intPtrs[0].toNat : Int), 0⟩ from rfl]
      rw [hr0.tsRead hv hs' hnc 0]
      simp only [Res.bind_ok, Node.ts_leaf, hci, Bool.false_eq_true, if_false]
      exact i1
    · rw [hfl, List.getElem?_append_left (by obtain ⟨hh, _⟩ := List.getElem?_eq_some_iff.1 i3; exact hh)]
      exact i3

theorem Rep.descend_last {cfg : Cfg} {B : Bytes} {h off lo hi es' qs n} (hv : TsView tt cfg B es) (hr : Rep cfg B (h + 1) off lo hi es' qs)
    (hs : ∀ e ∈ es', e ∈ es) (hn : NodeAt cfg B off n) : ∀ fl, h < fl →
    ∃ m k, tt.descend (fun n => (n.numPointers : Int) - 1) fl n.ts = .ok m ∧
      m.keys[m.keys.length - 1]? = some (RV.ts k) ∧ ∃ v, es'[es'.length - 1]? = some (k, v) := by
  have common : ∀ {h off lo hi es' qs n}, Rep cfg B (h + 1) off lo hi es' qs → (∀ e ∈ es', e ∈ es) → NodeAt cfg B off n →
      ∃ nc e q lo' hi' qs', Rep cfg B h q lo' hi' e qs' ∧ (∀ x ∈ e, x ∈ es) ∧ NodeAt cfg B q nc ∧ e ≠ [] ∧
        es'[es'.length - 1]? = e[e.length - 1]? ∧ tt.readNode (n.ts.pointer ((n.ts.numPointers : Int) - 1)) = .ok nc.ts := by
    intro h off lo hi es' qs n hr hs hn
    obtain ⟨hsh, L, hL, rfl⟩ := hr.family hn
    have hlen := hsh.1
    have hLl := hL.1
    obtain ⟨c, hc⟩ : ∃ c, c + 1 = n.intPtrs.length := ⟨n.keys.length, by omega⟩
    have hcL : c < L.length := by omega
    have hp0 : n.intPtrs[c]? = some (n.intPtrs[c]'(by omega)) := List.getElem?_eq_getElem _
    have he0 : L[c]? = some L[c] := List.getElem?_eq_getElem _
    obtain ⟨lo0, hi0, ps0, hr0⟩ := hL.2 _ _ _ hp0 he0
    obtain ⟨nc, hnc⟩ := hr0.node
    have hfl := flatten_split he0
    rw [List.drop_of_length_le (by omega), List.flatten_nil, List.append_nil] at hfl
    have hs' : ∀ x ∈ L[c], x ∈ es := fun x hx => hs x (by rw [hfl]; simp [hx])
    have hne : L[c] ≠ [] := hr0.nonempty
    have hpos := List.length_pos_iff.2 hne
    refine ⟨nc, L[c], _, lo0, hi0, ps0, hr0, hs', hnc, hne, ?_, ?_⟩
    · rw [hfl, List.length_append, List.getElem?_append_right (by omega)]
      congr 1; omega
    · have hnum : (n.ts.numPointers : Int) - 1 = (c : Nat) := by
        rw [Node.ts_numPointers, numPointers_internal hsh]; omega
      rw [hnum, Node.ts_pointer, pointer_internal hsh hp0]
      exact hr0.tsRead hv hs' hnc 0
  induction h generalizing off lo hi es' qs n with
  | zero =>
    intro fl hf
    obtain ⟨fl, rfl⟩ : ∃ f, fl = f + 1 := ⟨fl - 1, by omega⟩
    obtain ⟨nc, e, q, lo', hi', qs', hr0, hs', hnc, hne, hlast, hread⟩ := common hr hs hn
    obtain ⟨hcs, rfl⟩ := hr0.leafEntries hnc
    have hk := hnc.ok.1
    have hkl : nc.keys.length - 1 < nc.keys.length := by omega
    refine ⟨nc.ts, nc.keys[nc.keys.length - 1], ?_, ?_, nc.leafPtrs[nc.keys.length - 1]'(by rw [hcs.1]; exact hkl), ?_⟩
    · rw [TsTree.descend, hread]
      simp only [Res.bind_ok, Node.ts_leaf, hcs.isLeaf hk, if_true, Res.pure_eq]
    · simp [Node.ts, List.getElem?_eq_getElem hkl]
    · rw [hlast, zip_length hcs, List.getElem?_eq_getElem (by rw [zip_length hcs]; exact hkl), List.getElem_zip]
  | succ h ih =>
    intro fl hf
    obtain ⟨fl, rfl⟩ : ∃ f, fl = f + 1 := ⟨fl - 1, by omega⟩
    obtain ⟨nc, e, q, lo', hi', qs', hr0, hs', hnc, hne, hlast, hread⟩ := common hr hs hn
    obtain ⟨m, k, i1, i2, v, i3⟩ := ih hr0 hs' hnc fl (by omega)
    refine ⟨m, k, ?_, i2, v, by rw [hlast]; exact i3⟩
    rw [TsTree.descend, hread]
    simp only [Res.bind_ok, Node.ts_leaf, (hr0.family hnc).1.isLeaf, Bool.false_eq_true, if_false]
    exact i1

end

end Appendable
