import Verif.Props.TsClient
import Verif.Props.Reach
import Verif.Props.IndexWitness
import Verif.Props.Csv
/-! Concrete histories and queries for C43-C48. -/
namespace Appendable
open Spec Tree

/-! ### An index of one page -/

/-- A client of the index file of `wRun3`. -/
def wDb : TsDb := ⟨serve wIns.2.file.bytes, serve wData, fun _ _ b => .ok (wParse b)⟩

/-- `a op "b"` -/
def wQuery (op : TsOp) (dir : TsDir) : TsQuery := ⟨[⟨[97], op, .str [98]⟩], some [([97], dir)], none, none⟩

set_option maxRecDepth 100000 in
theorem wIns_len : wIns.2.file.bytes.length = 12288 ∧ wIns.2.file.bytes.take 4 = [0, 0, 0, 0] := by decide +kernel

/-- The hypotheses of C46 and C47 are met. -/
theorem wServedOf (op : TsOp) (q : TsQuery) (hq : q.where_ = [⟨[97], op, .str [98]⟩]) : Served wParse wData wIns.2 ⟨1, .jsonl, 0, 0⟩
    [(wP, ⟨[97], 0, 0, 0⟩), ((okVal wFind2.1).1, ⟨[97], 3, 9, 0⟩)] (setAt (fun _ => []) 0 [(wKey, ⟨0, 3⟩)]) wDb
    q op [98] 0 wP ⟨[97], 0, 0, 0⟩ := by
  refine ⟨⟨serve_faithful _, serve_faithful _, by rw [wIns_len.1]; omega⟩,
    ⟨[97], .str [98], 0, hq, rfl, rfl, rfl, .inl rfl, fun j x hj => by omega⟩, by simp [setAt], ?_⟩
  intro e he
  simp only [setAt, if_true, List.mem_singleton] at he
  subst he
  refine ⟨⟨⟨by decide, by decide⟩, fun _ => ⟨by decide, rfl⟩⟩, ⟨by decide, by decide⟩, by decide, by decide⟩

theorem wServed (op : TsOp) (dir : TsDir) : Served wParse wData wIns.2 ⟨1, .jsonl, 0, 0⟩
    [(wP, ⟨[97], 0, 0, 0⟩), ((okVal wFind2.1).1, ⟨[97], 3, 9, 0⟩)] (setAt (fun _ => []) 0 [(wKey, ⟨0, 3⟩)]) wDb
    (wQuery op dir) op [98] 0 wP ⟨[97], 0, 0, 0⟩ := wServedOf op (wQuery op dir) rfl

/-- C46, C47 one page: e.g. `a == "b"` and `a >= "b"` return the one record. -/
example : ∃ xs, Answer [(wKey, ⟨0, 3⟩)] .eq [98] .asc xs ∧ Returns wDb (fun b => .ok b) (wQuery .eq .asc) (rowsOf wData .ok xs) :=
  C46_eq_one_page_partial smallWidths_id wRun3 rfl (wServed .eq .asc) (by decide) (fun b => .ok b)

example : ∃ xs, Answer [(wKey, ⟨0, 3⟩)] .le [98] .desc xs ∧ Returns wDb (fun b => .ok b) (wQuery .le .desc) (rowsOf wData .ok xs) :=
  C47_below_desc_partial smallWidths_id wRun3 rfl (wServed .le .desc) (.inr rfl) rfl (fun b => .ok b)

example : ∃ xs, Answer [(wKey, ⟨0, 3⟩)] .gt [98] .asc xs ∧ Returns wDb (fun b => .ok b) (wQuery .gt .asc) (rowsOf wData .ok xs) :=
  C47_above_asc_one_page_partial smallWidths_id wRun3 rfl (wServed .gt .asc) (.inr rfl) rfl (by decide) (fun b => .ok b)

theorem wAnswer : Answer [(wKey, (⟨0, 3⟩ : MemPtr))] .eq [98] .asc [(wKey, ⟨0, 3⟩)] := by
  refine ⟨fun e => ⟨fun h => ⟨h, ?_⟩, fun h => h.1⟩, by simp [Ordered, Ascending]⟩
  rw [List.mem_singleton] at h; subst h; rfl

/-- C47 is violated: `a <= "b"`, ascending, throws, although the record `"b"` matches. -/
theorem C47_below_asc_concrete_violated : Answer [(wKey, (⟨0, 3⟩ : MemPtr))] .le [98] .asc [(wKey, ⟨0, 3⟩)] ∧
    Returns wDb (fun b => .ok b) (wQuery .le .asc) ⟨[], some (.msg "empty node")⟩ := by
  refine ⟨⟨fun e => ⟨fun h => ⟨h, ?_⟩, fun h => h.1⟩, by simp [Ordered, Ascending]⟩, ?_⟩
  · rw [List.mem_singleton] at h; subst h; exact .inr rfl
  · exact C47_below_asc_violated smallWidths_id wRun3 rfl (wServed .le .asc) (.inr rfl) rfl (by decide) (e := (wKey, ⟨0, 3⟩))
      (by simp [setAt]) (by simp [setAt]) rfl wIns_len.2 (fun b => .ok b)

/-- C48 is violated: the condition `a == "b"`, given twice, with limit 0, returns the record twice. -/
theorem C48_concrete_violated : ∃ N, ∀ fuel, N ≤ fuel →
    (wDb.query fuel (fun b => .ok b) ⟨[⟨[97], .eq, .str [98]⟩, ⟨[97], .eq, .str [98]⟩], none, none, some 0⟩).rows =
      [[34, 98, 34], [34, 98, 34]] := by
  obtain ⟨xs, h1, N, h2⟩ := C46_eq_one_page_partial smallWidths_id wRun3 rfl
    (wServedOf .eq ⟨[⟨[97], .eq, .str [98]⟩], none, none, none⟩ rfl) (by decide) (fun b => .ok b)
  refine ⟨N, fun fuel hf => ?_⟩
  have hxs : xs = [(wKey, ⟨0, 3⟩)] := by
    have hm : ∀ e, e ∈ xs ↔ e = (wKey, (⟨0, 3⟩ : MemPtr)) := by
      intro e
      rw [h1.1 e]
      show e ∈ [(wKey, (⟨0, 3⟩ : MemPtr))] ∧ _ ↔ _
      rw [List.mem_singleton]
      constructor
      · exact fun h => h.1
      · rintro rfl; exact ⟨rfl, rfl⟩
    match xs, hm, h1.2 with
    | [], hm, _ => exact absurd ((hm _).2 rfl) (by simp)
    | [a], hm, _ => rw [(hm a).1 (by simp)]
    | a :: b :: l, hm, ho =>
      have h3 := List.rel_of_pairwise_cons (show Ascending (a :: b :: l) from ho) (a' := b) (by simp)
      rw [(hm a).1 (by simp), (hm b).1 (by simp)] at h3
      exact absurd h3 (KeyLt.irrefl _)
  have h3 := h2 fuel hf
  rw [C48_limit_violated fuel (fun b => .ok b) ⟨[⟨[97], .eq, .str [98]⟩, ⟨[97], .eq, .str [98]⟩], none, none, none⟩ 0,
    C48_conjunction_violated fuel (fun b => .ok b) _ ⟨[97], .eq, .str [98]⟩ ⟨[97], .eq, .str [98]⟩ [] rfl (by simp)]
  show ((wDb.query fuel (fun b => .ok b) ⟨[⟨[97], .eq, .str [98]⟩], none, none, none⟩).andThen
    (wDb.query fuel (fun b => .ok b) ⟨[⟨[97], .eq, .str [98]⟩], none, none, none⟩)).rows = _
  rw [h3, hxs]
  rfl

/-- C106: the hypotheses of `C106_near_partial` are met. -/
example : ∃ rows, Returns wDb .ok (wQuery .le .desc) ⟨rows, none⟩ ∧ ∀ e ∈ setAt (fun _ => []) 0 [(wKey, (⟨0, 3⟩ : MemPtr))] 0,
    Matches .le e.1.value [98] → record wData e.2 ∈ rows :=
  C106_near_partial (k := 0) smallWidths_id wRun3 rfl (wServed .le .desc).sees rfl rfl ⟨rfl, rfl, .inl rfl, fun j x hj => by omega⟩ (.inr rfl) rfl
    (by decide) (by simp [setAt])
    (by intro e he; simp only [setAt, if_true, List.mem_singleton] at he; subst he; decide)
    (by intro e he; simp only [setAt, if_true, List.mem_singleton] at he; subst he; exact ⟨by decide, fun _ => ⟨by decide, rfl⟩⟩)

/-! ### An index of more than one page -/

/-- the float field `a` -/
def bFind : Res (LP × IndexMeta) × PF := wI.findOrCreate [97] 3 wS0
def bP : LP := (okVal bFind.1).1
def bM : IndexMeta := ⟨[97], 3, 9, 0⟩
def bData : Bytes := [123, 125, 10]
/-- the float whose last byte is `n`, and a record -/
def bEnt (n : Nat) : RV × MemPtr := (⟨⟨UInt64.ofNat (2 ^ 30 + n), 1073741824⟩, [0, 0, 0, 0, 0, 0, 0, UInt8.ofNat n]⟩, ⟨0, 1073741824⟩)
set_option maxRecDepth 100000 in
theorem bFind_ok : bFind.1.isOk = true := by decide +kernel
set_option maxRecDepth 100000 in
theorem bFind_m : (okVal bFind.1).2 = bM := by decide +kernel

set_option maxRecDepth 100000 in
theorem bFind_len : bFind.2.file.bytes.length ≤ 2 ^ 20 := by decide +kernel

theorem bRun0 : IndexRun wParse id bData wI bFind.2 ⟨1, .jsonl, 0, 0⟩ [(bP, bM)] (fun _ => []) := by
  have h1 : wI.findOrCreate [97] 3 wS0 = (.ok (bP, (okVal bFind.1).2), bFind.2) := run_ok2 (r := bFind) bFind_ok
  rw [bFind_m] at h1
  exact IndexRun.find (name := [97]) (ty := 3) (wRun0 bData) (by simp) h1

theorem bEnt_ok (n : Nat) : KeyOK ⟨bData, wParse, 9⟩ (bEnt n).1 := by
  show (if (9 : UInt16) = 0 then _ else _)
  rw [if_neg (by decide)]
  show 8 = ((9 : UInt16) - 1).toNat
  decide

set_option maxRecDepth 100000 in
theorem bEnt_len : ∀ n : Fin 172, (encKey 9 (bEnt n).1).length + (encLeafPtr (bEnt n).2).length = 24 := by decide +kernel

theorem bLen : ∀ n, n ≤ 172 → leafBytes 9 ((List.range' 0 n).map bEnt).reverse = 4 + 24 * n
  | 0, _ => rfl
  | n + 1, h => by
    have ih := bLen n (by omega)
    rw [leafBytes_perm (List.reverse_perm _)] at ih ⊢
    rw [List.range'_1_concat, List.map_append]
    have : (encKey 9 (bEnt n).1).length + (encLeafPtr (bEnt n).2).length = 24 := bEnt_len ⟨n, by omega⟩
    simp only [leafBytes, List.map_append, List.sum_append, List.map_cons, List.map_nil, List.sum_cons, List.sum_nil, Nat.zero_add] at ih ⊢
    omega

theorem bInj {n n' : Nat} (h1 : n < 172) (h2 : n' < 172) (h : (bEnt n).1.value = (bEnt n').1.value) : n = n' := by
  simp only [bEnt, List.cons.injEq, and_true, true_and] at h
  have := congrArg UInt8.toNat h
  simp only [UInt8.toNat_ofNat'] at this
  omega

/-- Histories of up to 171 inserts: no insert is refused, and each adds at most two pages. -/
theorem bSteps : ∀ n, n ≤ 171 → ∃ s c, IndexRun wParse id bData wI s ⟨1, .jsonl, 0, 0⟩ [(bP, bM)] c ∧
    s.file.bytes.length ≤ 2 ^ 20 + n * 8192 ∧ c 0 = ((List.range' 0 n).map bEnt).reverse
  | 0, _ => ⟨_, _, bRun0, bFind_len, rfl⟩
  | n + 1, h => by
    obtain ⟨s, c, h1, h2, h3⟩ := bSteps n (by omega)
    have hi := (indexRun_is smallWidths_id h1).1
    rcases hi.insert (k := 0) (p := bP) (m := bM) (key := (bEnt n).1) rfl (bEnt n).2 (bEnt_ok n) with
      ⟨s', e1, _, _, _, e2⟩ | ⟨q, _, e, he, hke⟩ | ⟨s', _, _, e3⟩
    · refine ⟨s', _, IndexRun.insert (k := 0) (p := bP) (m := bM) (key := (bEnt n).1) (v := (bEnt n).2) h1 rfl (bEnt_ok n) e1, ?_, ?_⟩
      · have hb := bLen n (by omega)
        rw [← h3] at hb
        rcases e2 with e2 | e2
        · unfold pageSize at e2; omega
        · exfalso
          have e2' : pageSize < leafBytes 9 (c 0) := e2
          rw [hb] at e2'
          unfold pageSize at e2'; omega
      · rw [List.range'_1_concat]
        simp [setAt, h3]
    · exfalso
      rw [h3, List.mem_reverse, List.mem_map] at he
      obtain ⟨j, hj, rfl⟩ := he
      have hj' : j < n := by simpa using hj
      have := bInj (n := j) (n' := n) (by omega) (by omega) (by rw [hke])
      omega
    · exfalso
      unfold pageSize at e3
      omega

/-- An index with 171 entries, on more than one page. -/
theorem bRun : ∃ s c, IndexRun wParse id bData wI s ⟨1, .jsonl, 0, 0⟩ [(bP, bM)] c ∧ s.file.bytes.length ≤ 2 ^ 31 ∧
    c 0 = ((List.range' 0 171).map bEnt).reverse := by
  obtain ⟨s, c, h1, h2, h3⟩ := bSteps 171 (by omega)
  exact ⟨s, c, h1, by omega, h3⟩

theorem bBig : 4096 < leafBytes 9 ((List.range' 0 171).map bEnt).reverse := by
  rw [bLen 171 (by omega)]; omega

set_option maxRecDepth 100000 in
theorem bSmall : ∀ e ∈ ((List.range' 0 171).map bEnt).reverse, EntryOK (fun b => .ok b) ⟨bData, wParse, 9⟩ e := by
  intro e he
  rw [List.mem_reverse, List.mem_map] at he
  obtain ⟨n, hn, rfl⟩ := he
  have hn' : n < 171 := by simpa using hn
  refine ⟨⟨⟨?_, show (1073741824 : UInt32).toNat < 2 ^ 31 by decide⟩, fun h => absurd h (by decide)⟩,
    ⟨show (0 : UInt64).toNat < 2 ^ 31 by decide, show (1073741824 : UInt32).toNat < 2 ^ 31 by decide⟩,
    show 2 ≤ (1073741824 : UInt32).toNat by decide, show (0 : UInt64).toNat < 3 by decide⟩
  show (UInt64.ofNat (2 ^ 30 + n)).toNat < 2 ^ 31
  rw [UInt64.toNat_ofNat']
  omega

theorem bDistinct : ∀ e ∈ ((List.range' 0 171).map bEnt).reverse, ∀ e' ∈ ((List.range' 0 171).map bEnt).reverse,
    e.1.value = e'.1.value → e = e' := by
  intro e he e' he' h
  rw [List.mem_reverse, List.mem_map] at he he'
  obtain ⟨n, hn, rfl⟩ := he
  obtain ⟨n', hn', rfl⟩ := he'
  have h1 : n < 171 := by simpa using hn
  have h2 : n' < 171 := by simpa using hn'
  rw [bInj (n := n) (n' := n') (by omega) (by omega) h]

/-- A client of this index. -/
def bDb (s : PF) : TsDb := ⟨serve s.file.bytes, serve bData, fun _ _ b => .ok b⟩
/-- `a op n` -/
def bQuery (op : TsOp) (dir : TsDir) (n : Nat) : TsQuery := ⟨[⟨[97], op, .num (UInt64.ofNat n)⟩], some [([97], dir)], none, none⟩

theorem bBytes : ∀ n : Fin 171, beBytes 8 (UInt64.ofNat n.val).toNat = [0, 0, 0, 0, 0, 0, 0, UInt8.ofNat n.val] := by decide +kernel

theorem bServed {s : PF} {c : Nat → List (RV × MemPtr)} (h2 : s.file.bytes.length ≤ 2 ^ 31)
    (h3 : c 0 = ((List.range' 0 171).map bEnt).reverse) (op : TsOp) (dir : TsDir) {n : Nat} (hn : n < 171) :
    Served wParse bData s ⟨1, .jsonl, 0, 0⟩ [(bP, bM)] c (bDb s) (bQuery op dir n) op (bEnt n).1.value 0 bP bM := by
  refine ⟨⟨serve_faithful _, serve_faithful _, h2⟩, ⟨[97], .num (UInt64.ofNat n), 3, rfl, ?_, rfl, rfl, .inl rfl,
    fun j x hj => by omega⟩, ?_, ?_⟩
  · simp only [tsProcessWhere, Option.some.injEq, Prod.mk.injEq, true_and]
    simp only [bEnt]
    exact bBytes ⟨n, hn⟩
  · rw [h3]; intro h0
    have := congrArg List.length h0
    simp at this
  · rw [h3]; exact bSmall

/-- C46 and C47 are violated: there are an index, a stored entry with a readable record, and a client of it, such that
`field == v` and `field >= v` (ascending) with the value `v` of this entry return nothing. -/
theorem C46_eq_concrete_violated : ∃ s c, IndexRun wParse id bData wI s ⟨1, .jsonl, 0, 0⟩ [(bP, bM)] c ∧
    ∃ n, bEnt n ∈ c 0 ∧
      (∃ xs, bEnt n ∈ xs ∧ Answer (c 0) .eq (bEnt n).1.value .asc xs) ∧
      Returns (bDb s) (fun b => .ok b) (bQuery .eq .asc n) ⟨[], none⟩ := by
  obtain ⟨s, c, h1, h2, h3⟩ := bRun
  have hdp : ∀ e ∈ c 0, e.1.dp ≠ ⟨0, 0⟩ := by
    intro e he hc
    rw [h3, List.mem_reverse, List.mem_map] at he
    obtain ⟨n, hn, rfl⟩ := he
    have : (1073741824 : UInt32) = 0 := congrArg MemPtr.length hc
    exact absurd this (by decide)
  obtain ⟨e, he, hv⟩ := C46_eq_violated (k := 0) (p := bP) (m := bM) smallWidths_id h1 rfl rfl
    (by rw [h3]; exact bBig) (by rw [h3]; exact bDistinct) hdp
  have he' := he
  rw [h3, List.mem_reverse, List.mem_map] at he'
  obtain ⟨n, hn, rfl⟩ := he'
  have hn' : n < 171 := by simpa using hn
  have hs := bServed h2 h3 .eq .asc hn'
  obtain ⟨xs, on, g1, _⟩ := C46_eq_partial (k := 0) (p := bP) (m := bM) smallWidths_id h1 rfl hs (fun b => .ok b)
  exact ⟨s, c, h1, n, he, ⟨xs, (g1.1 _).2 ⟨he, rfl⟩, g1⟩, hv _ _ _ hs⟩

/-- The hypotheses of `C47_below_asc_partial`, `C47_ge_violated` and `C47_above_desc_violated` are met. -/
example : ∃ s c, IndexRun wParse id bData wI s ⟨1, .jsonl, 0, 0⟩ [(bP, bM)] c ∧
    (∃ xs, Answer (c 0) .lt (bEnt 100).1.value .asc xs ∧
      Returns (bDb s) (fun b => .ok b) (bQuery .lt .asc 100) (rowsOf bData .ok xs)) ∧
    (∃ top ∈ c 0, ∃ xs, (∀ e, e ∈ xs ↔ e ∈ c 0 ∧ e ≠ top ∧ Matches .ge e.1.value (bEnt 100).1.value) ∧
      Returns (bDb s) (fun b => .ok b) (bQuery .gt .desc 100) (rowsOf bData .ok xs)) := by
  obtain ⟨s, c, h1, h2, h3⟩ := bRun
  have hbig : 4096 < leafBytes 9 (c 0) := by rw [h3]; exact bBig
  refine ⟨s, c, h1, ?_, ?_⟩
  · exact C47_below_asc_partial (k := 0) (p := bP) (m := bM) smallWidths_id h1 rfl (bServed h2 h3 .lt .asc (by omega))
      (.inl rfl) rfl hbig _
  · obtain ⟨top, g1, _, xs, g2, _, g3⟩ := C47_above_desc_violated (k := 0) (p := bP) (m := bM) smallWidths_id h1 rfl
      (bServed h2 h3 .gt .desc (n := 100) (by omega)) (.inl rfl) rfl hbig (fun b => .ok b)
    exact ⟨top, g1, xs, g2, g3⟩

end Appendable
