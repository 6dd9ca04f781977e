import Verif.Lemmas.TsScan
import Verif.Props.Tree
/-! The where clauses of the client. -/
namespace Appendable
open Spec Tree

theorem scanList_eq {β : Type} (row : TsPtr → Res β) (stop : Bytes → Bool) : ∀ es : List Entry,
    scanList row stop es = gather (fun p => row p.ts) (es.takeWhile (fun e => !stop e.1.value))
  | [] => rfl
  | e :: es => by
    rw [scanList, List.takeWhile_cons]
    cases hs : stop e.1.value with
    | true => rfl
    | false =>
      simp only [Bool.false_eq_true, if_false, Bool.not_false, if_true, gather]
      rw [scanList_eq row stop es]
      cases row e.2.ts <;> rfl

theorem takeWhile_filter {α : Type} {p : α → Bool} : ∀ {l : List α}, l.Pairwise (fun a b => p b = true → p a = true) →
    l.takeWhile p = l.filter p
  | [], _ => rfl
  | a :: l, h => by
    rw [List.pairwise_cons] at h
    rw [List.takeWhile_cons, List.filter_cons]
    cases hp : p a with
    | true => simp only [if_true]; rw [takeWhile_filter h.2]
    | false =>
      simp only [Bool.false_eq_true, if_false]
      symm
      rw [List.filter_eq_nil_iff]
      intro b hb hpb
      rw [h.1 b hb hpb] at hp
      cases hp

theorem cmp_lt (a b : Bytes) : tsCompareBytes a b < 0 ↔ List.Lex (· < ·) a b := by
  rw [tsCompareBytes_eq, ← bytesCompare_lt_iff]
  rcases bytesCompare_range a b with h | h | h <;> rw [h] <;> decide

theorem cmp_gt (a b : Bytes) : tsCompareBytes a b > 0 ↔ List.Lex (· < ·) b a := by
  rw [tsCompareBytes_eq, ← bytesCompare_lt_iff, bytesCompare_swap a b]
  rcases bytesCompare_range a b with h | h | h <;> rw [h] <;> decide

theorem cmp_eq (a b : Bytes) : tsCompareBytes a b = 0 ↔ a = b := by
  rw [tsCompareBytes_eq]; exact bytesCompare_eq_zero a b

theorem lex_total (a b : Bytes) : List.Lex (· < ·) a b ∨ a = b ∨ List.Lex (· < ·) b a := by
  rw [← cmp_lt, ← cmp_gt a b, ← cmp_eq]; omega

/-- Values in ascending order of keys do not descend. -/
theorem Spec.KeyLt.value {a b : RV} (h : KeyLt a b) : List.Lex (· < ·) a.value b.value ∨ a.value = b.value := by
  rcases h with h | ⟨h, _⟩
  · exact .inl h
  · exact .inr h

/-- The start key of `==`, `>=` and (descending) `<`. -/
def lowKey (v : Bytes) : RV := ⟨⟨0, 0⟩, v⟩

/-- The start key of `>` and (descending) `<=`. -/
def highKey (v : Bytes) : RV := ⟨⟨0xFFFFFFFFFFFFFFFF, 0⟩, v⟩

theorem lowKey_ts (v : Bytes) : (lowKey v).ts = ⟨⟨0, 0⟩, v⟩ := rfl
theorem highKey_ts (v : Bytes) : (highKey v).ts = ⟨⟨tsMaxUint64, 0⟩, v⟩ := rfl

theorem lt_lowKey (k : RV) (v : Bytes) : KeyLt k (lowKey v) ↔ Matches .lt k.value v := by
  constructor
  · rintro (h | ⟨_, h | ⟨_, h⟩⟩)
    · exact h
    · exact absurd h (by simp [lowKey, UInt64.lt_iff_toNat_lt])
    · exact absurd h (by simp [lowKey, UInt32.lt_iff_toNat_lt])
  · exact .inl

theorem lt_highKey {k : RV} (hk : k.dp.offset.toNat < 2 ^ 31) (v : Bytes) : KeyLt k (highKey v) ↔ Matches .le k.value v := by
  constructor
  · rintro (h | ⟨h, _⟩)
    · exact .inl h
    · exact .inr h
  · rintro (h | h)
    · exact .inl h
    · refine .inr ⟨h, .inl ?_⟩
      rw [UInt64.lt_iff_toNat_lt]
      have : (highKey v).dp.offset.toNat = 2 ^ 64 - 1 := rfl
      omega

theorem not_lt_ge (x v : Bytes) : ¬ Matches .lt x v ↔ Matches .ge x v := by
  unfold Matches
  constructor
  · intro h
    rcases lex_total x v with h1 | h1 | h1
    · exact absurd h1 h
    · exact .inr h1
    · exact .inl h1
  · rintro (h | h) h1
    · exact lex_irrefl _ (lex_trans h h1)
    · subst h; exact lex_irrefl _ h1

theorem not_le_gt (x v : Bytes) : ¬ Matches .le x v ↔ Matches .gt x v := by
  unfold Matches
  constructor
  · intro h
    rcases lex_total x v with h1 | h1 | h1
    · exact absurd (.inl h1) h
    · exact absurd (.inr h1) h
    · exact h1
  · rintro h (h1 | h1)
    · exact lex_irrefl _ (lex_trans h h1)
    · subst h1; exact lex_irrefl _ h

instance (op : TsOp) (x v : Bytes) : Decidable (Matches op x v) :=
  match op with
  | .lt => decidable_of_iff _ (cmp_lt x v)
  | .le => decidable_of_iff (tsCompareBytes x v < 0 ∨ tsCompareBytes x v = 0) (by rw [cmp_lt, cmp_eq]; rfl)
  | .eq => decidable_of_iff _ (cmp_eq x v)
  | .ge => decidable_of_iff (tsCompareBytes x v > 0 ∨ tsCompareBytes x v = 0) (by rw [cmp_gt, cmp_eq]; rfl)
  | .gt => decidable_of_iff _ (cmp_gt x v)

/-- `==`: of the entries from the start key on, those before the first other value. -/
theorem answer_eq {es : List Entry} (ha : Ascending es) (v : Bytes) :
    Answer es .eq v .asc ((es.drop (rank es (lowKey v))).takeWhile (fun e => !decide (tsCompareBytes e.1.value v ≠ 0))) := by
  have hd : Ascending (es.drop (rank es (lowKey v))) := List.Pairwise.sublist (List.drop_sublist _ _) ha
  have hmem := mem_drop_rank ha (lowKey v)
  rw [takeWhile_filter]
  · refine ⟨fun e => ?_, List.Pairwise.sublist List.filter_sublist hd⟩
    rw [List.mem_filter, hmem e, lt_lowKey]
    simp only [Bool.not_eq_true', decide_eq_false_iff_not, Decidable.not_not, cmp_eq]
    constructor
    · rintro ⟨⟨h1, _⟩, h3⟩; exact ⟨h1, h3⟩
    · rintro ⟨h1, h2⟩
      refine ⟨⟨h1, ?_⟩, h2⟩
      intro h3
      have h2' : e.1.value = v := h2
      rw [h2'] at h3
      exact lex_irrefl _ h3
  · refine List.Pairwise.imp_of_mem (fun {a b} h1 h2 hab hb => ?_) hd
    simp only [Bool.not_eq_true', decide_eq_false_iff_not, Decidable.not_not, cmp_eq] at hb ⊢
    have h3 := ((hmem a).1 h1).2
    rw [lt_lowKey] at h3
    rcases hab.value with h4 | h4
    · rw [hb] at h4; exact absurd h4 h3
    · rw [h4]; exact hb

theorem takeWhile_all {α : Type} (l : List α) : l.takeWhile (fun _ => !false) = l := by
  rw [takeWhile_filter (by apply List.pairwise_of_forall; simp)]; simp

theorem answer_ge {es : List Entry} (ha : Ascending es) (v : Bytes) : Answer es .ge v .asc (es.drop (rank es (lowKey v))) := by
  refine ⟨fun e => ?_, List.Pairwise.sublist (List.drop_sublist _ _) ha⟩
  rw [mem_drop_rank ha, lt_lowKey, not_lt_ge]

theorem answer_gt {es : List Entry} (ha : Ascending es) (hs : ∀ e ∈ es, e.1.dp.offset.toNat < 2 ^ 31) (v : Bytes) :
    Answer es .gt v .asc (es.drop (rank es (highKey v))) := by
  refine ⟨fun e => ?_, List.Pairwise.sublist (List.drop_sublist _ _) ha⟩
  rw [mem_drop_rank ha]
  constructor
  · rintro ⟨h1, h2⟩; rw [lt_highKey (hs e h1), not_le_gt] at h2; exact ⟨h1, h2⟩
  · rintro ⟨h1, h2⟩; refine ⟨h1, ?_⟩; rw [lt_highKey (hs e h1), not_le_gt]; exact h2

theorem answer_lt {es : List Entry} (ha : Ascending es) (v : Bytes) : Answer es .lt v .desc (es.take (rank es (lowKey v))).reverse := by
  refine ⟨fun e => ?_, ?_⟩
  · rw [List.mem_reverse, mem_take_rank ha, lt_lowKey]
  · show Ascending _; rw [List.reverse_reverse]; exact List.Pairwise.sublist (List.take_sublist _ _) ha

theorem answer_le {es : List Entry} (ha : Ascending es) (hs : ∀ e ∈ es, e.1.dp.offset.toNat < 2 ^ 31) (v : Bytes) :
    Answer es .le v .desc (es.take (rank es (highKey v))).reverse := by
  refine ⟨fun e => ?_, ?_⟩
  · rw [List.mem_reverse, mem_take_rank ha]
    constructor
    · rintro ⟨h1, h2⟩; exact ⟨h1, (lt_highKey (hs e h1) v).1 h2⟩
    · rintro ⟨h1, h2⟩; exact ⟨h1, (lt_highKey (hs e h1) v).2 h2⟩
  · show Ascending _; rw [List.reverse_reverse]; exact List.Pairwise.sublist (List.take_sublist _ _) ha

/-- `<` and `<=`, ascending: the entries from the first one on as long as they match. -/
theorem answer_first {es : List Entry} (ha : Ascending es) (v : Bytes) :
    Answer es .lt v .asc (es.takeWhile (fun e => !decide (tsCompareBytes e.1.value v ≥ 0))) ∧
    Answer es .le v .asc (es.takeWhile (fun e => !decide (tsCompareBytes e.1.value v > 0))) := by
  constructor
  · rw [takeWhile_filter]
    · refine ⟨fun e => ?_, List.Pairwise.sublist List.filter_sublist ha⟩
      rw [List.mem_filter]
      simp only [Bool.not_eq_true', decide_eq_false_iff_not, ge_iff_le, Int.not_le, cmp_lt]
      rfl
    · refine List.Pairwise.imp (fun {a b} hab hb => ?_) ha
      simp only [Bool.not_eq_true', decide_eq_false_iff_not, ge_iff_le, Int.not_le, cmp_lt] at hb ⊢
      rcases hab.value with h | h
      · exact lex_trans h hb
      · rw [h]; exact hb
  · have hle : ∀ x v : Bytes, ¬ tsCompareBytes x v > 0 ↔ Matches .le x v := by
      intro x v
      rw [cmp_gt, show List.Lex (· < ·) v x ↔ Matches .gt x v from Iff.rfl, ← not_le_gt, Decidable.not_not]
    rw [takeWhile_filter]
    · refine ⟨fun e => ?_, List.Pairwise.sublist List.filter_sublist ha⟩
      rw [List.mem_filter]
      simp only [Bool.not_eq_true', decide_eq_false_iff_not, hle]
    · refine List.Pairwise.imp (fun {a b} hab hb => ?_) ha
      simp only [Bool.not_eq_true', decide_eq_false_iff_not, hle] at hb ⊢
      rcases hab.value with h | h
      · rcases hb with hb | hb
        · exact .inl (lex_trans h hb)
        · rw [hb] at h; exact .inl h
      · rw [h]; exact hb

/-- `>` and `>=`, descending: the entries before the last one as long as the value is not below the bound. -/
theorem answer_last {es : List Entry} (ha : Ascending es) (v : Bytes) :
    Answer es.dropLast .ge v .desc (es.dropLast.reverse.takeWhile (fun e => !decide (tsCompareBytes e.1.value v < 0))) := by
  have hd : Ascending es.dropLast := List.Pairwise.sublist (List.dropLast_sublist _) ha
  have hge : ∀ x v : Bytes, ¬ tsCompareBytes x v < 0 ↔ Matches .ge x v := by
    intro x v
    rw [cmp_lt, show List.Lex (· < ·) x v ↔ Matches .lt x v from Iff.rfl, not_lt_ge]
  rw [takeWhile_filter]
  · refine ⟨fun e => ?_, ?_⟩
    · rw [List.mem_filter, List.mem_reverse]
      simp only [Bool.not_eq_true', decide_eq_false_iff_not, hge]
    · show Ascending _
      rw [← List.filter_reverse, List.reverse_reverse]
      exact List.Pairwise.sublist List.filter_sublist hd
  · rw [List.pairwise_reverse]
    refine List.Pairwise.imp (fun {a b} hab hb => ?_) hd
    simp only [Bool.not_eq_true', decide_eq_false_iff_not, hge] at hb ⊢
    rcases hab.value with h | h
    · rcases hb with hb | hb
      · exact .inl (lex_trans hb h)
      · rw [hb] at h; exact .inl h
    · rw [← h]; exact hb

/-! ### The clauses on a tree -/

theorem rank_index {es : List Entry} (ha : Ascending es) {j : Nat} {e : Entry} (hj : es[j]? = some e) : rank es e.1 = j := by
  obtain ⟨hlt, rfl⟩ := List.getElem?_eq_some_iff.1 hj
  have h6 := rank_lt_iff ha es[j].1
  have h7 : ¬ j < rank es es[j].1 := by rw [h6 j hlt]; exact KeyLt.irrefl _
  have h8 : ¬ rank es es[j].1 < j := by
    intro hl
    have h9 := (h6 (rank es es[j].1) (by omega)).2 (List.pairwise_iff_getElem.1 ha _ _ _ _ hl)
    omega
  omega

section
variable {β : Type} {tt : TsTree} {t : Tree} {s : PF} {es : List Entry} {row : TsPtr → Res β} {free : List Nat} {ps : List Nat}

/-- The tree has more than one page: what `first` and `last` return. -/
theorem TsOf.ends (h : TsOf tt t s free es ps) (hbig : pageSize < leafBytes t.cfg.width es) :
    ∃ a b : Entry, es[0]? = some a ∧ es[es.length - 1]? = some b ∧ ∀ depth, fuel s ≤ depth →
      tt.first depth = .ok a.1.ts ∧ tt.last depth = .ok b.1.ts := by
  have hne : es ≠ [] := by
    intro hc; subst hc; unfold leafBytes pageSize at hbig; simp at hbig
  obtain ⟨hh, off, n, path, p, hf, hr, hn, ho, _, _, _⟩ := init_path h.is hne minKey
  have hroot := h.root_ok hr hn ho
  have h0 : hh ≠ 0 := by
    rintro rfl
    obtain ⟨hs, rfl⟩ := hr.leafEntries hn
    have hsz := hn.size_le
    rw [leafBytes_zip hs] at hbig
    omega
  obtain ⟨hh, rfl⟩ : ∃ k, hh = k + 1 := ⟨hh - 1, by omega⟩
  have h1 := hr.descend_first h.view (fun _ h => h) hn
  have h2 := hr.descend_last h.view (fun _ h => h) hn
  obtain ⟨_, k1, _, _, v1, e1⟩ := h1 (hh + 1) (by omega)
  obtain ⟨_, k2, _, _, v2, e2⟩ := h2 (hh + 1) (by omega)
  refine ⟨(k1, v1), (k2, v2), e1, e2, fun depth hd => ⟨?_, ?_⟩⟩
  · obtain ⟨m, k, g1, g2, v, g3⟩ := h1 depth (by omega)
    rw [e1] at g3; cases g3
    unfold TsTree.first
    simp only [hroot, Res.bind_ok, g1, g2]; rfl
  · obtain ⟨m, k, g1, g2, v, g3⟩ := h2 depth (by omega)
    rw [e2] at g3; cases g3
    unfold TsTree.last
    simp only [hroot, Res.bind_ok, g1, g2]; rfl

theorem TsOf.small (h : TsOf tt t s free es ps) : ∀ e ∈ es, e.1.dp.offset.toNat < 2 ^ 31 := fun e he => (h.view.ents e he).1.1.1

/-- `<` and `<=`, descending. -/
theorem TsOf.clause_desc (h : TsOf tt t s free es ps) (hne : es ≠ []) {op : TsOp} (hop : op = .lt ∨ op = .le) (v : Bytes) :
    ∃ xs, Answer es op v .desc xs ∧ ∀ depth fl, fuel s ≤ depth → es.length + 1 < fl →
      tsClause tt depth fl row op .desc v = gather (fun p => row p.ts) xs := by
  rcases hop with rfl | rfl
  · refine ⟨_, answer_lt h.is.asc v, fun depth fl hd hf => ?_⟩
    unfold tsClause tsScanFrom
    simp only
    rw [← lowKey_ts, h.backward hne (lowKey v) depth fl hd hf, scanList_eq, takeWhile_all]
  · refine ⟨_, answer_le h.is.asc h.small v, fun depth fl hd hf => ?_⟩
    unfold tsClause tsScanFrom
    simp only
    rw [← highKey_ts, h.backward hne (highKey v) depth fl hd hf, scanList_eq, takeWhile_all]

/-- The start key of the operations that search forward from a key. -/
def startKey (op : TsOp) (v : Bytes) : RV := if op = .gt then highKey v else lowKey v

/-- `==`, `>=` and `>`, forward: everything or nothing, as the Go iterator finds an entry or not. -/
theorem TsOf.clause_asc (h : TsOf tt t s free es ps) (hne : es ≠ []) {op : TsOp} {ord : TsDir}
    (hop : op = .eq ∨ (op = .ge ∧ ord = .asc) ∨ (op = .gt ∧ ord = .asc)) (v : Bytes) :
    ∃ (xs : List Entry) (on : Bool), Answer es op v .asc xs ∧ (Hit t es (startKey op v) → on = true) ∧
      (rank es (startKey op v) = 0 → on = true) ∧
      (∃ it q, (iter (startKey op v)).next t s = (.ok (on, it), q)) ∧ ∀ depth fl, fuel s ≤ depth → es.length + 1 < fl →
      tsClause tt depth fl row op ord v = gather (fun p => row p.ts) (if on then xs else []) := by
  rcases hop with rfl | ⟨rfl, rfl⟩ | ⟨rfl, rfl⟩
  · obtain ⟨on, h1, h2, h3, h4⟩ := h.forward (row := row) (stop := fun k => decide (tsCompareBytes k v ≠ 0)) hne (lowKey v)
    refine ⟨_, on, answer_eq h.is.asc v, h1, h2, h3, fun depth fl hd hf => ?_⟩
    have : tsClause tt depth fl row .eq ord v =
        tsScan tt depth row true (fun k => decide (tsCompareBytes k v ≠ 0)) fl (tsIter (lowKey v).ts) := by
      cases ord <;> rfl
    rw [this, h4 depth fl hd hf, scanList_eq]
    cases on <;> rfl
  · obtain ⟨on, h1, h2, h3, h4⟩ := h.forward (row := row) (stop := fun _ => false) hne (lowKey v)
    refine ⟨_, on, answer_ge h.is.asc v, h1, h2, h3, fun depth fl hd hf => ?_⟩
    have : tsClause tt depth fl row .ge .asc v = tsScan tt depth row true (fun _ => false) fl (tsIter (lowKey v).ts) := rfl
    rw [this, h4 depth fl hd hf, scanList_eq, takeWhile_all]
  · obtain ⟨on, h1, h2, h3, h4⟩ := h.forward (row := row) (stop := fun _ => false) hne (highKey v)
    refine ⟨_, on, answer_gt h.is.asc h.small v, h1, h2, h3, fun depth fl hd hf => ?_⟩
    have : tsClause tt depth fl row .gt .asc v = tsScan tt depth row true (fun _ => false) fl (tsIter (highKey v).ts) := rfl
    rw [this, h4 depth fl hd hf, scanList_eq, takeWhile_all]

/-- `<` and `<=`, ascending, on a tree of more than one page. -/
theorem TsOf.clause_first (h : TsOf tt t s free es ps) (hbig : pageSize < leafBytes t.cfg.width es) {op : TsOp}
    (hop : op = .lt ∨ op = .le) (v : Bytes) :
    ∃ xs, Answer es op v .asc xs ∧ ∀ depth fl, fuel s ≤ depth → es.length + 1 < fl →
      tsClause tt depth fl row op .asc v = gather (fun p => row p.ts) xs := by
  have hne : es ≠ [] := by
    intro hc; subst hc; unfold leafBytes pageSize at hbig; simp at hbig
  obtain ⟨a, b, ha, hb, hends⟩ := h.ends hbig
  have hr := rank_index h.is.asc ha
  have hd0 : es.drop (rank es a.1) = es := by rw [hr, List.drop_zero]
  obtain ⟨f1, f2⟩ := answer_first h.is.asc v
  rcases hop with rfl | rfl
  · obtain ⟨on, h1, h2, h3, h4⟩ := h.forward (row := row) (stop := fun k => decide (tsCompareBytes k v ≥ 0)) hne a.1
    refine ⟨_, f1, fun depth fl hd hf => ?_⟩
    have : tsClause tt depth fl row .lt .asc v =
        tsScan tt depth row true (fun k => decide (tsCompareBytes k v ≥ 0)) fl (tsIter a.1.ts) := by
      unfold tsClause tsScanFrom; simp only [(hends depth hd).1]
    rw [this, h4 depth fl hd hf, scanList_eq, h2 hr, if_pos rfl, hd0]
  · obtain ⟨on, h1, h2, h3, h4⟩ := h.forward (row := row) (stop := fun k => decide (tsCompareBytes k v > 0)) hne a.1
    refine ⟨_, f2, fun depth fl hd hf => ?_⟩
    have : tsClause tt depth fl row .le .asc v =
        tsScan tt depth row true (fun k => decide (tsCompareBytes k v > 0)) fl (tsIter a.1.ts) := by
      unfold tsClause tsScanFrom; simp only [(hends depth hd).1]
    rw [this, h4 depth fl hd hf, scanList_eq, h2 hr, if_pos rfl, hd0]

/-- `>` and `>=`, descending, on a tree of more than one page: the answer to `>=` without the last entry. -/
theorem TsOf.clause_last (h : TsOf tt t s free es ps) (hbig : pageSize < leafBytes t.cfg.width es) {op : TsOp}
    (hop : op = .gt ∨ op = .ge) (v : Bytes) :
    ∃ xs, Answer es.dropLast .ge v .desc xs ∧ ∀ depth fl, fuel s ≤ depth → es.length + 1 < fl →
      tsClause tt depth fl row op .desc v = gather (fun p => row p.ts) xs := by
  have hne : es ≠ [] := by
    intro hc; subst hc; unfold leafBytes pageSize at hbig; simp at hbig
  obtain ⟨a, b, ha, hb, hends⟩ := h.ends hbig
  have hr := rank_index h.is.asc hb
  refine ⟨_, answer_last h.is.asc v, fun depth fl hd hf => ?_⟩
  have : tsClause tt depth fl row op .desc v =
      tsScan tt depth row false (fun k => decide (tsCompareBytes k v < 0)) fl (tsIter b.1.ts) := by
    rcases hop with rfl | rfl <;> (unfold tsClause tsScanFrom; simp only [(hends depth hd).2])
  rw [this, h.backward hne b.1 depth fl hd hf, scanList_eq, hr, ← List.dropLast_eq_take]

end

end Appendable
