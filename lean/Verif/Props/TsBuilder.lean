import Verif.Spec.TsBuilder
/-! C58: the query builder. -/
namespace Appendable
open Spec JsHeap

/-- The references of an object exist and are not the program's. -/
structure ObjOK (h : JsHeap) (own : Own) (x : QueryObj) : Prop where
  w : x.where_ < h.clauses.length ∧ x.where_ ∉ own.clauses
  o : ∀ r, x.orderBy = some r → r < h.orders.length ∧ r ∉ own.orders
  s : ∀ r, x.select = some r → r < h.keys.length ∧ r ∉ own.keys

/-- The builders stand for the queries `qs`. -/
structure BInv (h : JsHeap) (qs : List TsQuery) (own : Own) : Prop where
  view : h.builders.map h.read = qs
  ok : ∀ o ∈ h.builders, ObjOK h own o
  c : ∀ r ∈ own.clauses, r < h.clauses.length
  o : ∀ r ∈ own.orders, r < h.orders.length
  k : ∀ r ∈ own.keys, r < h.keys.length

/-- Arrays that exist and are not the program's are unchanged. -/
structure Keeps (h : JsHeap) (own : Own) (h' : JsHeap) : Prop where
  c : h.clauses.length ≤ h'.clauses.length ∧ ∀ r, r < h.clauses.length → r ∉ own.clauses → h'.clauses.getD r [] = h.clauses.getD r []
  o : h.orders.length ≤ h'.orders.length ∧ ∀ r, r < h.orders.length → r ∉ own.orders → h'.orders.getD r [] = h.orders.getD r []
  k : h.keys.length ≤ h'.keys.length ∧ ∀ r, r < h.keys.length → r ∉ own.keys → h'.keys.getD r [] = h.keys.getD r []

theorem Keeps.read {h h' : JsHeap} {own : Own} (hk : Keeps h own h') {o : QueryObj} (ho : ObjOK h own o) : h'.read o = h.read o := by
  unfold JsHeap.read
  rw [hk.c.2 _ ho.w.1 ho.w.2]
  congr 1
  · cases hr : o.orderBy with
    | none => rfl
    | some r => simp only [Option.map_some]; rw [hk.o.2 r (ho.o r hr).1 (ho.o r hr).2]
  · cases hr : o.select with
    | none => rfl
    | some r => simp only [Option.map_some]; rw [hk.k.2 r (ho.s r hr).1 (ho.s r hr).2]

theorem getD_append_lt {α : Type} (l m : List α) (r : Nat) (d : α) (h : r < l.length) : (l ++ m).getD r d = l.getD r d := by
  simp [List.getD, List.getElem?_append_left h]

theorem getD_append_len {α : Type} (l : List α) (x d : α) : (l ++ [x]).getD l.length d = x := by simp [List.getD]

theorem getD_set_ne {α : Type} (l : List α) (r i : Nat) (x d : α) (h : i ≠ r) : (l.set i x).getD r d = l.getD r d := by
  simp [List.getD, List.getElem?_set_ne h]

theorem obj_of {h : JsHeap} {qs : List TsQuery} {own : Own} (hi : BInv h qs own) {b : Nat} {q : TsQuery} (hb : qs[b]? = some q) :
    b < h.builders.length ∧ h.obj b ∈ h.builders ∧ h.read (h.obj b) = q := by
  rw [← hi.view, List.getElem?_map] at hb
  cases ho : h.builders[b]? with
  | none => rw [ho] at hb; cases hb
  | some o =>
    rw [ho] at hb
    have hobj : h.obj b = o := by unfold JsHeap.obj; rw [List.getD_eq_getElem?_getD, ho]; rfl
    rw [hobj]
    exact ⟨(List.getElem?_eq_some_iff.1 ho).1, List.mem_of_getElem? ho, by simpa using hb⟩

/-- Adding a builder. -/
theorem BInv.add {h h' : JsHeap} {qs : List TsQuery} {own : Own} (hi : BInv h qs own) (hk : Keeps h own h') {o : QueryObj}
    (hb : h'.builders = h.builders ++ [o]) (ho : ObjOK h' own o) : BInv h' (qs ++ [h'.read o]) own := by
  refine ⟨?_, ?_, fun r hr => Nat.lt_of_lt_of_le (hi.c r hr) hk.c.1, fun r hr => Nat.lt_of_lt_of_le (hi.o r hr) hk.o.1,
    fun r hr => Nat.lt_of_lt_of_le (hi.k r hr) hk.k.1⟩
  · rw [hb, List.map_append, ← hi.view]
    congr 1
    exact List.map_congr_left fun x hx => hk.read (hi.ok x hx)
  · intro x hx
    rw [hb] at hx
    rcases List.mem_append.1 hx with hx | hx
    · have := hi.ok x hx
      exact ⟨⟨Nat.lt_of_lt_of_le this.w.1 hk.c.1, this.w.2⟩, fun r hr => ⟨Nat.lt_of_lt_of_le (this.o r hr).1 hk.o.1, (this.o r hr).2⟩,
        fun r hr => ⟨Nat.lt_of_lt_of_le (this.s r hr).1 hk.k.1, (this.s r hr).2⟩⟩
    · rw [List.mem_singleton] at hx; subst hx; exact ho

/-- Changing only arrays, some of which are the program's afterwards. -/
theorem BInv.arrays {h h' : JsHeap} {qs : List TsQuery} {own own' : Own} (hi : BInv h qs own) (hk : Keeps h own h')
    (hb : h'.builders = h.builders)
    (hc : ∀ r ∈ own'.clauses, r < h'.clauses.length ∧ (r ∈ own.clauses ∨ h.clauses.length ≤ r))
    (ho : ∀ r ∈ own'.orders, r < h'.orders.length ∧ (r ∈ own.orders ∨ h.orders.length ≤ r))
    (hs : ∀ r ∈ own'.keys, r < h'.keys.length ∧ (r ∈ own.keys ∨ h.keys.length ≤ r)) : BInv h' qs own' := by
  refine ⟨?_, ?_, fun r hr => (hc r hr).1, fun r hr => (ho r hr).1, fun r hr => (hs r hr).1⟩
  · rw [hb, ← hi.view]
    exact List.map_congr_left fun x hx => hk.read (hi.ok x hx)
  · intro x hx
    rw [hb] at hx
    have := hi.ok x hx
    refine ⟨⟨Nat.lt_of_lt_of_le this.w.1 hk.c.1, fun h => ?_⟩, fun r hr => ⟨Nat.lt_of_lt_of_le (this.o r hr).1 hk.o.1, fun h => ?_⟩,
      fun r hr => ⟨Nat.lt_of_lt_of_le (this.s r hr).1 hk.k.1, fun h => ?_⟩⟩
    · rcases (hc _ h).2 with h | h
      · exact this.w.2 h
      · have := this.w.1; omega
    · rcases (ho _ h).2 with h | h
      · exact (this.o r hr).2 h
      · have := (this.o r hr).1; omega
    · rcases (hs _ h).2 with h | h
      · exact (this.s r hr).2 h
      · have := (this.s r hr).1; omega

theorem Keeps.more {h : JsHeap} {own : Own} (a : List (List TsWhere)) (b : List (List (Bytes × TsDir))) (c : List (List Bytes))
    (bs : List QueryObj) : Keeps h own ⟨h.clauses ++ a, h.orders ++ b, h.keys ++ c, bs⟩ :=
  ⟨⟨by simp, fun r hr _ => getD_append_lt _ _ _ _ hr⟩, ⟨by simp, fun r hr _ => getD_append_lt _ _ _ _ hr⟩,
    ⟨by simp, fun r hr _ => getD_append_lt _ _ _ _ hr⟩⟩

theorem obj_append {h : JsHeap} {b : Nat} (hb : b < h.builders.length) (a : List (List TsWhere)) (o : QueryObj) :
    JsHeap.obj { h with clauses := a, builders := h.builders ++ [o] } b = h.obj b := by
  unfold JsHeap.obj
  exact getD_append_lt _ _ _ _ hb

theorem set_last {α : Type} (l : List α) (x y : α) : (l ++ [x]).set l.length y = l ++ [y] := by
  simp

theorem whereCall_eq {h : JsHeap} {b : Nat} (hb : b < h.builders.length) (hw : (h.obj b).where_ < h.clauses.length) (w : TsWhere) :
    h.whereCall b w = (h.builders.length, ⟨h.clauses ++ [[], h.clauses.getD (h.obj b).where_ [] ++ [w]], h.orders, h.keys,
      h.builders ++ [{ h.obj b with where_ := h.clauses.length + 1 }]⟩) := by
  simp only [whereCall, newBuilder]
  rw [obj_append hb, set_last, getD_append_lt _ _ _ _ hw]
  simp

theorem orderByCall_eq {h : JsHeap} {b : Nat} (hb : b < h.builders.length) (o : Bytes × TsDir) :
    h.orderByCall b o = (h.builders.length, ⟨h.clauses ++ [[]], h.orders ++ [h.orderList (h.obj b) ++ [o]], h.keys,
      h.builders ++ [{ h.obj b with orderBy := some h.orders.length }]⟩) := by
  simp only [orderByCall, newBuilder]
  rw [obj_append hb, set_last]
  rfl

theorem selectCall_eq {h : JsHeap} {b : Nat} (hb : b < h.builders.length) (r : Nat) :
    h.selectCall b r = (h.builders.length, ⟨h.clauses ++ [[]], h.orders, h.keys,
      h.builders ++ [{ h.obj b with select := some r }]⟩) := by
  simp only [selectCall, newBuilder]
  rw [obj_append hb, set_last]

theorem limitCall_eq {h : JsHeap} {b : Nat} (hb : b < h.builders.length) (n : Nat) :
    h.limitCall b n = (h.builders.length, ⟨h.clauses ++ [[]], h.orders, h.keys,
      h.builders ++ [{ h.obj b with limit := some n }]⟩) := by
  simp only [limitCall, newBuilder]
  rw [obj_append hb, set_last]

theorem toQueryCall_eq (h : JsHeap) (b : Nat) : (h.toQueryCall b).2 = ⟨h.clauses ++ [h.clauses.getD (h.obj b).where_ []],
    h.orders ++ ((h.obj b).orderBy.map (fun r => h.orders.getD r [])).toList,
    h.keys ++ ((h.obj b).select.map (fun r => h.keys.getD r [])).toList, h.builders⟩ := by
  simp only [toQueryCall]
  cases (h.obj b).orderBy <;> cases (h.obj b).select <;> simp

theorem ObjOK.grow {h : JsHeap} {own : Own} {o : QueryObj} (ho : ObjOK h own o) (a : List (List TsWhere))
    (b : List (List (Bytes × TsDir))) (c : List (List Bytes)) (bs : List QueryObj) :
    ObjOK ⟨h.clauses ++ a, h.orders ++ b, h.keys ++ c, bs⟩ own o := by
  refine ⟨⟨?_, ho.w.2⟩, fun r hr => ⟨?_, (ho.o r hr).2⟩, fun r hr => ⟨?_, (ho.s r hr).2⟩⟩
  · have := ho.w.1; simp; omega
  · have := (ho.o r hr).1; simp; omega
  · have := (ho.s r hr).1; simp; omega

theorem builder_inv {h : JsHeap} {qs : List TsQuery} {own : Own} (hr : BuilderRun h qs own) : BInv h qs own := by
  induction hr with
  | start => exact ⟨rfl, by simp, by simp, by simp, by simp⟩
  | new _ hi =>
    rename_i h qs own _
    have hk := Keeps.more (h := h) (own := own) [[]] [] [] (h.builders ++ [⟨h.clauses.length, none, none, none⟩])
    have := hi.add hk rfl ⟨⟨by simp, fun hc => Nat.lt_irrefl _ (hi.c _ hc)⟩, by simp, by simp⟩
    have he : JsHeap.read ⟨h.clauses ++ [[]], h.orders ++ [], h.keys ++ [], h.builders ++ [⟨h.clauses.length, none, none, none⟩]⟩
        ⟨h.clauses.length, none, none, none⟩ = emptyQuery := by
      simp only [JsHeap.read, getD_append_len]; rfl
    rw [he] at this
    simpa [newBuilder] using this
  | where_ w _ hb hi =>
    rename_i h qs own b q _
    obtain ⟨h1, h2, h3⟩ := obj_of hi hb
    have hok := hi.ok _ h2
    rw [whereCall_eq h1 hok.w.1]
    have hk := Keeps.more (h := h) (own := own) [[], h.clauses.getD (h.obj b).where_ [] ++ [w]] [] []
      (h.builders ++ [{ h.obj b with where_ := h.clauses.length + 1 }])
    have hg := hok.grow [[], h.clauses.getD (h.obj b).where_ [] ++ [w]] [] [] (h.builders ++ [{ h.obj b with where_ := h.clauses.length + 1 }])
    have := hi.add hk rfl ⟨⟨by simp, fun hc => by have := hi.c _ hc; simp at this; omega⟩, hg.o, hg.s⟩
    have he : JsHeap.read ⟨h.clauses ++ [[], h.clauses.getD (h.obj b).where_ [] ++ [w]], h.orders ++ [], h.keys ++ [],
        h.builders ++ [{ h.obj b with where_ := h.clauses.length + 1 }]⟩ { h.obj b with where_ := h.clauses.length + 1 } =
        { q with where_ := q.where_ ++ [w] } := by
      rw [← h3]
      simp [JsHeap.read, List.getD]
    rw [he] at this
    simpa using this
  | orderBy o _ hb hi =>
    rename_i h qs own b q _
    obtain ⟨h1, h2, h3⟩ := obj_of hi hb
    have hok := hi.ok _ h2
    rw [orderByCall_eq h1]
    have hk := Keeps.more (h := h) (own := own) [[]] [h.orderList (h.obj b) ++ [o]] [] (h.builders ++ [{ h.obj b with orderBy := some h.orders.length }])
    have hg := hok.grow [[]] [h.orderList (h.obj b) ++ [o]] [] (h.builders ++ [{ h.obj b with orderBy := some h.orders.length }])
    have := hi.add hk rfl ⟨hg.w, fun r hr => by
      simp only [Option.some.injEq] at hr; subst hr
      exact ⟨by simp, fun hc => Nat.lt_irrefl _ (hi.o _ hc)⟩, hg.s⟩
    have he : JsHeap.read ⟨h.clauses ++ [[]], h.orders ++ [h.orderList (h.obj b) ++ [o]], h.keys ++ [],
        h.builders ++ [{ h.obj b with orderBy := some h.orders.length }]⟩ { h.obj b with orderBy := some h.orders.length } =
        { q with orderBy := some (q.orderBy.getD [] ++ [o]) } := by
      rw [← h3]
      simp only [JsHeap.read, Option.map_some, getD_append_len, List.append_nil, getD_append_lt _ _ _ _ hok.w.1]
      congr 3
      unfold orderList
      cases (h.obj b).orderBy <;> rfl
    rw [he] at this
    simpa using this
  | select _ hb hks hi =>
    rename_i h qs own b q r ks _
    obtain ⟨h1, h2, h3⟩ := obj_of hi hb
    have hok := hi.ok _ h2
    have hr := (List.getElem?_eq_some_iff.1 hks).1
    rw [selectCall_eq h1]
    have hi' : BInv h qs { own with keys := own.keys.filter (fun x => decide (x ≠ r)) } := by
      refine hi.arrays (Keeps.more (h := h) (own := own) [] [] [] h.builders |> fun k => ⟨by simpa using k.c, by simpa using k.o, by simpa using k.k⟩) rfl
        (fun x hx => ⟨hi.c x hx, .inl hx⟩) (fun x hx => ⟨hi.o x hx, .inl hx⟩) (fun x hx => ?_)
      have := (List.mem_filter.1 hx).1
      exact ⟨hi.k x this, .inl this⟩
    have hok := hi'.ok _ h2
    have hk := Keeps.more (h := h) (own := { own with keys := own.keys.filter (fun x => decide (x ≠ r)) }) [[]] [] []
      (h.builders ++ [{ h.obj b with select := some r }])
    have hg := hok.grow [[]] [] [] (h.builders ++ [{ h.obj b with select := some r }])
    have := hi'.add hk rfl ⟨hg.w, hg.o, fun x hx => by
      simp only [Option.some.injEq] at hx; subst hx
      exact ⟨by simpa using hr, by simp⟩⟩
    have he : JsHeap.read ⟨h.clauses ++ [[]], h.orders ++ [], h.keys ++ [],
        h.builders ++ [{ h.obj b with select := some r }]⟩ { h.obj b with select := some r } =
        { q with select := some ks } := by
      rw [← h3]
      simp only [JsHeap.read, Option.map_some, List.append_nil, getD_append_lt _ _ _ _ hok.w.1]
      simp [List.getD, hks]
    rw [he] at this
    simpa using this
  | limit n _ hb hi =>
    rename_i h qs own b q _
    obtain ⟨h1, h2, h3⟩ := obj_of hi hb
    have hok := hi.ok _ h2
    rw [limitCall_eq h1]
    have hk := Keeps.more (h := h) (own := own) [[]] [] [] (h.builders ++ [{ h.obj b with limit := some n }])
    have hg := hok.grow [[]] [] [] (h.builders ++ [{ h.obj b with limit := some n }])
    have := hi.add hk rfl ⟨hg.w, hg.o, hg.s⟩
    have he : JsHeap.read ⟨h.clauses ++ [[]], h.orders ++ [], h.keys ++ [],
        h.builders ++ [{ h.obj b with limit := some n }]⟩ { h.obj b with limit := some n } = { q with limit := some n } := by
      rw [← h3]
      simp only [JsHeap.read, List.append_nil, getD_append_lt _ _ _ _ hok.w.1]
    rw [he] at this
    simpa using this
  | toQuery _ hb hi =>
    rename_i h qs own b q _
    rw [toQueryCall_eq]
    refine hi.arrays (Keeps.more _ _ _ _) rfl ?_ ?_ ?_
    · intro r hr
      simp only [toQueryCall, List.mem_cons] at hr
      rcases hr with rfl | hr
      · exact ⟨by simp, .inr (Nat.le_refl _)⟩
      · exact ⟨by have := hi.c r hr; simp; omega, .inl hr⟩
    · intro r hr
      simp only [toQueryCall, List.mem_append, Option.mem_toList, Option.map_eq_some_iff] at hr
      rcases hr with ⟨x, hx, rfl⟩ | hr
      · rw [hx]; exact ⟨by simp, .inr (Nat.le_refl _)⟩
      · exact ⟨by have := hi.o r hr; simp; omega, .inl hr⟩
    · intro r hr
      simp only [toQueryCall, List.mem_append, Option.mem_toList, Option.map_eq_some_iff] at hr
      rcases hr with ⟨x, hx, rfl⟩ | hr
      · rw [hx]; exact ⟨by simp, .inr (Nat.le_refl _)⟩
      · exact ⟨by have := hi.k r hr; simp; omega, .inl hr⟩
  | alloc ks _ hi =>
    rename_i h qs own _
    refine hi.arrays (h' := { h with keys := h.keys ++ [ks] }) ?_ rfl (fun r hr => ⟨hi.c r hr, .inl hr⟩) (fun r hr => ⟨hi.o r hr, .inl hr⟩) ?_
    · have k := Keeps.more (h := h) (own := own) [] [] [ks] h.builders
      exact ⟨by simpa using k.c, by simpa using k.o, k.k⟩
    · intro r hr
      rcases List.mem_cons.1 hr with rfl | hr
      · exact ⟨by simp, .inr (Nat.le_refl _)⟩
      · exact ⟨by have := hi.k r hr; simp; omega, .inl hr⟩
  | setClauses xs _ hm hi =>
    refine hi.arrays ⟨⟨by simp, fun x _ hx => getD_set_ne _ _ _ _ _ (fun h => hx (h ▸ hm))⟩, ⟨Nat.le_refl _, fun _ _ _ => rfl⟩, ⟨Nat.le_refl _, fun _ _ _ => rfl⟩⟩ rfl
      (fun r hr => ⟨by simpa using hi.c r hr, .inl hr⟩) (fun r hr => ⟨hi.o r hr, .inl hr⟩) (fun r hr => ⟨hi.k r hr, .inl hr⟩)
  | setOrders xs _ hm hi =>
    refine hi.arrays ⟨⟨Nat.le_refl _, fun _ _ _ => rfl⟩, ⟨by simp, fun x _ hx => getD_set_ne _ _ _ _ _ (fun h => hx (h ▸ hm))⟩, ⟨Nat.le_refl _, fun _ _ _ => rfl⟩⟩ rfl
      (fun r hr => ⟨hi.c r hr, .inl hr⟩) (fun r hr => ⟨by simpa using hi.o r hr, .inl hr⟩) (fun r hr => ⟨hi.k r hr, .inl hr⟩)
  | setKeys xs _ hm hi =>
    refine hi.arrays ⟨⟨Nat.le_refl _, fun _ _ _ => rfl⟩, ⟨Nat.le_refl _, fun _ _ _ => rfl⟩, ⟨by simp, fun x _ hx => getD_set_ne _ _ _ _ _ (fun h => hx (h ▸ hm))⟩⟩ rfl
      (fun r hr => ⟨hi.c r hr, .inl hr⟩) (fun r hr => ⟨hi.o r hr, .inl hr⟩) (fun r hr => ⟨by simpa using hi.k r hr, .inl hr⟩)

/-- C58: along every history, every builder stands for the query it was made for, whatever was called afterwards, on it or
on others; `toQuery` returns exactly this query.  Missing: the program must not modify an array that it gave to
`select` (`C58_select_violated`). -/
theorem C58_builder_partial {h : JsHeap} {qs : List TsQuery} {own : Own} (hr : BuilderRun h qs own) :
    h.builders.length = qs.length ∧
    ∀ b q, qs[b]? = some q → h.read (h.obj b) = q ∧ (h.toQueryCall b).2.read (h.toQueryCall b).1 = q := by
  have hi := builder_inv hr
  refine ⟨by rw [← hi.view, List.length_map], fun b q hb => ?_⟩
  obtain ⟨h1, h2, h3⟩ := obj_of hi hb
  refine ⟨h3, ?_⟩
  rw [toQueryCall_eq, ← h3]
  simp only [toQueryCall, JsHeap.read, getD_append_len]
  cases (h.obj b).orderBy <;> cases (h.obj b).select <;> simp

/-- A call made on builder `b` returns the number of a new builder; the query of the new builder is the last one of the list. -/
theorem C58_where_new {h : JsHeap} {qs : List TsQuery} {own : Own} (hr : BuilderRun h qs own) {b : Nat} {q : TsQuery}
    (hb : qs[b]? = some q) (w : TsWhere) (o : Bytes × TsDir) (n : Nat) :
    (h.whereCall b w).2.read ((h.whereCall b w).2.obj (h.whereCall b w).1) = { q with where_ := q.where_ ++ [w] } ∧
    (h.orderByCall b o).2.read ((h.orderByCall b o).2.obj (h.orderByCall b o).1) =
      { q with orderBy := some (q.orderBy.getD [] ++ [o]) } ∧
    (h.limitCall b n).2.read ((h.limitCall b n).2.obj (h.limitCall b n).1) = { q with limit := some n } := by
  have hl : qs.length = h.builders.length := (C58_builder_partial hr).1.symm
  obtain ⟨h1, h2, h3⟩ := obj_of (builder_inv hr) hb
  have hok := (builder_inv hr).ok _ h2
  refine ⟨?_, ?_, ?_⟩
  · have e : (h.whereCall b w).1 = qs.length := by rw [whereCall_eq h1 hok.w.1, hl]
    rw [e]
    exact ((C58_builder_partial (hr.where_ w hb)).2 qs.length _ (by simp)).1
  · have e : (h.orderByCall b o).1 = qs.length := by rw [orderByCall_eq h1, hl]
    rw [e]
    exact ((C58_builder_partial (hr.orderBy o hb)).2 qs.length _ (by simp)).1
  · have e : (h.limitCall b n).1 = qs.length := by rw [limitCall_eq h1, hl]
    rw [e]
    exact ((C58_builder_partial (hr.limit n hb)).2 qs.length _ (by simp)).1

/-- C58 is violated: in every history, a builder made by `select` changes when the array given to `select` is modified. -/
theorem C58_select_violated {h : JsHeap} {qs : List TsQuery} {own : Own} (hr : BuilderRun h qs own) {b : Nat} {q : TsQuery}
    (hb : qs[b]? = some q) {r : Nat} {ks : List Bytes} (hks : h.keys[r]? = some ks) (ks' : List Bytes) :
    let h1 := (h.selectCall b r).2
    let n := (h.selectCall b r).1
    (h1.read (h1.obj n)).select = some ks ∧
      (JsHeap.read { h1 with keys := h1.keys.set r ks' } (h1.obj n)).select = some ks' := by
  obtain ⟨h1, h2, h3⟩ := obj_of (builder_inv hr) hb
  have hlt := (List.getElem?_eq_some_iff.1 hks).1
  rw [selectCall_eq h1]
  simp [JsHeap.read, JsHeap.obj, List.getD, hlt, (List.getElem?_eq_some_iff.1 hks).2]

/-- A history: an array of keys; a builder, `where`, twice `orderBy` on its result; `select`; a `toQuery` whose array the
program then modifies. -/
def bW : TsWhere := ⟨[97], .eq, .null⟩
theorem bRun58 : ∃ h own, BuilderRun h [emptyQuery, ⟨[bW], none, none, none⟩, ⟨[bW], some [([97], .asc)], none, none⟩,
    ⟨[bW], some [([97], .desc)], none, none⟩, ⟨[bW], none, some [[98]], none⟩] own := by
  have h1 := BuilderRun.alloc [[98]] .start
  have h2 := h1.new.where_ (b := 0) bW rfl
  have h3 := (h2.orderBy (b := 1) ([97], .asc) rfl).orderBy (b := 1) ([97], .desc) rfl
  have h4 := h3.select (b := 1) (r := 0) (ks := [[98]]) rfl rfl
  have h5 := h4.toQuery (b := 4) rfl
  exact ⟨_, _, h5.setKeys (r := 1) [] (by decide)⟩

example : ∃ h own, BuilderRun h [emptyQuery, ⟨[bW], none, none, none⟩, ⟨[bW], some [([97], .asc)], none, none⟩,
    ⟨[bW], some [([97], .desc)], none, none⟩, ⟨[bW], none, some [[98]], none⟩] own ∧
    h.read (h.obj 1) = ⟨[bW], none, none, none⟩ ∧ h.read (h.obj 4) = ⟨[bW], none, some [[98]], none⟩ := by
  obtain ⟨h, own, hr⟩ := bRun58
  exact ⟨h, own, hr, ((C58_builder_partial hr).2 1 _ rfl).1, ((C58_builder_partial hr).2 4 _ rfl).1⟩

end Appendable
