import Verif.Spec.TsValidation
/-! C59: query validation. -/
namespace Appendable
open Spec

theorem res_bind_ok {α : Type} {a : Res α} {b : α → Res Unit} : a.bind b = .ok () ↔ ∃ x, a = .ok x ∧ b x = .ok () := by
  cases a <;> simp [Res.bind]

theorem res_and_ok {a b : Res Unit} : a.bind (fun _ => b) = .ok () ↔ a = .ok () ∧ b = .ok () := by
  rw [res_bind_ok]
  exact ⟨fun ⟨x, h⟩ => h, fun h => ⟨(), h⟩⟩

theorem find_first {headers : List JsHeader} {name : Bytes} {h : JsHeader} :
    headers.find? (fun h => h.1 == name) = some h ↔ h.1 = name ∧ FieldTypes headers name h.2 := by
  constructor
  · intro hf
    obtain ⟨h1, as, bs, h2, h3⟩ := List.find?_eq_some_iff_append.1 hf
    have h1' : h.1 = name := by simpa using h1
    refine ⟨h1', as, bs, ?_, fun x hx => by simpa using h3 x hx⟩
    rw [h2, ← h1']
  · rintro ⟨h1, as, bs, h2, h3⟩
    rw [List.find?_eq_some_iff_append]
    refine ⟨by simpa using h1, as, bs, ?_, fun x hx => by simpa using h3 x hx⟩
    rw [h2, ← h1]

theorem find_none {headers : List JsHeader} {name : Bytes} :
    headers.find? (fun h => h.1 == name) = none ↔ ∀ types, ¬ FieldTypes headers name types := by
  constructor
  · rintro hf types ⟨as, bs, h1, _⟩
    have := List.find?_eq_none.1 hf (name, types) (by rw [h1]; simp)
    simp at this
  · intro h
    cases hf : headers.find? (fun h => h.1 == name) with
    | none => rfl
    | some x => exact absurd (find_first.1 hf).2 (h _)

theorem FieldTypes.unique {headers : List JsHeader} {name : Bytes} {a b : List Nat} (ha : FieldTypes headers name a)
    (hb : FieldTypes headers name b) : a = b := by
  have h1 := (find_first (h := (name, a))).2 ⟨rfl, ha⟩
  have h2 := (find_first (h := (name, b))).2 ⟨rfl, hb⟩
  rw [h1] at h2
  simpa using h2

theorem valueCheck_iff (types : List Nat) (v : JsVal) :
    jsValueCheck types v = .ok () ↔ ∃ t ∈ valueTypes v, t ∈ types := by
  cases v <;> simp only [jsValueCheck, valueTypes, jsCheckType]
  · by_cases h : 7 ∈ types <;> simp [h]
  · by_cases h1 : 1 ∈ types <;> by_cases h2 : 2 ∈ types <;> by_cases h3 : 3 ∈ types <;> simp [h1, h2, h3]
  · by_cases h : 6 ∈ types <;> simp [h]
  · by_cases h : 0 ∈ types <;> simp [h]
  · simp
  · simp

theorem validateNode_iff (headers : List JsHeader) (w : JsWhere) :
    jsValidateNode headers w = .ok () ↔ GoodWhere headers w := by
  unfold jsValidateNode GoodWhere
  by_cases ho : w.operation ∈ jsOperations
  · rw [if_neg (by simpa using ho)]
    have ho' : w.operation ∈ [[60], [60, 61], [61, 61], [62, 61], [62]] := ho
    cases hk : w.key with
    | other => simp
    | str key =>
      simp only
      cases hf : headers.find? (fun h => h.1 == key) with
      | none =>
        simp only
        constructor
        · intro h; cases h
        · rintro ⟨_, name, types, h1, h2, _⟩
          cases h1
          exact absurd h2 (find_none.1 hf types)
      | some x =>
        simp only
        obtain ⟨h1, h2⟩ := find_first.1 hf
        rw [valueCheck_iff]
        constructor
        · rintro h
          exact ⟨ho', key, x.2, rfl, h2, h⟩
        · rintro ⟨_, name, types, h3, h4, h5⟩
          cases h3
          rw [FieldTypes.unique h2 h4]; exact h5
  · rw [if_pos (by simpa using ho)]
    constructor
    · intro h; cases h
    · rintro ⟨h, _⟩; exact absurd h ho

theorem validateNodes_iff (headers : List JsHeader) : ∀ ws : List JsWhere,
    jsValidateNodes headers ws = .ok () ↔ ∀ w ∈ ws, GoodWhere headers w
  | [] => by simp [jsValidateNodes]
  | w :: ws => by
    have ih := validateNodes_iff headers ws
    have h := validateNode_iff headers w
    unfold jsValidateNodes
    rw [List.forall_mem_cons, ← ih, ← h, res_and_ok]

theorem validateOrder_iff (key : JsStr) (o : JsOrder) (os : List JsOrder) :
    jsValidateOrderBy key (.arr (o :: os)) = .ok () ↔ GoodOrder key o := by
  unfold GoodOrder
  simp only [jsValidateOrderBy]
  by_cases h1 : o.direction ∈ jsDirections
  · rw [if_neg (by simpa using h1)]
    have h1' : o.direction = [65, 83, 67] ∨ o.direction = [68, 69, 83, 67] := by simpa [jsDirections] using h1
    by_cases h2 : o.key = key
    · rw [if_neg (by simpa using h2)]; simp [h1', h2]
    · rw [if_pos (by simpa using h2)]; simp [h2]
  · rw [if_pos (by simpa using h1)]
    constructor
    · intro h; cases h
    · rintro ⟨h, _⟩; exact absurd (by simpa [jsDirections] using h) h1

theorem hasField_iff (headers : List JsHeader) (s : JsStr) : jsHasField headers s = true ↔ GoodSelect headers s := by
  unfold GoodSelect jsHasField
  cases s with
  | other => simp
  | str n =>
    simp only [List.contains_eq_mem, List.mem_map, Prod.exists, decide_eq_true_eq, JsStr.str.injEq]
    constructor
    · rintro ⟨a, b, h, rfl⟩; exact ⟨a, b, rfl, h⟩
    · rintro ⟨a, b, rfl, h⟩; exact ⟨n, b, h, rfl⟩

theorem validateSelect_iff (headers : List JsHeader) (s : JsArray JsStr) : jsValidateSelect headers s = .ok () ↔
    (s = .absent ∨ ∃ x xs, s = .arr (x :: xs) ∧ ∀ y ∈ x :: xs, GoodSelect headers y) := by
  match s with
  | .absent => simp [jsValidateSelect]
  | .other => simp [jsValidateSelect]
  | .arr [] => simp [jsValidateSelect]
  | .arr (x :: xs) =>
    have : (x :: xs).all (jsHasField headers) = true ↔ ∀ y ∈ x :: xs, GoodSelect headers y := by
      rw [List.all_eq_true]
      exact forall_congr' fun y => imp_congr_right fun _ => hasField_iff headers y
    simp only [jsValidateSelect]
    by_cases h : (x :: xs).all (jsHasField headers) = true
    · rw [if_pos h]
      simp only [true_iff]
      exact .inr ⟨x, xs, rfl, this.1 h⟩
    · rw [if_neg h]
      constructor
      · intro hc; cases hc
      · rintro (hc | ⟨y, ys, hc, h2⟩)
        · cases hc
        · cases hc; exact absurd (this.2 h2) h

theorem grams_iff (types : List Nat) : ([10, 9, 8].filter (fun g => !types.contains g)).length ≠ 0 ↔
    ¬ (8 ∈ types ∧ 9 ∈ types ∧ 10 ∈ types) := by
  by_cases h1 : 8 ∈ types <;> by_cases h2 : 9 ∈ types <;> by_cases h3 : 10 ∈ types <;> simp [h1, h2, h3]

/-- Neither of the gram lengths is NaN. -/
def Spec.NotNaN (s : JsSearch) : Prop := ∀ c, s.config = some c → c.1 ≠ .nan ∧ c.2 ≠ .nan

/-- The comparisons of the gram lengths. -/
theorem gramCheck_iff (a b : JsNum) (ha : a ≠ .nan) (hb : b ≠ .nan) :
    ((JsNum.fin 3).lt b || (JsNum.fin 3).lt a) = false ∧ (a.lt (.fin 1) || b.lt (.fin 1)) = false ∧ b.lt a = false ↔
      ∃ lo hi : Rat, a = .fin lo ∧ b = .fin hi ∧ 1 ≤ lo ∧ lo ≤ hi ∧ hi ≤ 3 := by
  cases a with
  | nan => exact absurd rfl ha
  | negInf => simp [JsNum.lt]
  | posInf => simp [JsNum.lt]
  | fin x =>
    cases b with
    | nan => exact absurd rfl hb
    | negInf => simp [JsNum.lt]
    | posInf => simp [JsNum.lt]
    | fin y =>
      simp only [JsNum.lt, Bool.or_eq_false_iff, decide_eq_false_iff_not, Rat.not_lt, JsNum.fin.injEq]
      constructor
      · rintro ⟨⟨h1, h2⟩, ⟨h3, h4⟩, h5⟩
        exact ⟨x, y, rfl, rfl, h3, h5, h1⟩
      · rintro ⟨lo, hi, rfl, rfl, h1, h2, h3⟩
        exact ⟨⟨h3, Rat.le_trans h2 h3⟩, ⟨h1, Rat.le_trans h1 h2⟩, h2⟩

theorem validateSearch_iff (headers : List JsHeader) (s : JsSearch) (hn : NotNaN s) :
    (∃ c, jsValidateSearch s headers = .ok c) ↔ GoodSearch headers s := by
  have hc : (s.config.getD (.fin 1, .fin 2)).1 ≠ .nan ∧ (s.config.getD (.fin 1, .fin 2)).2 ≠ .nan := by
    cases h : s.config with
    | none => simp
    | some c => exact hn c h
  have hg := gramCheck_iff _ _ hc.1 hc.2
  have hcfg : (∃ lo hi : Rat, (s.config.getD (.fin 1, .fin 2)).1 = .fin lo ∧ (s.config.getD (.fin 1, .fin 2)).2 = .fin hi ∧
      1 ≤ lo ∧ lo ≤ hi ∧ hi ≤ 3) ↔
      (s.config = none ∨ ∃ lo hi : Rat, s.config = some (.fin lo, .fin hi) ∧ 1 ≤ lo ∧ lo ≤ hi ∧ hi ≤ 3) := by
    cases h : s.config with
    | none =>
      simp only [Option.getD_none, true_or, iff_true]
      exact ⟨1, 2, rfl, rfl, by decide, by decide, by decide⟩
    | some c =>
      obtain ⟨a, b⟩ := c
      simp [and_assoc]
  unfold jsValidateSearch GoodSearch
  rw [← hcfg, ← hg]
  generalize (s.config.getD (.fin 1, .fin 2)) = cfg at *
  cases hf : headers.find? (fun h => h.1 == s.key) with
  | none =>
    simp only
    constructor
    · rintro ⟨c, h⟩; cases h
    · rintro ⟨⟨types, h, _⟩, _⟩
      exact absurd h (find_none.1 hf types)
  | some x =>
    simp only
    obtain ⟨h1, h2⟩ := find_first.1 hf
    have hx : (∃ types, FieldTypes headers s.key types ∧ 8 ∈ types ∧ 9 ∈ types ∧ 10 ∈ types) ↔
        (8 ∈ x.2 ∧ 9 ∈ x.2 ∧ 10 ∈ x.2) :=
      ⟨fun ⟨types, g1, g2⟩ => by rw [FieldTypes.unique h2 g1]; exact g2, fun h => ⟨_, h2, h⟩⟩
    rw [hx]
    by_cases h3 : 8 ∈ x.2 ∧ 9 ∈ x.2 ∧ 10 ∈ x.2
    · rw [if_neg (by rw [grams_iff]; exact fun h => h h3)]
      simp only [h3, and_self, true_and]
      generalize ((JsNum.fin 3).lt cfg.2 || (JsNum.fin 3).lt cfg.1) = b1
      generalize (cfg.1.lt (.fin 1) || cfg.2.lt (.fin 1)) = b2
      generalize cfg.2.lt cfg.1 = b3
      cases b1 <;> cases b2 <;> cases b3 <;> simp
    · rw [if_pos (by rw [grams_iff]; exact h3)]
      simp only [h3, false_and, iff_false]
      rintro ⟨c, h⟩; cases h

theorem searchPart_iff (headers : List JsHeader) (q : JsQuery) (hn : ∀ s, q.search = some s → NotNaN s) :
    jsSearchPart headers q.search = .ok () ↔ ∀ s, q.search = some s → GoodSearch headers s := by
  cases h : q.search with
  | none => simp [jsSearchPart]
  | some s =>
    simp only [Option.some.injEq, forall_eq', jsSearchPart]
    rw [← validateSearch_iff headers s (hn s h), res_bind_ok]
    simp

theorem orderBy_good (key : JsStr) (o : JsArray JsOrder)
    (h : o = .absent ∨ ∃ x xs, o = .arr (x :: xs) ∧ ∀ y ∈ x :: xs, GoodOrder key y) : jsValidateOrderBy key o = .ok () := by
  rcases h with rfl | ⟨x, xs, rfl, h⟩
  · rfl
  · exact (validateOrder_iff key x xs).2 (h x (by simp))

theorem orderBy_iff (key : JsStr) (o : JsArray JsOrder) (ho : ∀ os, o = .arr os → os.length ≤ 1) :
    jsValidateOrderBy key o = .ok () ↔ (o = .absent ∨ ∃ x xs, o = .arr (x :: xs) ∧ ∀ y ∈ x :: xs, GoodOrder key y) := by
  refine ⟨fun h => ?_, orderBy_good key o⟩
  match o, ho with
  | .absent, _ => exact .inl rfl
  | .other, _ => cases h
  | .arr [], _ => cases h
  | .arr [x], _ => exact .inr ⟨x, [], rfl, by simpa using (validateOrder_iff key x []).1 h⟩
  | .arr (x :: y :: l), ho =>
    have := ho _ rfl
    simp at this

/-- C59: `validateQuery` accepts exactly the well-typed queries, among the queries that have at most one `orderBy`
clause, no NaN as gram length and, if they have no where clause, no `orderBy` and no `select` clause.  Missing: in the
other queries these parts are not checked (`C59_select_violated`, `C59_order_violated`, `C59_nan_violated`). -/
theorem C59_validate_partial (headers : List JsHeader) (q : JsQuery) (hn : ∀ s, q.search = some s → NotNaN s)
    (ho : ∀ os, q.orderBy = .arr os → os.length ≤ 1) (hw : q.where_ = .absent → q.orderBy = .absent ∧ q.select = .absent) :
    jsValidateQuery q headers = .ok () ↔ GoodQuery headers q := by
  unfold jsValidateQuery GoodQuery
  rw [res_and_ok, searchPart_iff headers q hn]
  refine and_congr_right fun _ => ?_
  unfold jsWherePart
  match hq : q.where_ with
  | .absent => simp [(hw hq).1, (hw hq).2]
  | .other => simp [jsValidateWhere, Res.bind]
  | .arr [] => simp [jsValidateWhere, Res.bind]
  | .arr (w :: ws) =>
    rw [if_neg (by simp)]
    simp only [jsValidateWhere, jsFirstKey]
    rw [res_and_ok, res_and_ok, validateNodes_iff, orderBy_iff _ _ ho, validateSelect_iff, ← and_assoc]
    refine and_congr_left fun _ => ?_
    constructor
    · rintro ⟨h1, h2⟩; exact .inl ⟨w, ws, rfl, h1, h2⟩
    · rintro (⟨w', ws', e, h1, h2⟩ | ⟨e, _⟩)
      · cases e; exact ⟨h1, h2⟩
      · cases e

/-- C59: every well-typed query is accepted. -/
theorem C59_accepts (headers : List JsHeader) (q : JsQuery) (h : GoodQuery headers q) :
    jsValidateQuery q headers = .ok () := by
  obtain ⟨h1, h2, h3⟩ := h
  have hn : ∀ s, q.search = some s → NotNaN s := by
    intro s hs c hc
    rcases (h1 s hs).2 with h | ⟨lo, hi, h, _⟩
    · rw [h] at hc; cases hc
    · rw [h] at hc; cases hc; simp
  unfold jsValidateQuery
  rw [res_and_ok, searchPart_iff headers q hn]
  refine ⟨h1, ?_⟩
  unfold jsWherePart
  rcases h2 with ⟨w, ws, e, h4, h5⟩ | ⟨e, _⟩
  · rw [e, if_neg (by simp)]
    simp only [jsValidateWhere, jsFirstKey]
    rw [res_and_ok, res_and_ok, validateNodes_iff, validateSelect_iff]
    exact ⟨h4, orderBy_good _ _ h5, h3⟩
  · rw [e, if_pos rfl]

/-- C59 is violated: a query without where clause is accepted whatever its `select` and `orderBy` clauses are, e.g. with an
unknown field in `select`. -/
theorem C59_select_violated (headers : List JsHeader) (name : Bytes) (hn : ∀ h ∈ headers, h.1 ≠ name) :
    let q : JsQuery := ⟨.absent, .absent, .arr [.str name], none⟩
    jsValidateQuery q headers = .ok () ∧ ¬ GoodQuery headers q := by
  refine ⟨rfl, ?_⟩
  rintro ⟨_, _, h | ⟨s, ss, h, h2⟩⟩
  · cases h
  · cases h
    obtain ⟨n, t, e, h3⟩ := h2 _ (List.mem_singleton.2 rfl)
    cases e
    exact hn _ h3 rfl

/-- C59 is violated: only the first `orderBy` clause is checked.  A clause on any other key may follow. -/
theorem C59_order_violated (headers : List JsHeader) (w : JsWhere) (hw : GoodWhere headers w) (o : JsOrder) (ho : o.key ≠ w.key) :
    let q : JsQuery := ⟨.arr [w], .arr [⟨w.key, [65, 83, 67]⟩, o], .absent, none⟩
    jsValidateQuery q headers = .ok () ∧ ¬ GoodQuery headers q := by
  refine ⟨?_, ?_⟩
  · simp only [jsValidateQuery, jsSearchPart, jsWherePart, jsValidateWhere, jsFirstKey]
    rw [if_neg (by simp), res_and_ok, res_and_ok, res_and_ok, validateNodes_iff, validateOrder_iff]
    exact ⟨rfl, by simpa using hw, ⟨.inl rfl, rfl⟩, rfl⟩
  · rintro ⟨_, ⟨w', ws', e, _, h | ⟨x, xs, e2, h⟩⟩ | ⟨e, _⟩, _⟩
    · cases h
    · cases e; cases e2
      exact ho (h o (by simp)).2
    · cases e

/-- C59 is violated: NaN as a gram length is accepted. -/
theorem C59_nan_violated (headers : List JsHeader) (key : Bytes) (types : List Nat) (hf : FieldTypes headers key types)
    (h8 : 8 ∈ types) (h9 : 9 ∈ types) (h10 : 10 ∈ types) (hi : JsNum) (hhi : hi = .nan ∨ hi = .fin 2) :
    let q : JsQuery := ⟨.absent, .absent, .absent, some ⟨key, some (.nan, hi)⟩⟩
    jsValidateQuery q headers = .ok () ∧ ¬ GoodQuery headers q := by
  refine ⟨?_, ?_⟩
  · simp only [jsValidateQuery, jsSearchPart, jsWherePart]
    have h1 := (find_first (h := (key, types))).2 ⟨rfl, hf⟩
    have h2 : ¬ ([10, 9, 8].filter (fun g => !types.contains g)).length ≠ 0 := by
      rw [grams_iff]; exact fun h => h ⟨h8, h9, h10⟩
    rw [if_pos trivial, res_and_ok, res_bind_ok]
    refine ⟨⟨(.nan, hi), ?_, rfl⟩, rfl⟩
    simp only [jsValidateSearch, h1, Option.getD_some]
    rw [if_neg h2]
    rcases hhi with rfl | rfl
    · rfl
    · have : (JsNum.fin 3).lt (.fin 2) = false := by decide
      have h' : (JsNum.fin 2).lt (.fin 1) = false := by decide
      have n1 : JsNum.nan.lt (.fin 1) = false := rfl
      have n2 : (JsNum.fin 3).lt .nan = false := rfl
      have n3 : (JsNum.fin 2).lt .nan = false := rfl
      simp only [this, h', n1, n2, n3, Bool.or_self, Bool.false_eq_true, if_false]
  · rintro ⟨h, _⟩
    rcases (h _ rfl).2 with h | ⟨a, b, h, _⟩
    · cases h
    · cases h

/-- A field `a` of strings and numbers, with n-gram indexes. -/
def vHeaders : List JsHeader := [([98], [6]), ([97], [0, 3, 10, 9, 8])]
/-- `where a == "x" order by a DESC select b`, and a search. -/
def vQuery : JsQuery := ⟨.arr [⟨[61, 61], .str [97], .str [120]⟩], .arr [⟨.str [97], [68, 69, 83, 67]⟩], .arr [.str [98]], some ⟨[97], none⟩⟩

theorem vField : FieldTypes vHeaders [97] [0, 3, 10, 9, 8] := ⟨[([98], [6])], [], rfl, by decide⟩
/-- The hypotheses of C59 are met, on both sides of the equivalence. -/
theorem vGood : GoodQuery vHeaders vQuery := by
  rw [← C59_validate_partial vHeaders vQuery (by intro s hs; cases hs; intro c hc; cases hc) (by intro os h; cases h; decide)
    (by intro h; cases h)]
  decide +kernel

example : ¬ GoodQuery vHeaders { vQuery with select := .arr [.str [99]] } := by
  rw [← C59_validate_partial vHeaders _ (by intro s hs; cases hs; intro c hc; cases hc) (by intro os h; cases h; decide)
    (by intro h; cases h)]
  decide +kernel

example := C59_select_violated vHeaders [99] (by decide)
example := C59_order_violated vHeaders ⟨[61, 61], .str [97], .str [120]⟩
  ⟨by decide, [97], [0, 3, 10, 9, 8], rfl, vField, 0, by decide, by decide⟩ ⟨.str [98], []⟩ (by decide)
example := C59_nan_violated vHeaders [97] _ vField (by decide) (by decide) (by decide) .nan (.inl rfl)

end Appendable
