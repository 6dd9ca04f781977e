import Verif.Props.QueryJsonl
import Verif.Spec.Select
/-! C85: `select`. -/
namespace Appendable
open Spec Tree

variable {V : Type} {env : JsEnv V} {num : Bytes → Option UInt64} {val : Doc → V} {r : Rec} {hs : List Bytes}

theorem lookup_setOwn (l : List (Bytes × V)) (k : Bytes) (v : V) (a : Bytes) : (setOwn l k v).lookup a = if a = k then some v else l.lookup a := by
  induction l with
  | nil => by_cases h : a = k <;> simp [setOwn, List.lookup, h, beq_eq_false_iff_ne.2]
  | cons x l ih =>
    obtain ⟨b, x⟩ := x
    unfold setOwn
    by_cases hb : b = k
    · subst hb
      rw [if_pos rfl]
      by_cases h : a = b <;> simp [List.lookup, h, beq_eq_false_iff_ne.2]
    · rw [if_neg hb]
      by_cases h : a = b
      · subst h
        simp [List.lookup, hb]
      · simp [List.lookup, ih, beq_eq_false_iff_ne.2 h]

theorem keys_setOwn (l : List (Bytes × V)) (k : Bytes) (v : V) :
    (setOwn l k v).map (·.1) = if k ∈ l.map (·.1) then l.map (·.1) else l.map (·.1) ++ [k] := by
  induction l with
  | nil => simp [setOwn]
  | cons x l ih =>
    obtain ⟨b, x⟩ := x
    unfold setOwn
    by_cases hb : b = k
    · subst hb; simp
    · rw [if_neg hb, List.map_cons, ih, List.map_cons]
      simp only [List.mem_cons, Ne.symm hb, false_or]
      split <;> simp

theorem nodup_setOwn {l : List (Bytes × V)} (h : (l.map (·.1)).Nodup) (k : Bytes) (v : V) : ((setOwn l k v).map (·.1)).Nodup := by
  rw [keys_setOwn]
  split
  · exact h
  · rename_i hk
    rw [List.nodup_append]
    exact ⟨h, by simp, fun a ha b hb e => hk (by simp at hb; rw [← hb, ← e]; exact ha)⟩

theorem inherited_eq : objectPrototype = inheritedNames := rfl

theorem proto_mem : protoName ∈ inheritedNames := by decide +kernel

/-- The own properties after a step. -/
def pickOwn (row own : List (Bytes × V)) (f : Bytes) : List (Bytes × V) :=
  match row.lookup f with
  | some v => setOwn own f v
  | none => own

theorem lookup_pickOwn (row own : List (Bytes × V)) (f k : Bytes) :
    (pickOwn row own f).lookup k = if k = f ∧ (row.lookup k).isSome then row.lookup k else own.lookup k := by
  unfold pickOwn
  split
  · rename_i v h
    rw [lookup_setOwn]
    by_cases hk : k = f
    · subst hk; simp [h]
    · simp [hk]
  · rename_i h
    by_cases hk : k = f
    · subst hk; simp [h]
    · simp [hk]

theorem fold_select (row : List (Bytes × V)) : ∀ (fs : List Bytes) (acc : JsObject V), (∀ f ∈ fs, f ∉ inheritedNames) → (acc.own.map (·.1)).Nodup →
    (fs.foldl (selectStep env row) acc).proto = acc.proto ∧ ((fs.foldl (selectStep env row) acc).own.map (·.1)).Nodup ∧
    ∀ k, (fs.foldl (selectStep env row) acc).own.lookup k = if k ∈ fs ∧ (row.lookup k).isSome then row.lookup k else acc.own.lookup k
  | [], acc, _, h => ⟨rfl, h, by simp⟩
  | f :: fs, acc, hf, h => by
    have hp : f ≠ protoName := fun e => hf f (by simp) (e ▸ proto_mem)
    rw [List.foldl_cons]
    have hstep : selectStep env row acc f = ⟨pickOwn row acc.own f, acc.proto⟩ := by
      unfold selectStep pickOwn
      cases row.lookup f with
      | none => exact if_neg (inherited_eq ▸ hf f (by simp))
      | some v => simp only [JsObject.assign, if_neg hp]
    rw [hstep]
    obtain ⟨h1, h2, h3⟩ := fold_select row fs ⟨pickOwn row acc.own f, acc.proto⟩
      (fun x hx => hf x (by simp [hx])) (by
        unfold pickOwn
        split
        · exact nodup_setOwn h f _
        · exact h)
    refine ⟨h1, h2, fun k => ?_⟩
    rw [h3]
    simp only [lookup_pickOwn, List.mem_cons]
    generalize row.lookup k = L
    grind

/-- C85 (partial: names that are not properties of `Object.prototype`): with `select`, the row of a record has exactly the selected fields that
the record has, with their values. -/
theorem C85_select_partial (hj : ReadsJson env val r) {fields : List Bytes} (hne : fields ≠ [])
    (hno : ∀ f ∈ fields, f ∉ inheritedNames) : ∃ row, handleSelect env r.text (some fields) = .ok row ∧ Projects val r fields row := by
  obtain ⟨row, h1, h2, h3⟩ := hj
  obtain ⟨g1, g2, g3⟩ := fold_select (env := env) row fields ⟨[], none⟩ hno (by simp)
  refine ⟨fields.foldl (selectStep env row) ⟨[], none⟩, ?_, g1, g2, fun k => ?_⟩
  · unfold handleSelect
    rw [h1]
    cases fields with
    | nil => exact absurd rfl hne
    | cons => rfl
  · rw [g3, h3]
    by_cases hk : k ∈ fields
    · cases r.member k <;> simp [hk]
    · simp [hk]

/-- C85: without `select`, or with an empty one, the row of a record has all its fields, with their values. -/
theorem C85_all (hj : ReadsJson env val r) {select : Option (List Bytes)} (hs : select = none ∨ select = some []) :
    ∃ row, handleSelect env r.text select = .ok row ∧ row.proto = none ∧ (row.own.map (·.1)).Nodup ∧ ∀ k, row.own.lookup k = (r.member k).map val := by
  obtain ⟨row, h1, h2, h3⟩ := hj
  refine ⟨⟨row, none⟩, ?_, rfl, h2, h3⟩
  unfold handleSelect
  rw [h1]
  rcases hs with rfl | rfl <;> rfl

theorem handle_one {text : Bytes} {row : List (Bytes × V)} (h : env.parse text = .ok row) (k : Bytes) :
    handleSelect env text (some [k]) = .ok (selectStep env row ⟨[], none⟩ k) := by
  unfold handleSelect
  rw [h]
  rfl

/-- C85 is violated: selecting a property of `Object.prototype`, such as `toString`, gives a row with that field although the record has none. -/
theorem C85_inherited_violated (hj : ReadsJson env val r) {k : Bytes} (hk : k ∈ inheritedNames) (hp : k ≠ protoName)
    (hm : r.member k = none) : ∃ row, handleSelect env r.text (some [k]) = .ok row ∧ row.own = [(k, env.inherited k)] := by
  obtain ⟨row, h1, h2, h3⟩ := hj
  have hl : row.lookup k = none := by rw [h3, hm]; rfl
  refine ⟨_, handle_one h1 _, ?_⟩
  · simp [selectStep, hl, inherited_eq, hk, JsObject.assign, hp, setOwn]

/-- C85 is violated: a field named `__proto__` is never in the row. -/
theorem C85_proto_violated (hj : ReadsJson env val r) {v : Doc} (hm : r.member protoName = some v) :
    ∃ row, handleSelect env r.text (some [protoName]) = .ok row ∧ row.own = [] := by
  obtain ⟨row, h1, h2, h3⟩ := hj
  have hl : row.lookup protoName = some (val v) := by rw [h3, hm]; rfl
  refine ⟨_, handle_one h1 _, ?_⟩
  · simp only [selectStep, hl, JsObject.assign, if_true]
    split <;> rfl

/-- C85 is violated: a nested field has the indexed name `a.b`, by which it can be queried, but selecting that name gives an empty row. -/
theorem C85_nested_violated (hj : ReadsJson env val r) {f : Field} (_hf : f ∈ r.fields num) (hm : r.member f.name = none)
    (hno : f.name ∉ inheritedNames) : ∃ row, handleSelect env r.text (some [f.name]) = .ok row ∧ row.own = [] := by
  obtain ⟨row, h1, h2, h3⟩ := hj
  have hl : row.lookup f.name = none := by rw [h3, hm]; rfl
  refine ⟨_, handle_one h1 _, ?_⟩
  · simp [selectStep, hl, inherited_eq, hno]

/-! ### With a query -/

variable {nfkd : Bytes → Bytes} {data tail name : Bytes} {i : IndexFile} {s : PF} {recs : List Rec} {db : TsDb}

theorem rowsFor_ok {β : Type} {select : Bytes → Res β} : ∀ {ls : List Bytes}, (∀ l ∈ ls, ∃ b, select l = .ok b) →
    ∃ rows : List β, rowsFor select ls = ⟨rows, none⟩ ∧ rows.length = ls.length ∧ ∀ (k : Nat) (l : Bytes) (b : β), ls[k]? = some l → rows[k]? = some b → select l = .ok b
  | [], _ => ⟨[], rfl, rfl, by simp⟩
  | l :: ls, h => by
    obtain ⟨b, hb⟩ := h l (by simp)
    obtain ⟨rows, h1, h2, h3⟩ := rowsFor_ok (ls := ls) (fun x hx => h x (by simp [hx]))
    refine ⟨b :: rows, ?_, by simp [h2], ?_⟩
    · rw [rowsFor, hb, h1]
    · intro k l' b' hl hb'
      cases k with
      | zero =>
        simp only [List.getElem?_cons_zero, Option.some.injEq] at hl hb'
        subst hl; subst hb'; exact hb
      | succ k => exact h3 k l' b' (by simpa using hl) (by simpa using hb')

/-- C85 (partial: as above, for the queries of C82): the rows of a query are the projections of the lines that meet the condition, in their
order. -/
theorem C85_query_partial (h : QueryFile num nfkd hs data i s recs tail db) (hj : ∀ r ∈ recs, ReadsJson env val r) {q : TsQuery} {op : TsOp} {value : JsVal} {w : Tok}
    {d : TsDir} (hq : q.where_ = [⟨name, op, value⟩]) (hv : tokOf value = some w) (hne : valuesOf num name w recs ≠ [])
    (hex : Exact op q.dir (indexBytes num nfkd hs name w recs) d) {fields : List Bytes} (hsel : q.select = some fields) (hf : fields ≠ [])
    (hno : ∀ f ∈ fields, f ∉ inheritedNames) :
    ∃ (out : List (Tok × Bytes)) (rows : List (JsObject V)), IsAnswer num name op w recs d out ∧
      Returns db (fun line => handleSelect env line q.select) q ⟨rows, none⟩ ∧ rows.length = out.length ∧
      ∀ (k : Nat) (x : Tok × Bytes) (row : JsObject V), out[k]? = some x → rows[k]? = some row → ∃ r ∈ recs, x.2 = r.text ∧ Projects val r fields row := by
  obtain ⟨out, h1, h2⟩ := C82_query_partial h hq hv hne hex (fun line => handleSelect env line q.select)
  have hrec : ∀ x ∈ out, ∃ r ∈ recs, x.2 = r.text := by
    intro x hx
    have := (List.mem_filter.1 (h1.1.mem_iff.1 hx)).1
    unfold valuesOf at this
    obtain ⟨r, hr, hx⟩ := List.mem_flatMap.1 this
    obtain ⟨f, _, rfl⟩ := List.mem_map.1 hx
    exact ⟨r, hr, rfl⟩
  have hsome : ∀ l ∈ out.map (·.2), ∃ b, handleSelect env l q.select = .ok b := by
    intro l hl
    obtain ⟨x, hx, rfl⟩ := List.mem_map.1 hl
    obtain ⟨r, hr, he⟩ := hrec x hx
    obtain ⟨row, h3, _⟩ := C85_select_partial (hj r hr) hf hno
    exact ⟨row, by rw [hsel, he, h3]⟩
  obtain ⟨rows, r1, r2, r3⟩ := rowsFor_ok hsome
  rw [r1] at h2
  refine ⟨out, rows, h1, h2, by rw [r2, List.length_map], fun k x row hx hrow => ?_⟩
  obtain ⟨r, hr, he⟩ := hrec x (List.mem_of_getElem? hx)
  obtain ⟨row', h3, h4⟩ := C85_select_partial (hj r hr) hf hno
  have h5 := r3 k x.2 row (by rw [List.getElem?_map, hx]; rfl) hrow
  rw [hsel, he, h3] at h5
  cases h5
  exact ⟨r, hr, he, h4⟩

/-! ### Concrete rows -/

/-- A client that reads `{"a":{"b":true}}`, the value `true` as 1 and other values as 0. -/
def sEnv : JsEnv Nat := ⟨fun _ => .ok [([97], 0)], fun _ => 7, fun v => v == 0⟩
def sRec : Rec := ⟨[], [], .cons [] [.plain 97] [] [] (.obj [] (.cons [] [.plain 98] [] [] (.bool true) [] .nil)) [] .nil, []⟩
def sVal : Doc → Nat
  | .bool true => 1
  | _ => 0

theorem sReads : ReadsJson sEnv sVal sRec := by
  refine ⟨[([97], 0)], rfl, by simp, fun k => ?_⟩
  have : sRec.member k = if k = [97] then some (.obj [] (.cons [] [.plain 98] [] [] (.bool true) [] .nil)) else none := by
    unfold Rec.member sRec
    simp only [Members.list, List.reverse_singleton, List.lookup]
    have hk : Lit.value [.plain 97] = [97] := by decide
    rw [hk]
    by_cases h : k = [97]
    · simp [h]
    · simp [h, beq_eq_false_iff_ne.2]
  rw [this]
  by_cases h : k = [97]
  · subst h; rfl
  · simp [h, List.lookup, beq_eq_false_iff_ne.2]

theorem sRec_fields : sRec.fields (fun _ => none) = [⟨[97], .lbrace, 5, 6⟩, ⟨[97, 46, 98], .bool true, 10, 14⟩] := by decide +kernel

/-- Non-vacuity of C85: selecting `a` and `c` of the record gives `a`. -/
example : ∃ row, handleSelect sEnv sRec.text (some [[97], [99]]) = .ok row ∧ Projects sVal sRec [[97], [99]] row :=
  C85_select_partial sReads (by simp) (by decide +kernel)

/-- C85 is violated: of the record `{"a":{"b":true}}`, `toString` can be selected although it has no such field, and `a.b` cannot. -/
theorem C85_concrete_violated :
    handleSelect sEnv sRec.text (some [[116, 111, 83, 116, 114, 105, 110, 103]]) = .ok ⟨[([116, 111, 83, 116, 114, 105, 110, 103], 7)], none⟩ ∧
    handleSelect sEnv sRec.text (some [[97, 46, 98]]) = .ok ⟨[], none⟩ := by
  decide +kernel

/-- `{"__proto__":true}` -/
def tRec : Rec := ⟨[], [], .cons [] (protoName.map (fun c => .plain c.toNat)) [] [] (.bool true) [] .nil, []⟩
def tEnv : JsEnv Nat := ⟨fun _ => .ok [(protoName, 1)], fun _ => 7, fun v => v == 0⟩

theorem tMember (k : Bytes) : tRec.member k = if k = protoName then some (.bool true) else none := by
  unfold Rec.member tRec
  simp only [Members.list, List.reverse_singleton, List.lookup]
  have hk : Lit.value (protoName.map (fun c => .plain c.toNat)) = protoName := by decide
  rw [hk]
  by_cases h : k = protoName
  · simp [h]
  · simp [h, beq_eq_false_iff_ne.2]

/-- Non-vacuity of `C85_proto_violated`. -/
example : ∃ row, handleSelect tEnv tRec.text (some [protoName]) = .ok row ∧ row.own = [] := by
  refine C85_proto_violated (val := sVal) ⟨[(protoName, 1)], rfl, by simp, fun k => ?_⟩ (v := .bool true) (by rw [tMember, if_pos rfl])
  rw [tMember]
  by_cases h : k = protoName
  · subst h; simp [sVal]
  · simp [h, List.lookup, beq_eq_false_iff_ne.2]

end Appendable
