import Verif.Model.TsTable
/-! C51: the ranking table. -/
namespace Appendable
namespace Spec

/-- An operation on a table. -/
inductive TableOp (K S : Type) where
  | insert (key : K) (score : S)
  | clear

/-- The table after some operations. -/
def tableAfter {K S : Type} [BEq K] (ops : ScoreOps S) (h : List (TableOp K S)) : PriorityTable K S :=
  h.foldl (fun t op => match op with
    | .insert k s => tableInsert ops t k s
    | .clear => tableClear t) []

/-- The insertions since the last `clear`. -/
def inserted {K S : Type} (h : List (TableOp K S)) : List (K × S) :=
  h.foldl (fun l op => match op with
    | .insert k s => l ++ [(k, s)]
    | .clear => []) []

/-- The sum of the scores given to a key, added in the order of the insertions. -/
def scoreOf {K S : Type} [DecidableEq K] (ops : ScoreOps S) (ins : List (K × S)) (k : K) : S :=
  ((ins.filter (fun e => e.1 = k)).map (·.2)).foldl ops.add ops.zero

/-- The keys in the order of their first insertion. -/
def firstSeen {K S : Type} [DecidableEq K] (ins : List (K × S)) : List K :=
  ins.foldl (fun l e => if e.1 ∈ l then l else l ++ [e.1]) []

end Spec
open Spec

variable {K S : Type} [DecidableEq K]

theorem tableGet_map (ks : List K) (f : K → S) (key : K) :
    tableGet (ks.map (fun k => (k, f k))) key = if key ∈ ks then some (f key) else none := by
  unfold tableGet
  induction ks with
  | nil => rfl
  | cons k ks ih =>
    rw [List.map_cons, List.find?_cons]
    by_cases h : k = key
    · subst h; simp
    · have : (k == key) = false := by simpa using h
      simp only [this]
      rw [ih]
      have h' : key ≠ k := fun e => h e.symm
      simp [h']

theorem tableSet_map (ks : List K) (f : K → S) (key : K) (v : S) (hn : ks.Nodup) :
    tableSet key v (ks.map (fun k => (k, f k))) =
      (if key ∈ ks then ks else ks ++ [key]).map (fun k => (k, if k = key then v else f k)) := by
  induction ks with
  | nil => simp [tableSet]
  | cons k ks ih =>
    rw [List.nodup_cons] at hn
    rw [List.map_cons, tableSet]
    by_cases h : k = key
    · subst h
      simp only [beq_self_eq_true, if_true, List.mem_cons, true_or, List.map_cons]
      congr 1
      refine List.map_congr_left fun x hx => ?_
      rw [if_neg (fun e : x = k => hn.1 (e ▸ hx))]
    · have hb : (k == key) = false := by simpa using h
      have h' : key ≠ k := fun e => h e.symm
      simp only [hb, Bool.false_eq_true, if_false]
      rw [ih hn.2]
      by_cases hm : key ∈ ks
      · simp [hm, h]
      · simp [hm, h, h']

theorem firstSeen_append (ins : List (K × S)) (e : K × S) :
    firstSeen (ins ++ [e]) = if e.1 ∈ firstSeen ins then firstSeen ins else firstSeen ins ++ [e.1] := by
  unfold firstSeen
  rw [List.foldl_append]
  rfl

theorem reverse_ind {α : Type} {P : List α → Prop} (h0 : P []) (h1 : ∀ l a, P l → P (l ++ [a])) (l : List α) : P l := by
  have : ∀ l : List α, P l.reverse := by
    intro l
    induction l with
    | nil => exact h0
    | cons a l ih => rw [List.reverse_cons]; exact h1 _ _ ih
  simpa using this l.reverse

theorem firstSeen_spec (ins : List (K × S)) : (firstSeen ins).Nodup ∧ ∀ k, k ∈ firstSeen ins ↔ k ∈ ins.map (·.1) := by
  induction ins using reverse_ind with
  | h0 => simp [firstSeen]
  | h1 ins e ih =>
    rw [firstSeen_append]
    by_cases h : e.1 ∈ firstSeen ins
    · rw [if_pos h]
      refine ⟨ih.1, fun k => ?_⟩
      rw [ih.2, List.map_append, List.mem_append]
      constructor
      · exact .inl
      · rintro (hk | hk)
        · exact hk
        · simp at hk; subst hk; exact (ih.2 _).1 h
    · rw [if_neg h]
      refine ⟨?_, fun k => ?_⟩
      · rw [List.nodup_append]
        refine ⟨ih.1, by simp, ?_⟩
        intro a ha b hb he
        simp at hb
        subst hb; subst he
        exact h ha
      · rw [List.mem_append, ih.2, List.map_append, List.mem_append]; simp

theorem scoreOf_append (ops : ScoreOps S) (ins : List (K × S)) (e : K × S) (k : K) :
    scoreOf ops (ins ++ [e]) k = if k = e.1 then ops.add (scoreOf ops ins k) e.2 else scoreOf ops ins k := by
  unfold scoreOf
  rw [List.filter_append]
  by_cases h : k = e.1
  · subst h; simp [List.foldl_append]
  · have h' : ¬ e.1 = k := fun x => h x.symm
    simp [h, h']

theorem scoreOf_new (ops : ScoreOps S) (ins : List (K × S)) (k : K) (h : k ∉ ins.map (·.1)) : scoreOf ops ins k = ops.zero := by
  unfold scoreOf
  have : ins.filter (fun e => e.1 = k) = [] := by
    rw [List.filter_eq_nil_iff]
    intro e he hk
    exact h (List.mem_map.2 ⟨e, he, by simpa using hk⟩)
  rw [this]; rfl

/-- What the table holds. -/
theorem tableAfter_eq (ops : ScoreOps S) (h : List (TableOp K S)) :
    tableAfter ops h = (firstSeen (inserted h)).map (fun k => (k, scoreOf ops (inserted h) k)) := by
  induction h using reverse_ind with
  | h0 => rfl
  | h1 h op ih =>
    cases op with
    | clear => simp [tableAfter, inserted, List.foldl_append, tableClear, firstSeen]
    | insert k s =>
      have h1 : tableAfter ops (h ++ [.insert k s]) = tableInsert ops (tableAfter ops h) k s := by
        simp [tableAfter, List.foldl_append]
      have h2 : inserted (h ++ [.insert k s]) = inserted h ++ [(k, s)] := by simp [inserted, List.foldl_append]
      obtain ⟨hn, hm⟩ := firstSeen_spec (inserted h)
      rw [h1, h2, ih, firstSeen_append]
      unfold tableInsert
      simp only [tableGet_map]
      rw [tableSet_map _ _ _ _ hn]
      refine List.map_congr_left fun x _ => ?_
      rw [scoreOf_append]
      by_cases hx : x = k
      · subst hx
        simp only [if_true]
        by_cases hk : x ∈ firstSeen (inserted h)
        · simp [hk]
        · rw [if_neg hk, scoreOf_new ops _ x (fun hh => hk ((hm x).2 hh))]; rfl
      · simp [hx]

/-- C51: after any operations, `top` lists every key inserted since the last `clear` exactly once, with the sum of its
scores, by falling score, and keys of equal score in the order of their first insertion; `size` is the number of keys.
`le` must order the scores, which fails in JavaScript only for NaN. -/
theorem C51_top (ops : ScoreOps S) (htotal : ∀ a b, ops.le a b = true ∨ ops.le b a = true)
    (htrans : ∀ a b c, ops.le a b = true → ops.le b c = true → ops.le a c = true) (h : List (TableOp K S)) :
    let ins := inserted h
    let top := tableTop ops (tableAfter ops h)
    (top.map (·.1)).Nodup ∧ (∀ k, k ∈ top.map (·.1) ↔ k ∈ ins.map (·.1)) ∧ (∀ e ∈ top, e.2 = scoreOf ops ins e.1) ∧
    top.Pairwise (fun m n => ops.le n.2 m.2 = true) ∧
    (∀ k l, [k, l].Sublist (firstSeen ins) → ops.le (scoreOf ops ins l) (scoreOf ops ins k) = true →
      [(k, scoreOf ops ins k), (l, scoreOf ops ins l)].Sublist top) ∧
    tableSize (tableAfter ops h) = top.length := by
  obtain ⟨hn, hm⟩ := firstSeen_spec (inserted h)
  have hp : (tableTop ops (tableAfter ops h)).Perm (tableAfter ops h) := List.mergeSort_perm _ _
  have hk : (tableAfter ops h).map (·.1) = firstSeen (inserted h) := by rw [tableAfter_eq]; simp [Function.comp_def]
  have tr : ∀ a b c : K × S, ops.le b.2 a.2 = true → ops.le c.2 b.2 = true → ops.le c.2 a.2 = true :=
    fun a b c h1 h2 => htrans _ _ _ h2 h1
  have to : ∀ a b : K × S, (ops.le b.2 a.2 || ops.le a.2 b.2) = true := fun a b => by
    rw [Bool.or_eq_true]; exact htotal _ _
  refine ⟨?_, fun k => ?_, fun e he => ?_, ?_, fun k l hs hle => ?_, ?_⟩
  · rw [(hp.map _).nodup_iff, hk]; exact hn
  · rw [(hp.map _).mem_iff, hk]; exact hm k
  · have := hp.mem_iff.1 he
    rw [tableAfter_eq] at this
    obtain ⟨k, _, rfl⟩ := List.mem_map.1 this
    rfl
  · exact List.pairwise_mergeSort tr to _
  · refine List.pair_sublist_mergeSort tr to hle ?_
    rw [tableAfter_eq]
    exact hs.map (fun k => (k, scoreOf ops (inserted h) k))
  · unfold tableSize; exact hp.length_eq.symm

/-- A history with a repeated key, a tie and a `clear`, with whole numbers as scores. -/
def natOps : ScoreOps Nat := ⟨0, (· + ·), fun a b => decide (a ≤ b)⟩
example : tableTop natOps (tableAfter natOps [.insert 9 100, .clear, .insert 1 2, .insert 2 3, .insert 3 5, .insert 1 3]) =
    [(1, 5), (3, 5), (2, 3)] := by
  have : tableAfter natOps [.insert 9 100, .clear, .insert 1 2, .insert 2 3, .insert 3 5, .insert 1 3] = [(1, 5), (2, 3), (3, 5)] := by
    decide +kernel
  rw [this]
  simp [tableTop, List.mergeSort, natOps, List.merge]
example := C51_top (K := Nat) natOps (fun a b => by simp [natOps]; omega) (fun a b c => by simp [natOps]; omega)

end Appendable
