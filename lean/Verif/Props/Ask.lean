import Verif.Spec.Ask
import Verif.Props.TsValidation
/-! C111, C112, C113: `query` on queries that nobody has validated. -/
namespace Appendable
open Spec

variable {S β : Type}

/-! ### Lengths -/

theorem words_if {P : Nat → Bool} {lo : Nat} (h : ∀ l, P l = decide (l ≥ lo)) :
    ∀ (cs cur : List Nat) (idx : Nat), tsWordsIf P idx cur cs = tsWords lo idx cur cs
  | [], cur, idx => by simp only [tsWordsIf, tsWords, h, decide_eq_true_eq]
  | c :: cs, cur, idx => by
    simp only [tsWordsIf, tsWords, h, decide_eq_true_eq, words_if h cs]

theorem le_fin (a b : Rat) : (JsNum.fin a).le (.fin b) = decide (a ≤ b) := by
  have h1 : (JsNum.fin a).lt (.fin b) = decide (a < b) := rfl
  have h2 : (JsNum.fin a != JsNum.nan) = true := by simp
  unfold JsNum.le
  rw [h1, h2, Bool.and_true]
  by_cases h : a = b
  · subst h; simp [Rat.le_refl]
  · have : (JsNum.fin a == JsNum.fin b) = false := by simpa using h
    rw [this, Bool.or_false, decide_eq_decide]
    exact ⟨Rat.le_of_lt, fun hle => Rat.lt_iff_le_and_ne.2 ⟨hle, h⟩⟩

theorem gram_num (m : Nat) : tsGramNum (.fin m) = (tsGramType m).map (fun ty => (m, ty)) := by
  have key : ∀ n : Nat, (JsNum.fin (m : Rat) = .fin (n : Rat)) ↔ m = n := by
    intro n
    rw [JsNum.fin.injEq, Rat.natCast_inj]
  have k1 : JsNum.fin (m : Rat) = .fin 1 ↔ m = 1 := key 1
  have k2 : JsNum.fin (m : Rat) = .fin 2 ↔ m = 2 := key 2
  have k3 : JsNum.fin (m : Rat) = .fin 3 ↔ m = 3 := key 3
  unfold tsGramNum tsGramType
  by_cases h1 : m = 1
  · subst h1; rfl
  · by_cases h2 : m = 2
    · subst h2; rfl
    · by_cases h3 : m = 3
      · subst h3; rfl
      · rw [if_neg (mt k1.1 h1), if_neg (mt k2.1 h2), if_neg (mt k3.1 h3)]
        split <;> simp_all

theorem gramNums_loop {lower : JsString → JsString} {phrase : JsString} {words : List (List Nat)} {hi : JsNum} {n : Nat}
    (hle : ∀ m : Nat, (JsNum.fin m).le hi = decide (m ≤ n)) (hn : n ≤ 3) :
    ∀ (k N : Nat), 1 ≤ N → 0 < k → n + 1 < k + N → tsGramNums lower phrase words hi k (.fin N) = tsGramLoop lower phrase words (n + 1 - N) N
  | 0, N, _, h, _ => by omega
  | k + 1, N, h1, _, h => by
    unfold tsGramNums
    rw [hle]
    by_cases hN : N ≤ n
    · obtain ⟨d, hd⟩ : ∃ d, n + 1 - N = d + 1 := ⟨n - N, by omega⟩
      rw [hd]
      have ih := gramNums_loop (lower := lower) (phrase := phrase) (words := words) hle hn k (N + 1) (by omega) (by omega) (by omega)
      rw [show n + 1 - (N + 1) = d by omega] at ih
      have hs : (JsNum.fin (N : Rat)).succ = .fin ((N + 1 : Nat) : Rat) := by
        show JsNum.fin _ = _
        simp
      simp only [hN, decide_true, if_true, gram_num, hs, ih, tsGramLoop]
      cases tsGramType N <;> rfl
    · rw [show n + 1 - N = 0 by omega]
      simp only [hN, decide_false, Bool.false_eq_true, if_false, tsGramLoop]

/-- C112 (partial: a whole number `minGram`; `maxGram` may be any number, of which the whole part counts): a search configuration that is
accepted can be searched with, and gives the n-grams of the lengths between. -/
theorem C112_whole_partial (lower : JsString → JsString) (phrase : JsString) {lo n : Nat} {hi : Rat} (h1 : 1 ≤ lo) (h2 : lo ≤ n) (h3 : (n : Rat) ≤ hi)
    (h4 : hi < ((n + 1 : Nat) : Rat)) (h5 : hi ≤ 3) :
    tsTokensNum lower (.fin lo) (.fin hi) phrase = tsTokens lower lo n phrase ∧ ∃ toks, tsTokens lower lo n phrase = .ok toks := by
  have hn : n ≤ 3 := by
    have : (n : Rat) ≤ ((3 : Nat) : Rat) := Rat.le_trans h3 h5
    exact Rat.natCast_le_natCast.1 this
  have hle : ∀ m : Nat, (JsNum.fin m).le (.fin hi) = decide (m ≤ n) := by
    intro m
    rw [le_fin, decide_eq_decide]
    constructor
    · intro h
      have : (m : Rat) < ((n + 1 : Nat) : Rat) := by grind
      have := Rat.natCast_lt_natCast.1 this
      omega
    · intro h
      exact Rat.le_trans (Rat.natCast_le_natCast.2 h) h3
  have hw : ∀ l : Nat, (JsNum.fin lo).le (.fin l) = decide (l ≥ lo) := by
    intro l
    rw [le_fin, decide_eq_decide]
    exact Rat.natCast_le_natCast
  refine ⟨?_, ?_⟩
  · unfold tsTokensNum tsTokens
    rw [words_if hw, gramNums_loop hle hn 4 lo h1 (by omega) (by omega)]
  · unfold tsTokens
    generalize tsWords lo 0 [] (jsCodePoints phrase) = ws
    have : ∀ k N, 1 ≤ N → N + k ≤ 4 → ∃ toks, tsGramLoop lower phrase ws k N = .ok toks := by
      intro k
      induction k with
      | zero => intro N _ _; exact ⟨[], rfl⟩
      | succ k ih =>
        intro N a b
        obtain ⟨toks, ht⟩ := ih (N + 1) (by omega) (by omega)
        unfold tsGramLoop
        have : ∃ ty, tsGramType N = some ty := by
          have : N = 1 ∨ N = 2 ∨ N = 3 := by omega
          rcases this with rfl | rfl | rfl <;> exact ⟨_, rfl⟩
        obtain ⟨ty, hty⟩ := this
        rw [hty, ht]
        exact ⟨_, rfl⟩
    exact this _ _ h1 (by omega)

theorem tokens_fraction (lower : JsString → JsString) (phrase : JsString) {lo hi : JsNum} (h : Lengths lo hi) (hf : ¬ Whole lo) :
    tsTokensNum lower lo hi phrase = .err (.msg "Unrecognized gram type for gram length") := by
  obtain ⟨a, b, rfl, rfl, h1, h2, h3⟩ := h
  unfold tsTokensNum tsGramNums
  rw [le_fin, decide_eq_true h2, if_pos rfl]
  have hne : ∀ n : Nat, (JsNum.fin a) ≠ .fin (n : Rat) := fun n he => hf ⟨n, he⟩
  have k1 : JsNum.fin a ≠ .fin 1 := hne 1
  have k2 : JsNum.fin a ≠ .fin 2 := hne 2
  have k3 : JsNum.fin a ≠ .fin 3 := hne 3
  have : tsGramNum (.fin a) = none := by
    unfold tsGramNum
    rw [if_neg k1, if_neg k2, if_neg k3]
  rw [this]

theorem accepts_lengths {headers : List JsHeader} {key : Bytes} {types : List Nat} (hf : FieldTypes headers key types) (h8 : 8 ∈ types)
    (h9 : 9 ∈ types) (h10 : 10 ∈ types) {lo hi : JsNum} (h : Lengths lo hi) :
    jsValidateSearch ⟨key, some (lo, hi)⟩ headers = .ok (lo, hi) := by
  obtain ⟨a, b, rfl, rfl, h1, h2, h3⟩ := h
  have hg : GoodSearch headers ⟨key, some (.fin a, .fin b)⟩ := ⟨⟨types, hf, h8, h9, h10⟩, .inr ⟨a, b, rfl, h1, h2, h3⟩⟩
  have hn : NotNaN ⟨key, some (.fin a, .fin b)⟩ := by
    intro c hc
    cases hc
    simp
  obtain ⟨c, hc⟩ := (validateSearch_iff headers _ hn).2 hg
  rw [hc]
  unfold jsValidateSearch at hc
  simp only [Option.getD_some] at hc
  split at hc
  · cases hc
  · split at hc
    · cases hc
    · split at hc
      · cases hc
      · split at hc
        · cases hc
        · split at hc <;> simp_all

/-- C112 is violated by every configuration whose `minGram` is not whole: the validation accepts it, and every search with it throws. -/
theorem C112_fraction_violated {headers : List JsHeader} {key : Bytes} {types : List Nat} (hf : FieldTypes headers key types) (h8 : 8 ∈ types)
    (h9 : 9 ∈ types) (h10 : 10 ∈ types) {lo hi : JsNum} (h : Lengths lo hi) (hw : ¬ Whole lo) :
    (∃ c, jsValidateSearch ⟨key, some (lo, hi)⟩ headers = .ok c) ∧
    ∀ {S : Type} (db : TsDb) (A : ScoreArith S) (lower : JsString → JsString) (rand : Nat → Nat) (fuel : Nat) (fm : TsFileMeta) (like : JsString),
      db.searchPart A lower rand fuel fm headers (some ⟨key, like, some (lo, hi)⟩) = ⟨[], some (.msg "Unrecognized gram type for gram length")⟩ := by
  have ha := accepts_lengths hf h8 h9 h10 h
  refine ⟨⟨_, ha⟩, fun db A lower rand fuel fm like => ?_⟩
  simp only [TsDb.searchPart, ha, Res.rows, tokens_fraction lower like h hw]

/-- C112 (partial: a length that is not a number): the validation accepts it (C59), and the search finds nothing. -/
theorem C112_nan_partial (lower : JsString → JsString) (phrase : JsString) {lo hi : JsNum} (h : lo = .nan ∨ hi = .nan) :
    tsTokensNum lower lo hi phrase = .ok [] := by
  unfold tsTokensNum tsGramNums
  have : lo.le hi = false := by
    unfold JsNum.le
    rcases h with rfl | rfl
    · cases hi <;> rfl
    · cases lo <;> rfl
  rw [this, if_neg (by simp)]

/-! ### Both parts -/

theorem clause_text (t : TsTree) (depth fuel : Nat) (row : TsPtr → Res β) (op : TsOp) (d : TsDir) (v : Bytes) :
    jsClause t depth fuel row (opText op) (dirText d) v = tsClause t depth fuel row op d v := by
  cases op <;> cases d <;> rfl

theorem map_andThen {γ : Type} (f : β → γ) (a b : TsRows β) : (a.andThen b).map f = (a.map f).andThen (b.map f) := by
  obtain ⟨r, e⟩ := a
  cases e <;> simp [TsRows.andThen, TsRows.map]

theorem nil_andThen (a : TsRows β) : TsRows.andThen ⟨[], none⟩ a = a := rfl

theorem andThen_empty (a : TsRows β) : a.andThen ⟨[], none⟩ = a := by
  obtain ⟨r, f⟩ := a
  cases f <;> simp [TsRows.andThen]

theorem conds_text (db : TsDb) (fuel : Nat) (select : Bytes → Res β) (d : TsDir) (fm : TsFileMeta) (headers : List (Bytes × List Nat)) :
    ∀ ws : List TsWhere, db.conds fuel select (dirText d) fm headers (ws.map (fun w => ⟨w.key, opText w.op, w.value⟩)) =
      db.clauses fuel select d fm headers ws
  | [] => rfl
  | w :: ws => by
    have hk : db.clauseTree fuel fm headers ⟨w.key, .eq, w.value⟩ = db.clauseTree fuel fm headers w := rfl
    simp only [List.map_cons, TsDb.conds, TsDb.clauses, hk, clause_text, conds_text db fuel select d fm headers ws]
    cases db.clauseTree fuel fm headers w <;> rfl

theorem ord_text (q : TsQuery) : (whereOnly q).ord = dirText q.dir := by
  obtain ⟨w, o, s, l⟩ := q
  match o with
  | none => rfl
  | some [] => rfl
  | some ((k, d) :: _) => rfl

theorem keys_any (ws : List JsCond) (w : JsCond) :
    (w :: ws).any (fun x => some x.key != (w :: ws).head?.map (·.key)) = ws.any (fun x => x.key != w.key) := by
  simp only [List.any_cons, List.head?_cons, Option.map_some]
  simp only [bne_self_eq_false, Bool.false_or]
  congr 1

/-- C111 (partial: no search part): a query with a where part only returns the rows that C46 and C47, C82 and C92 describe. -/
theorem C111_where_partial (db : TsDb) (A : ScoreArith S) (lower : JsString → JsString) (rand : Nat → Nat) (fuel : Nat) (select : Bytes → Res β)
    (q : TsQuery) (hm : tsFileMetadata db.idx ≠ .panic) :
    db.ask A lower rand fuel select (whereOnly q) = (db.query fuel select q).map .inr := by
  have ho := ord_text q
  unfold TsDb.ask
  rw [ho]
  obtain ⟨ws, o, s, l⟩ := q
  have key : ∀ ws : List TsWhere, ((tsFileMetadata db.idx).rows fun fm => (tsIndexHeaders db.idx fuel).rows fun headers =>
      (((db.searchPart A lower rand fuel fm headers none).map (.inl : Bytes × S → (Bytes × S) ⊕ β)).andThen
        ((db.conds fuel select (dirText (TsQuery.dir ⟨ws, o, s, l⟩)) fm headers (ws.map (fun w => ⟨w.key, opText w.op, w.value⟩))).map .inr))) =
      TsRows.map .inr (match tsFileMetadata db.idx, tsIndexHeaders db.idx fuel with
        | .ok fm, .ok headers => db.clauses fuel select (TsQuery.dir ⟨ws, o, s, l⟩) fm headers ws
        | .err e, _ => ⟨[], some e⟩
        | _, .err e => ⟨[], some e⟩
        | _, _ => ⟨[], some (.msg "panic")⟩) := by
    intro ws
    cases hx : tsFileMetadata db.idx with
    | panic => exact absurd hx hm
    | err e => rfl
    | ok fm =>
      cases tsIndexHeaders db.idx fuel with
      | panic => rfl
      | err e => rfl
      | ok hs =>
        simp only [Res.rows, TsDb.searchPart, conds_text]
        rfl
  cases ws with
  | nil =>
    have := key []
    simp only [whereOnly, List.map_nil, List.any_nil, Bool.false_eq_true, if_false] at this ⊢
    rw [this]
    unfold TsDb.query
    simp only []
    cases tsFileMetadata db.idx <;> cases tsIndexHeaders db.idx fuel <;> rfl
  | cons w ws =>
    unfold TsDb.query
    have hk : ((whereOnly ⟨w :: ws, o, s, l⟩).where_.any (fun x => some x.key != (whereOnly ⟨w :: ws, o, s, l⟩).where_.head?.map (·.key))) =
        ws.any (fun x => x.key != w.key) := by
      simp only [whereOnly, List.map_cons]
      rw [keys_any, List.any_map]
      rfl
    rw [hk]
    by_cases hc : ws.any (fun x => x.key != w.key) = true
    · simp only [hc, if_true]; rfl
    · rw [if_neg hc]
      simp only [hc, if_false, Bool.false_eq_true]
      exact key (w :: ws)

/-- The lengths of a search object that `query` gets. -/
def SmallLengths (q : TsSearch) : Prop :=
  ∃ lo hi : Nat, q.config.getD (1, 2) = (lo, hi) ∧ 1 ≤ lo ∧ lo ≤ hi ∧ hi ≤ 3

theorem validate_config {s : JsSearch} {headers : List JsHeader} {c : JsNum × JsNum} (h : jsValidateSearch s headers = .ok c) :
    c = s.config.getD (.fin 1, .fin 2) := by
  unfold jsValidateSearch at h
  simp only at h
  split at h
  · cases h
  · split at h
    · cases h
    · split at h
      · cases h
      · split at h
        · cases h
        · split at h <;> simp_all

theorem config_fin (o : Option (Nat × Nat)) : (o.map (fun x => ((JsNum.fin x.1, JsNum.fin x.2) : JsNum × JsNum))).getD (.fin 1, .fin 2) =
    (JsNum.fin (o.getD (1, 2)).1, JsNum.fin (o.getD (1, 2)).2) := by
  cases o <;> rfl

/-- C111 (partial: no where part): a query with a search part only returns the rows that C76 to C79 describe. -/
theorem C111_search_partial (db : TsDb) (A : ScoreArith S) (lower : JsString → JsString) (rand : Nat → Nat) (fuel : Nat) (select : Bytes → Res β)
    (q : TsSearch) (hc : SmallLengths q) :
    db.ask A lower rand fuel select (searchOnly q) = (db.search A lower rand fuel q).map .inl := by
  obtain ⟨lo, hi, h1, h2, h3, h4⟩ := hc
  have hfr : (hi : Rat) < ((hi + 1 : Nat) : Rat) := Rat.natCast_lt_natCast.2 (by omega)
  have h5 : (hi : Rat) ≤ ((3 : Nat) : Rat) := Rat.natCast_le_natCast.2 h4
  have htok := (C112_whole_partial lower q.like h2 h3 (Rat.le_refl) hfr h5).1
  unfold TsDb.ask TsDb.search
  simp only [searchOnly, List.any_nil, Bool.false_eq_true, if_false, TsDb.conds]
  cases tsFileMetadata db.idx with
  | panic => rfl
  | err e => rfl
  | ok fm =>
    simp only [Res.rows]
    cases tsIndexHeaders db.idx fuel with
    | panic => rfl
    | err e => rfl
    | ok hs =>
      simp only [TsDb.searchPart, TsDb.searchWith]
      cases hv : jsValidateSearch ⟨q.key, q.config.map (fun x => (.fin x.1, .fin x.2))⟩ hs with
      | panic => rfl
      | err e => rfl
      | ok c =>
        have := validate_config hv
        rw [config_fin, h1] at this
        subst this
        simp only [Res.rows, h1, htok]
        exact andThen_empty _

/-- C111 is violated: a query with a search part and a where part returns the rows of the search, whatever the conditions are, and after
them, if the search does not throw, the rows of the conditions, whatever the search is. -/
theorem C111_both_violated (db : TsDb) (A : ScoreArith S) (lower : JsString → JsString) (rand : Nat → Nat) (fuel : Nat) (select : Bytes → Res β)
    (l : JsLike) (w : JsCond) (ws : List JsCond) (o : Option (List (Bytes × Bytes))) (hk : ∀ x ∈ ws, x.key = w.key) :
    db.ask A lower rand fuel select ⟨some l, w :: ws, o⟩ =
      (db.ask A lower rand fuel select ⟨some l, [], none⟩).andThen (db.ask A lower rand fuel select ⟨none, w :: ws, o⟩) := by
  have hany : ws.any (fun x => x.key != w.key) = false := by
    rw [List.any_eq_false]; intro x hx; simp [hk x hx]
  have ho1 : JsAsk.ord ⟨some l, w :: ws, o⟩ = JsAsk.ord ⟨none, w :: ws, o⟩ := rfl
  unfold TsDb.ask
  simp only [keys_any, hany, Bool.false_eq_true, if_false, List.any_nil, ho1]
  cases tsFileMetadata db.idx with
  | panic => rfl
  | err e => rfl
  | ok fm =>
    simp only [Res.rows]
    cases tsIndexHeaders db.idx fuel with
    | panic => rfl
    | err e => rfl
    | ok hs =>
      simp only [TsDb.conds]
      have e1 : TsRows.map (.inr : β → (Bytes × S) ⊕ β) ⟨[], none⟩ = ⟨[], none⟩ := rfl
      have e2 : TsRows.map (.inl : Bytes × S → (Bytes × S) ⊕ β) (db.searchPart A lower rand fuel fm hs none) = ⟨[], none⟩ := rfl
      rw [e1, andThen_empty, e2, nil_andThen]

/-! ### Queries that nobody has validated -/

/-- C113 is violated: `validateQuery` refuses an operation that is not one of the five, but `query` does not use it.  Where a query with a
known operation does not throw, the same query with an unknown one returns no rows and does not throw either. -/
theorem C113_operation_violated (db : TsDb) (A : ScoreArith S) (lower : JsString → JsString) (rand : Nat → Nat) (fuel : Nat) (select : Bytes → Res β)
    (q : TsQuery) (name : Bytes) (op : TsOp) (value : JsVal) (hq : q.where_ = [⟨name, op, value⟩]) (hf : (db.query fuel Res.ok q).fail = none)
    (text : Bytes) (ht : ∀ op, text ≠ opText op) (o : Option (List (Bytes × Bytes))) :
    db.ask A lower rand fuel select ⟨none, [⟨name, text, value⟩], o⟩ = ⟨[], none⟩ ∧
    ∀ (headers : List JsHeader) (order : JsArray JsOrder) (sel : JsArray JsStr),
      ∃ e, jsValidateQuery ⟨.arr [⟨text, .str name, value⟩], order, sel, none⟩ headers = .err e := by
  refine ⟨?_, fun headers order sel => ?_⟩
  · unfold TsDb.query at hf
    rw [hq] at hf
    simp only [List.any_nil, Bool.false_eq_true, if_false] at hf
    unfold TsDb.ask
    simp only [keys_any, List.any_nil, Bool.false_eq_true, if_false]
    have hop : ∀ (t : TsTree) (ord v : Bytes), jsClause t fuel fuel (tsRow t select) text ord v = ⟨[], none⟩ := by
      intro t ord v
      unfold jsClause
      have h1 := ht .lt
      have h2 := ht .le
      have h3 := ht .eq
      have h4 := ht .ge
      have h5 := ht .gt
      simp only [opText] at h1 h2 h3 h4 h5
      rw [if_neg h5, if_neg h4, if_neg h3, if_neg h2, if_neg h1]
    cases hx : tsFileMetadata db.idx with
    | panic => rw [hx] at hf; cases hy : tsIndexHeaders db.idx fuel <;> rw [hy] at hf <;> cases hf
    | err e => rw [hx] at hf; cases hf
    | ok fm =>
      rw [hx] at hf
      simp only [Res.rows]
      cases hy : tsIndexHeaders db.idx fuel with
      | panic => rw [hy] at hf; cases hf
      | err e => rw [hy] at hf; cases hf
      | ok hs =>
        rw [hy] at hf
        simp only [TsDb.clauses] at hf
        simp only [TsDb.searchPart, TsDb.conds]
        have hk : db.clauseTree fuel fm hs ⟨name, .eq, value⟩ = db.clauseTree fuel fm hs ⟨name, op, value⟩ := rfl
        rw [hk]
        cases hz : db.clauseTree fuel fm hs ⟨name, op, value⟩ with
        | panic => rw [hz] at hf; cases hf
        | err e => rw [hz] at hf; cases hf
        | ok x => simp only [Res.rows, hop]; rfl
  · have : jsOperations.contains text = false := by
      have h1 := ht .lt
      have h2 := ht .le
      have h3 := ht .eq
      have h4 := ht .ge
      have h5 := ht .gt
      simp only [opText] at h1 h2 h3 h4 h5
      simp [jsOperations, h1, h2, h3, h4, h5]
    simp only [jsValidateQuery, jsSearchPart, jsWherePart, jsValidateWhere, jsValidateNodes, jsValidateNode, this]
    exact ⟨_, rfl⟩

/-- C113 is violated: the field of `orderBy` has no influence, while `validateQuery` refuses every field but that of the condition. -/
theorem C113_order_violated (db : TsDb) (A : ScoreArith S) (lower : JsString → JsString) (rand : Nat → Nat) (fuel : Nat) (select : Bytes → Res β)
    (w : JsCond) (field d : Bytes) (hne : field ≠ w.key) :
    db.ask A lower rand fuel select ⟨none, [w], some [(field, d)]⟩ = db.ask A lower rand fuel select ⟨none, [w], some [(w.key, d)]⟩ ∧
    ∀ (headers : List JsHeader) (sel : JsArray JsStr),
      ∃ e, jsValidateQuery ⟨.arr [⟨w.operation, .str w.key, w.value⟩], .arr [⟨.str field, d⟩], sel, none⟩ headers = .err e := by
  refine ⟨rfl, fun headers sel => ?_⟩
  have hk : (JsStr.str field != JsStr.str w.key) = true := by simpa using hne
  simp only [jsValidateQuery, jsSearchPart, Res.bind, jsWherePart, jsFirstKey, jsValidateOrderBy, hk, if_true]
  rw [if_neg (by simp)]
  have hv : jsValidateWhere headers (.arr [⟨w.operation, .str w.key, w.value⟩]) ≠ .panic := by
    simp only [jsValidateWhere, jsValidateNodes, jsValidateNode]
    split
    · simp [Res.bind]
    · cases headers.find? (fun h => h.1 == w.key) with
      | none => simp [Res.bind]
      | some h =>
        cases w.value <;> simp only [jsValueCheck] <;> (try split) <;> simp [Res.bind]
  cases hx : jsValidateWhere headers (.arr [⟨w.operation, .str w.key, w.value⟩]) with
  | panic => exact absurd hx hv
  | err e => exact ⟨e, rfl⟩
  | ok u =>
    cases jsDirections.contains d <;> exact ⟨_, rfl⟩

/-- C113 is violated: a direction that is neither `ASC` nor `DESC` means `DESC` for `>` and `>=`, and `ASC` for `<` and `<=`. -/
theorem C113_direction_violated (db : TsDb) (A : ScoreArith S) (lower : JsString → JsString) (rand : Nat → Nat) (fuel : Nat) (select : Bytes → Res β)
    (name : Bytes) (op : TsOp) (value : JsVal) (d : Bytes) (hd : ∀ x, d ≠ dirText x) :
    ((op = .gt ∨ op = .ge) → db.ask A lower rand fuel select ⟨none, [⟨name, opText op, value⟩], some [(name, d)]⟩ =
      db.ask A lower rand fuel select ⟨none, [⟨name, opText op, value⟩], some [(name, dirText .desc)]⟩) ∧
    ((op = .lt ∨ op = .le) → db.ask A lower rand fuel select ⟨none, [⟨name, opText op, value⟩], some [(name, d)]⟩ =
      db.ask A lower rand fuel select ⟨none, [⟨name, opText op, value⟩], some [(name, dirText .asc)]⟩) := by
  have ha := hd .asc
  have hb := hd .desc
  simp only [dirText] at ha hb
  have key : ∀ d' : TsDir, (∀ (t : TsTree) (v : Bytes), jsClause t fuel fuel (tsRow t select) (opText op) d v =
      jsClause t fuel fuel (tsRow t select) (opText op) (dirText d') v) →
      db.ask A lower rand fuel select ⟨none, [⟨name, opText op, value⟩], some [(name, d)]⟩ =
        db.ask A lower rand fuel select ⟨none, [⟨name, opText op, value⟩], some [(name, dirText d')]⟩ := by
    intro d' h
    simp only [TsDb.ask, TsDb.conds, JsAsk.ord, h]
  constructor
  · rintro (rfl | rfl) <;> refine key .desc (fun t v => ?_) <;> simp [jsClause, opText, dirText, ha]
  · rintro (rfl | rfl) <;> refine key .asc (fun t v => ?_) <;> simp [jsClause, opText, dirText, hb]

theorem rows_fails {α γ : Type} (r : Res α) (f : α → TsRows γ) (h : ∀ a, r = .ok a → ∃ e, f a = ⟨[], some e⟩) : ∃ e, r.rows f = ⟨[], some e⟩ := by
  cases r with
  | panic => exact ⟨_, rfl⟩
  | err e => exact ⟨_, rfl⟩
  | ok a => exact h a rfl

/-- C113 (partial: a field that no index is for, or a value of another type than string, number, boolean and null): the query is refused. -/
theorem C113_refused_partial (db : TsDb) (A : ScoreArith S) (lower : JsString → JsString) (rand : Nat → Nat) (fuel : Nat) (select : Bytes → Res β)
    (w : JsCond) (ws : List JsCond) (o : Option (List (Bytes × Bytes)))
    (h : (∀ hs, tsIndexHeaders db.idx fuel = .ok hs → ∀ x ∈ hs, x.1 ≠ w.key) ∨ w.value = .undefined ∨ w.value = .other) :
    ∃ e, db.ask A lower rand fuel select ⟨none, w :: ws, o⟩ = ⟨[], some e⟩ := by
  unfold TsDb.ask
  split
  · exact ⟨_, rfl⟩
  · refine rows_fails _ _ (fun fm _ => rows_fails _ _ (fun hs hh => ?_))
    simp only [TsDb.searchPart, TsDb.conds]
    have : ∃ e, db.clauseTree fuel fm hs ⟨w.key, .eq, w.value⟩ = .err e := by
      unfold TsDb.clauseTree
      rcases h with h | h | h
      · have : hs.find? (fun h => h.1 == w.key) = none := List.find?_eq_none.2 (fun x hx => by simpa using h hs hh x hx)
        simp only [this]
        exact ⟨_, rfl⟩
      · simp only [h, tsProcessWhere]
        cases hs.find? (fun h => h.1 == w.key) <;> exact ⟨_, rfl⟩
      · simp only [h, tsProcessWhere]
        cases hs.find? (fun h => h.1 == w.key) <;> exact ⟨_, rfl⟩
    obtain ⟨e, he⟩ := this
    rw [he]
    exact ⟨e, rfl⟩

/-- C113 (partial: the search part): a query whose search part is not well-typed is refused; there is no `NaN` in it. -/
theorem C113_search_partial (db : TsDb) (A : ScoreArith S) (lower : JsString → JsString) (rand : Nat → Nat) (fuel : Nat) (select : Bytes → Res β)
    (l : JsLike) (ws : List JsCond) (o : Option (List (Bytes × Bytes))) (hn : NotNaN ⟨l.key, l.config⟩)
    (h : ∀ hs, tsIndexHeaders db.idx fuel = .ok hs → ¬ GoodSearch hs ⟨l.key, l.config⟩) :
    ∃ e, db.ask A lower rand fuel select ⟨some l, ws, o⟩ = ⟨[], some e⟩ := by
  unfold TsDb.ask
  split
  · exact ⟨_, rfl⟩
  · refine rows_fails _ _ (fun fm _ => rows_fails _ _ (fun hs hh => ?_))
    simp only [TsDb.searchPart]
    have := mt (validateSearch_iff hs ⟨l.key, l.config⟩ hn).1 (h hs hh)
    cases hv : jsValidateSearch ⟨l.key, l.config⟩ hs with
    | ok c => exact absurd ⟨c, hv⟩ this
    | err e => exact ⟨e, rfl⟩
    | panic => exact ⟨_, rfl⟩

end Appendable
