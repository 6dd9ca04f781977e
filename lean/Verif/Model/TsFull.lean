import Verif.Model.TsSearch
/-! src/db/database.ts `query` as a whole: the search part and the where part, on a query that nobody has validated (`query` does not call
`validateQuery`); and src/ngram/tokenizer.ts with any numbers for lengths. -/
namespace Appendable

/-- The operator `<=` of JavaScript numbers (`a >= b` is `b <= a`). -/
def JsNum.le (a b : JsNum) : Bool := a.lt b || (a == b && a != .nan)

/-- `N++`.  (Simplification: without rounding; the numbers that get here are at most 3.) -/
def JsNum.succ : JsNum → JsNum
  | .fin q => .fin (q + 1)
  | x => x

/-- `allGrams.get(N)` (src/ngram/tokenizer.ts:13-17, 48), with the whole number that `N` is. -/
def tsGramNum (n : JsNum) : Option (Nat × Nat) :=
  if n = .fin 1 then some (1, 10) else if n = .fin 2 then some (2, 9) else if n = .fin 3 then some (3, 8) else none

/-- src/ngram/tokenizer.ts:32-45 with any number for `minGram`: `long` is the test `length >= this.minGram`. -/
def tsWordsIf (long : Nat → Bool) : Nat → List Nat → List Nat → List (List Nat)
  | _, cur, [] => if long cur.length then [cur] else []
  | idx, cur, c :: cs =>
    if jsWordChar c then tsWordsIf long (idx + 1) (cur ++ [idx]) cs
    else if jsSpaceChar c then (if long cur.length then [cur] else []) ++ tsWordsIf long (idx + 1) [] cs
    else tsWordsIf long (idx + 1) cur cs

/-- The loop of src/ngram/tokenizer.ts:47-71, from `N` on.  At most three rounds end without an exception, and the bound is four. -/
def tsGramNums (lower : JsString → JsString) (phrase : JsString) (words : List (List Nat)) (hi : JsNum) : Nat → JsNum → Res (List TsToken)
  | 0, _ => .err (.msg "too long")
  | k + 1, n =>
    if n.le hi then
      match tsGramNum n with
      | none => .err (.msg "Unrecognized gram type for gram length")
      | some (m, ty) => (tsGramNums lower phrase words hi k n.succ).bind fun rest => .ok (tsGramsOf lower phrase words m ty ++ rest)
    else .ok []

/-- src/ngram/tokenizer.ts:26-74 `tokens`, of a tokenizer with any numbers `minGram` and `maxGram`. -/
def tsTokensNum (lower : JsString → JsString) (lo hi : JsNum) (phrase : JsString) : Res (List TsToken) :=
  tsGramNums lower phrase (tsWordsIf (fun l => lo.le (.fin l)) 0 [] (jsCodePoints phrase)) hi 4 lo

/-- src/db/query-lang.ts:18-22 `Search`, unchecked -/
structure JsLike where
  key : Bytes
  like : JsString
  config : Option (JsNum × JsNum)

/-- src/db/query-lang.ts:7-11 `WhereNode`, unchecked: the operation is any text.  Simplification: the key is a string. -/
structure JsCond where
  key : Bytes
  operation : Bytes
  value : JsVal
  deriving DecidableEq, Repr, Inhabited

/-- src/db/query-lang.ts:31-37 `Query`, unchecked: `where_` is empty if it is missing, and `order` are the texts of the directions of
`orderBy` with their keys.  `select` and `limit` are not part of it: the first is a parameter of `ask`, the second is never used. -/
structure JsAsk where
  search : Option JsLike
  where_ : List JsCond
  orderBy : Option (List (Bytes × Bytes))

/-- src/db/database.ts:210-213: the text of the direction. -/
def JsAsk.ord (q : JsAsk) : Bytes :=
  match q.orderBy with
  | some ((_, d) :: _) => d
  | _ => [65, 83, 67]

/-- src/db/database.ts:225-420, with any texts for the operation (`>`, `>=`, `==`, `<=`, `<`) and for the direction. -/
def jsClause {β : Type} (t : TsTree) (depth fuel : Nat) (row : TsPtr → Res β) (op ord : Bytes) (v : Bytes) : TsRows β :=
  if op = [62] then tsClause t depth fuel row .gt (if ord = [65, 83, 67] then .asc else .desc) v
  else if op = [62, 61] then tsClause t depth fuel row .ge (if ord = [65, 83, 67] then .asc else .desc) v
  else if op = [61, 61] then tsClause t depth fuel row .eq .asc v
  else if op = [60, 61] then tsClause t depth fuel row .le (if ord = [68, 69, 83, 67] then .desc else .asc) v
  else if op = [60] then tsClause t depth fuel row .lt (if ord = [68, 69, 83, 67] then .desc else .asc) v
  else ⟨[], none⟩

/-- The loop over the where clauses, src/db/database.ts:191-422.  (`clauseTree` looks at the key and the value only.) -/
def TsDb.conds {β : Type} (db : TsDb) (fuel : Nat) (select : Bytes → Res β) (ord : Bytes) (fm : TsFileMeta)
    (headers : List (Bytes × List Nat)) : List JsCond → TsRows β
  | [] => ⟨[], none⟩
  | w :: ws => (db.clauseTree fuel fm headers ⟨w.key, .eq, w.value⟩).rows fun x =>
    (jsClause x.1 fuel fuel (tsRow x.1 select) w.operation ord x.2).andThen (TsDb.conds db fuel select ord fm headers ws)

/-- src/db/database.ts:115-189: the search part. -/
def TsDb.searchPart {S : Type} (db : TsDb) (A : ScoreArith S) (lower : JsString → JsString) (rand : Nat → Nat) (fuel : Nat)
    (fm : TsFileMeta) (headers : List JsHeader) : Option JsLike → TsRows (Bytes × S)
  | none => ⟨[], none⟩
  | some q =>
    (jsValidateSearch ⟨q.key, q.config⟩ headers).rows fun config =>
      (tsTokensNum lower config.1 config.2 q.like).rows fun toks =>
        (shuffle rand toks).rows fun soup =>
          (db.searchTokens A fuel fm.format fm.entries q.key ⟨[], [], 0, []⟩ (soup.map (fun tk => (tk.type, jsEncode tk.value)))).rows fun st =>
            db.searchRows (tableTop A.toScoreOps st.table)

/-- The same rows, as rows of another type. -/
def TsRows.map {β γ : Type} (f : β → γ) (a : TsRows β) : TsRows γ := ⟨a.rows.map f, a.fail⟩

/-- src/db/database.ts:102-423 `query`.  `new Set(keys).size > 1` is: not all keys equal the first.  A row of the search part is `{data, score}`,
one of the where part is the value of `handleSelect` (`select`). -/
def TsDb.ask {S β : Type} (db : TsDb) (A : ScoreArith S) (lower : JsString → JsString) (rand : Nat → Nat) (fuel : Nat) (select : Bytes → Res β)
    (q : JsAsk) : TsRows ((Bytes × S) ⊕ β) :=
  if q.where_.any (fun x => some x.key != q.where_.head?.map (·.key)) then ⟨[], some (.msg "composite indexes not supported")⟩
  else (tsFileMetadata db.idx).rows fun fm => (tsIndexHeaders db.idx fuel).rows fun headers =>
    ((db.searchPart A lower rand fuel fm headers q.search).map .inl).andThen ((db.conds fuel select q.ord fm headers q.where_).map .inr)

end Appendable
