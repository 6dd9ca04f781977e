import Verif.Model.TsQuery
/-! src/db/query-validation.ts.  TypeScript types are not checked at run time, so the arguments are JavaScript values.
Error texts are shortened. -/
namespace Appendable

/-- A JavaScript number, as far as comparisons see it. -/
inductive JsNum where
  | nan
  | negInf
  | posInf
  | fin (q : Rat)
  deriving DecidableEq

/-- The operator `<` of JavaScript numbers (`a > b` is `b < a`). -/
def JsNum.lt : JsNum → JsNum → Bool
  | .nan, _ => false
  | _, .nan => false
  | .negInf, .negInf => false
  | .negInf, _ => true
  | _, .negInf => false
  | .posInf, _ => false
  | _, .posInf => true
  | .fin a, .fin b => decide (a < b)

/-- A property that should be an array: missing (or another falsy value), some other truthy value, or an array. -/
inductive JsArray (α : Type) where
  | absent
  | other
  | arr (xs : List α)
  deriving DecidableEq

/-- A value that should be a string. -/
inductive JsStr where
  | str (utf8 : Bytes)
  | other
  deriving DecidableEq, Repr, Inhabited

/-- src/db/query-lang.ts:7-11 `WhereNode`, unchecked: the operation is any text. -/
structure JsWhere where
  operation : Bytes
  key : JsStr
  value : JsVal
  deriving DecidableEq, Repr, Inhabited

/-- src/db/query-lang.ts:24-27 `OrderBy`, unchecked. -/
structure JsOrder where
  key : JsStr
  direction : Bytes
  deriving DecidableEq, Repr, Inhabited

/-- src/db/query-lang.ts:18-22 `Search`; `config` is the pair of `minGram` and `maxGram`. -/
structure JsSearch where
  key : Bytes
  config : Option (JsNum × JsNum)
  deriving DecidableEq

/-- src/db/query-lang.ts:31-37 `Query`, unchecked, without `limit`. -/
structure JsQuery where
  where_ : JsArray JsWhere
  orderBy : JsArray JsOrder
  select : JsArray JsStr
  search : Option JsSearch
  deriving DecidableEq

/-- src/file/meta.ts:50-53 `IndexHeader`: field name and field types. -/
abbrev JsHeader := Bytes × List Nat

/-- src/db/query-validation.ts:25: the operations `<`, `<=`, `==`, `>=`, `>`. -/
def jsOperations : List Bytes := [[60], [60, 61], [61, 61], [62, 61], [62]]

/-- src/db/query-validation.ts:105: the directions `ASC`, `DESC`. -/
def jsDirections : List Bytes := [[65, 83, 67], [68, 69, 83, 67]]

/-- src/db/query-validation.ts:12-14 `checkType` -/
def jsCheckType (headerType : List Nat) (queryType : Nat) : Bool := headerType.contains queryType

/-- src/db/query-validation.ts:47-89: the type of the value against the types of the header. -/
def jsValueCheck (types : List Nat) : JsVal → Res Unit
  | .null => if jsCheckType types 7 then .ok () else .err (.msg "null type not included in header types")
  | .num _ =>
    if !jsCheckType types 3 && !jsCheckType types 2 && !jsCheckType types 1 then
      .err (.msg "number type not included in header types")
    else .ok ()
  | .str _ => if !jsCheckType types 0 then .err (.msg "string type not included in header types") else .ok ()
  | .bool _ => if !jsCheckType types 6 then .err (.msg "boolean type not included in header types") else .ok ()
  | .undefined => .err (.msg "'value' in 'where' clause is missing.")
  | .other => .err (.msg "unrecognized type")

/-- src/db/query-validation.ts:24-90: one where clause. -/
def jsValidateNode (headers : List JsHeader) (w : JsWhere) : Res Unit :=
  if !jsOperations.contains w.operation then .err (.msg "Invalid operation in 'where' clause.")
  else match w.key with
    | .other => .err (.msg "'key' in 'where' clause must be a string.")
    | .str key =>
      match headers.find? (fun h => h.1 == key) with
      | none => .err (.msg "key in 'where' clause does not exist in dataset.")
      | some header => jsValueCheck header.2 w.value

/-- The loop `for (const whereNode of where)`. -/
def jsValidateNodes (headers : List JsHeader) : List JsWhere → Res Unit
  | [] => .ok ()
  | w :: ws => (jsValidateNode headers w).bind (fun _ => jsValidateNodes headers ws)

/-- src/db/query-validation.ts:16-91 `validateWhere` -/
def jsValidateWhere (headers : List JsHeader) : JsArray JsWhere → Res Unit
  | .absent => .err (.msg "Missing 'where' clause.")
  | .other => .err (.msg "Missing 'where' clause.")
  | .arr [] => .err (.msg "Missing 'where' clause.")
  | .arr ws => jsValidateNodes headers ws

/-- src/db/query-validation.ts:93-113 `validateOrderBy` -/
def jsValidateOrderBy (whereKey : JsStr) : JsArray JsOrder → Res Unit
  | .absent => .ok ()
  | .other => .err (.msg "Invalid 'orderBy' clause.")
  | .arr [] => .err (.msg "Invalid 'orderBy' clause.")
  | .arr (o :: _) =>
    if !jsDirections.contains o.direction then .err (.msg "Invalid direction in `orderBy`.")
    else if o.key != whereKey then .err (.msg "'key' in `orderBy` must match `key` in `where` clause")
    else .ok ()

/-- `hset.has(s)` for the set of the field names (src/db/query-validation.ts:128-137). -/
def jsHasField (headers : List JsHeader) : JsStr → Bool
  | .other => false
  | .str s => (headers.map (·.1)).contains s

/-- src/db/query-validation.ts:115-139 `validateSelect`.  (`select.map` throws at the first unknown name.) -/
def jsValidateSelect (headers : List JsHeader) : JsArray JsStr → Res Unit
  | .absent => .ok ()
  | .other => .err (.msg "select is not an array")
  | .arr [] => .err (.msg "select clause is empty")
  | .arr ss => if ss.all (jsHasField headers) then .ok () else .err (.msg "not included in the field name headers")

/-- src/db/query-validation.ts:141-189 `validateSearch`: it fills in the default configuration, so the result is the
configuration that the search object has afterwards.  `gset` is the set of n-gram types that the header lacks. -/
def jsValidateSearch (s : JsSearch) (headers : List JsHeader) : Res (JsNum × JsNum) :=
  let config := s.config.getD (.fin 1, .fin 2)
  match headers.find? (fun h => h.1 == s.key) with
  | none => .err (.msg "Unable to find index header")
  | some fh =>
    if ([10, 9, 8].filter (fun g => !fh.2.contains g)).length ≠ 0 then .err (.msg "Unable to find valid ngram field types")
    else if (JsNum.fin 3).lt config.2 || (JsNum.fin 3).lt config.1 then .err (.msg "Invalid gram length: greater than 3")
    else if config.1.lt (.fin 1) || config.2.lt (.fin 1) then .err (.msg "Invalid gram length: less than 1")
    else if config.2.lt config.1 then .err (.msg "Invalid gram length: minGram greater than maxGram")
    else .ok config

/-- The key of `query.where![0]` (src/db/query-validation.ts:201). -/
def jsFirstKey : JsArray JsWhere → JsStr
  | .arr (w :: _) => w.key
  | _ => .other

/-- src/db/query-validation.ts:195-197 -/
def jsSearchPart (headers : List JsHeader) : Option JsSearch → Res Unit
  | some s => (jsValidateSearch s headers).bind (fun _ => .ok ())
  | none => .ok ()

/-- src/db/query-validation.ts:199-203 -/
def jsWherePart (headers : List JsHeader) (q : JsQuery) : Res Unit :=
  if q.where_ = .absent then .ok ()
  else (jsValidateWhere headers q.where_).bind (fun _ =>
    (jsValidateOrderBy (jsFirstKey q.where_) q.orderBy).bind (fun _ => jsValidateSelect headers q.select))

/-- src/db/query-validation.ts:191-204 `validateQuery` -/
def jsValidateQuery (q : JsQuery) (headers : List JsHeader) : Res Unit :=
  (jsSearchPart headers q.search).bind (fun _ => jsWherePart headers q)

end Appendable
