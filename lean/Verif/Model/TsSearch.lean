import Verif.Model.TsQuery
import Verif.Model.TsValidation
import Verif.Model.TsNgram
import Verif.Model.TsTable
import Verif.Model.Json
/-! The search part of src/db/database.ts `query` (lines 115-189) and src/bptree/bptree.ts `termFrequency`. -/
namespace Appendable

/-- The arithmetic of scores, JavaScript's numbers: any type with these operations.  `ofInt` is the number of an integer,
`half`, `k1` and `one` are the literals 0.5, 1.2 and 1. -/
structure ScoreArith (S : Type) extends ScoreOps S where
  ofInt : Int → S
  sub : S → S → S
  mul : S → S → S
  div : S → S → S
  log : S → S
  half : S
  k1 : S
  one : S

/-- src/db/database.ts:169-171 `idf`: `Math.log((n - nt + 0.5) / (nt + 0.5))` -/
def tsIdf {S : Type} (A : ScoreArith S) (n : Int) (nt : Nat) : S :=
  A.log (A.div (A.add (A.sub (A.ofInt n) (A.ofInt (nt : Int))) A.half) (A.add (A.ofInt (nt : Int)) A.half))

/-- src/db/database.ts:173-178: `num = tf * (K1 + 1)`, `den = tf + K1`, `score = idf * (num / den)`. -/
def tsScore {S : Type} (A : ScoreArith S) (idf : S) (tf : Nat) : S :=
  A.mul idf (A.div (A.mul (A.ofInt (tf : Int)) (A.add A.k1 A.one)) (A.add (A.ofInt (tf : Int)) A.k1))

/-- src/bptree/node.ts `DataPointer`: a JavaScript object.  A `Map` tells objects apart by identity: `id` counts the objects
of this kind that one query creates, so that two of them are equal here exactly if they are the same object. -/
structure TsSpan where
  id : Nat
  start : Int
  stop : Int
  deriving DecidableEq, Repr, Inhabited

/-- src/bptree/bptree.ts:30-33 `tfMap` -/
abbrev TfMap := PriorityTable TsSpan Nat

/-- src/bptree/bptree.ts:187-192: one entry; `fresh` is the number of the new object. -/
def tfVisit (acc : TfMap × Nat) (p : TsPtr) : TfMap × Nat :=
  let dp : TsSpan := ⟨acc.2, p.offset, p.offset + p.length - 1⟩
  (tableSet dp ((tableGet acc.1 dp).getD 0 + 1) acc.1, acc.2 + 1)

/-- src/bptree/bptree.ts:176-196 `termFrequency`: the loop is that of the condition `==` (src/db/database.ts:357-375), with the
pointers in place of the rows.  Simplification: the map is filled after the loop (if the loop throws, so does the query). -/
def tsTermFrequency (t : TsTree) (depth fuel : Nat) (v : Bytes) (tf : TfMap) (fresh : Nat) : Res (TfMap × Nat) :=
  let r := tsScanFrom t depth (fun p => .ok p) true (fun k => tsCompareBytes k v ≠ 0) fuel (.ok ⟨⟨0, 0⟩, v⟩)
  match r.fail with
  | some e => .err e
  | none => .ok (r.rows.foldl tfVisit (tf, fresh))

/-- src/db/query-lang.ts:18-22 `Search`; `config` as whole numbers (`validateSearch` also admits numbers between 1 and 3 that
are not whole, on which `tokens` throws). -/
structure TsSearch where
  key : Bytes
  like : JsString
  config : Option (Nat × Nat)
  deriving DecidableEq, Repr, Inhabited

/-- What the loop of src/db/database.ts:128-182 changes: `metaPageCache`, `btreeMap` (with the `tfMap` of each tree), the
number of objects created, and `table`. -/
structure TsSearchState (S : Type) where
  pages : PriorityTable Nat TsPage
  trees : PriorityTable Nat (TsTree × TfMap)
  fresh : Nat
  table : PriorityTable TsSpan S

/-- The code points that `TextEncoder` encodes: a lone surrogate becomes U+FFFD. -/
def jsScalar (c : Nat) : Nat := if 0xD800 ≤ c ∧ c < 0xE000 then 0xFFFD else c

/-- `TextEncoder.encode` (src/ngram/tokenizer.ts:66) -/
def jsEncode (s : JsString) : Bytes := (jsCodePoints s).flatMap (fun c => encodeRune (jsScalar c))

/-- src/db/database.ts:130-142: the page of the index for the field and the type, from the cache or looked up. -/
def TsDb.searchPage (db : TsDb) (fuel : Nat) (name : Bytes) (pages : PriorityTable Nat TsPage) (ft : Nat) :
    Res (TsPage × PriorityTable Nat TsPage) :=
  match tableGet pages ft with
  | some p => .ok (p, pages)
  | none => (tsSeek db.idx fuel name ft).bind fun mps =>
    match mps with
    | [x] => .ok (x.1, tableSet ft x.1 pages)
    | _ => .err (.msg "Expected to find meta page for key")

/-- src/db/database.ts:144-161: the tree for the type, kept in `btreeMap` under the type of the token after a look-up under the
type in the metadata. -/
def TsDb.searchTree (db : TsDb) (format : Nat) (trees : PriorityTable Nat (TsTree × TfMap)) (ft : Nat) (p : TsPage) (m : TsIndexMeta) :
    PriorityTable Nat (TsTree × TfMap) :=
  match tableGet trees m.fieldType with
  | some _ => trees
  | none => tableSet ft (⟨db.idx, db.dat, db.parse format m.fieldType, m.width, p.root db.idx⟩, []) trees

/-- src/db/database.ts:169-181: every entry of `tfMap` is scored. -/
def tsScoreAll {S : Type} (A : ScoreArith S) (n : Int) (tf : TfMap) (table : PriorityTable TsSpan S) : PriorityTable TsSpan S :=
  let idf := tsIdf A n tf.length
  tf.foldl (fun t e => tableInsert A.toScoreOps t e.1 (tsScore A idf e.2)) table

/-- src/db/database.ts:163-181: look-up and scoring of one token. -/
def TsDb.searchHits {S : Type} (A : ScoreArith S) (fuel : Nat) (n : Int) (st : TsSearchState S) (ft : Nat) (v : Bytes) : Res (TsSearchState S) :=
  match tableGet st.trees ft with
  | none => .err (.msg "TypeError")
  | some (t, tf) => (tsTermFrequency t fuel fuel v tf st.fresh).bind fun r =>
    .ok ⟨st.pages, tableSet ft (t, r.1) st.trees, r.2, tsScoreAll A n r.1 st.table⟩

/-- src/db/database.ts:128-182: one token, of type `ft` with the bytes `v`. -/
def TsDb.searchToken {S : Type} (db : TsDb) (A : ScoreArith S) (fuel : Nat) (format : Nat) (n : Int) (name : Bytes)
    (st : TsSearchState S) (ft : Nat) (v : Bytes) : Res (TsSearchState S) :=
  (db.searchPage fuel name st.pages ft).bind fun x =>
    (x.1.indexMeta db.idx).bind fun m =>
      TsDb.searchHits A fuel n ⟨x.2, db.searchTree format st.trees ft x.1 m, st.fresh, st.table⟩ ft v

/-- The loop of src/db/database.ts:128-182 over the tokens. -/
def TsDb.searchTokens {S : Type} (db : TsDb) (A : ScoreArith S) (fuel : Nat) (format : Nat) (n : Int) (name : Bytes) :
    TsSearchState S → List (Nat × Bytes) → Res (TsSearchState S)
  | st, [] => .ok st
  | st, (ft, v) :: toks => (db.searchToken A fuel format n name st ft v).bind fun st' => searchTokens db A fuel format n name st' toks

/-- src/db/database.ts:184-188: the rows. -/
def TsDb.searchRows {S : Type} (db : TsDb) : List (TsSpan × S) → TsRows (Bytes × S)
  | [] => ⟨[], none⟩
  | (k, s) :: rest =>
    match tsGet db.dat k.start k.stop with
    | .panic => ⟨[], some (.msg "panic")⟩
    | .err e => ⟨[], some e⟩
    | .ok b => ⟨(b, s) :: (searchRows db rest).rows, (searchRows db rest).fail⟩

/-- The rows of a result, or its exception. -/
def Res.rows {α β : Type} (r : Res α) (f : α → TsRows β) : TsRows β :=
  match r with
  | .panic => ⟨[], some (.msg "panic")⟩
  | .err e => ⟨[], some e⟩
  | .ok a => f a

/-- src/db/database.ts:115-189, after the metadata (`fm`) and the headers have been read: `rand` are the random numbers of the
shuffle, `lower` is `String.prototype.toLowerCase`. -/
def TsDb.searchWith {S : Type} (db : TsDb) (A : ScoreArith S) (lower : JsString → JsString) (rand : Nat → Nat) (fuel : Nat)
    (fm : TsFileMeta) (headers : List JsHeader) (q : TsSearch) : TsRows (Bytes × S) :=
  (jsValidateSearch ⟨q.key, q.config.map (fun x => (.fin x.1, .fin x.2))⟩ headers).rows fun _ =>
    (tsTokens lower (q.config.getD (1, 2)).1 (q.config.getD (1, 2)).2 q.like).rows fun toks =>
      (shuffle rand toks).rows fun soup =>
        (db.searchTokens A fuel fm.format fm.entries q.key ⟨[], [], 0, []⟩ (soup.map (fun tk => (tk.type, jsEncode tk.value)))).rows fun st =>
          db.searchRows (tableTop A.toScoreOps st.table)

/-- src/db/database.ts:102-189: a query with `search` and without `where`. -/
def TsDb.search {S : Type} (db : TsDb) (A : ScoreArith S) (lower : JsString → JsString) (rand : Nat → Nat) (fuel : Nat) (q : TsSearch) :
    TsRows (Bytes × S) :=
  (tsFileMetadata db.idx).rows fun fm => (tsIndexHeaders db.idx fuel).rows fun headers => db.searchWith A lower rand fuel fm headers q

end Appendable
