import Verif.Model.TsSearch
import Verif.Spec.Ts
import Verif.Spec.Ngram
/-! What a search should return, and what it returns. -/
namespace Appendable.Spec

/-- The search object asks for the ASCII text `like` in the field `name`, with n-grams of `lo` to `hi` characters. -/
def Asks (q : TsSearch) (name like : Bytes) (lo hi : Nat) : Prop :=
  q.key = name ∧ q.like = like.map (·.toUInt16) ∧ q.config.getD (1, 2) = (lo, hi) ∧ 1 ≤ lo ∧ lo ≤ hi ∧ hi ≤ 3 ∧ Ascii like

/-- The n-grams looked for, with their lengths. -/
def tokensOf (like : Bytes) (lo hi : Nat) : List (Nat × Bytes) :=
  (List.range' lo (hi + 1 - lo)).flatMap (fun n => (ngrams n like).map (fun w => (n, w)))

/-- The field `name` is searchable: for its n-grams of one, two and three characters there are the indexes number `ix 1`, `ix 2` and
`ix 3`.  The client can read the entries of those that a search for the n-grams of `like` of `lo` to `hi` characters uses. -/
structure Searchable (parse : Bytes → Bytes) (wd : UInt16 → UInt16) (data : Bytes) (s : PF) (fm : FileMeta) (is : List (LP × IndexMeta))
    (c : Nat → List (RV × MemPtr)) (db : TsDb) (name like : Bytes) (lo hi : Nat) (ix : Nat → Nat) (p : Nat → LP) (m : Nat → IndexMeta) : Prop where
  sees : Sees db data s.file.bytes
  index : ∀ n, 1 ≤ n → n ≤ 3 → is[ix n]? = some (p n, m n) ∧ (m n).fieldName = name ∧ (m n).fieldType.toNat = 11 - n
  readable : ∀ n, lo ≤ n → n ≤ hi → ngrams n like ≠ [] → wd (m n).width = (m n).width ∧
    ∀ e ∈ c (ix n), EntryOK (db.parse fm.format.toByte.toNat (m n).fieldType.toNat) ⟨data, parse, (m n).width⟩ e

/-- The indexes that the search uses have entries. -/
def NoneEmpty (c : Nat → List (RV × MemPtr)) (like : Bytes) (lo hi : Nat) (ix : Nat → Nat) : Prop :=
  ∀ n, lo ≤ n → n ≤ hi → ngrams n like ≠ [] → c (ix n) ≠ []

/-- The entries with the value `v`. -/
def hits (es : List (RV × MemPtr)) (v : Bytes) : List (RV × MemPtr) := es.filter (fun e => decide (e.1.value = v))

/-- The search returns the rows `r`, records with scores, whatever the bound on the loops of the model, if it is large enough. -/
def Finds {S : Type} (db : TsDb) (A : ScoreArith S) (lower : JsString → JsString) (rand : Nat → Nat) (q : TsSearch)
    (r : TsRows (Bytes × S)) : Prop :=
  ∃ N, ∀ fuel, N ≤ fuel → db.search A lower rand fuel q = r

/-- The weight of one occurrence when `nt` occurrences have been counted, among `n` records: the logarithm of
`(n - nt + 0.5) / (nt + 0.5)`, times `(1 * (1.2 + 1)) / (1 + 1.2)`. -/
def weight {S : Type} (A : ScoreArith S) (n : Int) (nt : Nat) : S :=
  A.mul (A.log (A.div (A.add (A.sub (A.ofInt n) (A.ofInt nt)) A.half) (A.add (A.ofInt nt) A.half)))
    (A.div (A.mul (A.ofInt 1) (A.add A.k1 A.one)) (A.add (A.ofInt 1) A.k1))

/-- The score of a hit of the first of these n-grams, each given by its length and its number of hits: for it and for each later
n-gram of the same length `l` it gets the weight for the number of hits counted so far for that length (`before` is that
number before the first). -/
def runningScore {S : Type} (A : ScoreArith S) (n : Int) (l before : Nat) : List (Nat × Nat) → S → S
  | [], acc => acc
  | (l', h) :: rest, acc =>
    if l' = l then runningScore A n l (before + h) rest (A.add acc (weight A n (before + h)))
    else runningScore A n l before rest acc

/-- The rows a search produces, before sorting: for each n-gram, in the order in which they are processed, one for every hit.
`before l` is the number of earlier hits of n-grams of length `l`. -/
def searchRows {S : Type} (A : ScoreArith S) (data : Bytes) (n : Int) : (before : Nat → Nat) → List (Nat × List (RV × MemPtr)) → List (Bytes × S)
  | _, [] => []
  | before, (l, hs) :: rest =>
    hs.map (fun e => (record data e.2, runningScore A n l (before l) ((l, hs.length) :: rest.map (fun x => (x.1, x.2.length))) A.zero)) ++
      searchRows A data n (fun l' => if l' = l then before l + hs.length else before l') rest

end Appendable.Spec
