import Verif.Spec.Search
import Verif.Spec.Jsonl
/-! Searching a JSONL file: which lines should be returned. -/
namespace Appendable.Spec

/-- UTF-8 text. -/
def ValidUtf8 (b : Bytes) : Prop := ∃ rs : List Nat, (∀ r ∈ rs, Scalar r) ∧ b = rs.flatMap utf8

/-- What of a text is searched: the ASCII characters of its decomposed form. -/
def letters (nfkd : Bytes → Bytes) (t : Bytes) : Bytes := (nfkd t).filter (fun b => decide (b.toNat < 128))

/-- The text of the field, if its name is `name` and it is a text. -/
def textOf (name : Bytes) (f : Field) : List Bytes :=
  match f.tok with
  | .str t => if f.name = name then [t] else []
  | _ => []

/-- The texts of the field `name` of a line. -/
def textsOf (name : Bytes) (fs : List Field) : List Bytes := fs.flatMap (textOf name)

/-- All occurrences of n-grams in the field `name`: each with the line it is in. -/
def gramsOf (nfkd : Bytes → Bytes) (name : Bytes) (n : Nat) (lf : List (Bytes × List Field)) : List (Bytes × Bytes) :=
  lf.flatMap (fun x => (textsOf name x.2).flatMap (fun t => (ngrams n (letters nfkd t)).map (fun w => (w, x.1))))

/-- The line with these fields has the field `name` with a text that has an n-gram of `lo` to `hi` characters in common with `like`. -/
def LineMatches (nfkd : Bytes → Bytes) (name like : Bytes) (lo hi : Nat) (fs : List Field) : Prop :=
  ∃ t ∈ textsOf name fs, ∃ n v, lo ≤ n ∧ n ≤ hi ∧ v ∈ ngrams n like ∧ v ∈ ngrams n (letters nfkd t)

/-- A JSONL file with the lines `lf` (each with its fields), indexed by `Synchronize` in any number of steps, with `name` among the
search headers and in at least one of the lines; the client has it and its index before it.  Both are below 1 GB (the index
file may have 2 GB), and the lines have at least two bytes. -/
structure SearchFile (env : JEnv) (hs : List Bytes) (data : Bytes) (i : IndexFile) (s : PF) (lf : List (Bytes × List Field)) (tail name : Bytes)
    (db : TsDb) : Prop where
  run : SyncRun env hs data i s
  lines : IsLines data (lf.map (·.1)) tail
  ok : ∀ x ∈ lf, LineFields env.lex x.1 x.2 ∧ 2 ≤ x.1.length ∧ ∀ f ∈ x.2, FieldOK env.lex hs x.1 f
  size : data.length < 2 ^ 30
  header : name ∈ hs
  some_ : ∃ x ∈ lf, textsOf name x.2 ≠ []
  texts : ∀ x ∈ lf, ∀ t ∈ textsOf name x.2, t.length < 2 ^ 30 ∧ ValidUtf8 (env.nfkd t) ∧ (env.nfkd t).length < 2 ^ 30
  sees : Sees db data s.file.bytes

/-- Where the phrase has n-grams of `n` characters, `lo ≤ n ≤ hi`, some text of the field has too. -/
def Filled (nfkd : Bytes → Bytes) (name like : Bytes) (lo hi : Nat) (lf : List (Bytes × List Field)) : Prop :=
  ∀ n, lo ≤ n → n ≤ hi → ngrams n like ≠ [] → gramsOf nfkd name n lf ≠ []

/-- The n-gram indexes that the search uses fit into a page each. -/
def OnePage (nfkd : Bytes → Bytes) (hs : List Bytes) (name like : Bytes) (lo hi : Nat) (lf : List (Bytes × List Field)) : Prop :=
  ∀ n, lo ≤ n → n ≤ hi → ngrams n like ≠ [] →
    leafBytes (UInt16.ofNat (n + 1)) (entriesOf (linesJobs nfkd hs 0 lf) name (UInt8.ofNat (11 - n))) ≤ 4096

/-- An operation on numbers, `none` if one of them is not a number. -/
def both (f : Rat → Rat → Rat) : Option Rat → Option Rat → Option Rat
  | some a, some b => some (f a b)
  | _, _ => none

/-- Numbers with `NaN` (`none`), without rounding: `log` is a logarithm, defined on the positive numbers; elsewhere it is `NaN`.  Comparing
with `NaN`, `sort` takes the elements for equal. -/
def nanArith (log : Rat → Rat) : ScoreArith (Option Rat) where
  zero := some 0
  add := both (· + ·)
  le := fun a b => match a, b with | some a, some b => decide (a ≤ b) | _, _ => true
  ofInt := fun n => some n
  sub := both (· - ·)
  mul := both (· * ·)
  div := both (· / ·)
  log := fun a => match a with | some x => if 0 < x then some (log x) else none | none => none
  half := some (1 / 2)
  k1 := some (6 / 5)
  one := some 1

/-- The number of hits of the n-grams of `n` characters of the phrase: for every one its occurrences in the field. -/
def hitCount (nfkd : Bytes → Bytes) (name like : Bytes) (n : Nat) (lf : List (Bytes × List Field)) : Nat :=
  ((ngrams n like).map (fun v => ((gramsOf nfkd name n lf).filter (fun o => decide (o.1 = v))).length)).sum

end Appendable.Spec
