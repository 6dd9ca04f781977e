import Verif.Spec.Jsonl
import Verif.Spec.Ngram
/-! Which JSONL files `Synchronize` should accept. -/
namespace Appendable.Spec

/-- The end positions of tokens grow. -/
def Forward (toks : List (Tok × Nat)) : Prop := toks.Pairwise (fun a b => a.2 < b.2)

/-- If the field is searched, the decomposed form of its text has no more characters than the value has bytes in the file.
(This holds for ASCII text and most other text, not for characters such as U+33AF, three bytes which decompose to six characters.) -/
def GramsFit (nfkd : Bytes → Bytes) (hs : List Bytes) (f : Field) : Prop :=
  ∀ t, f.tok = .str t → f.name ∈ hs → ∃ rs : List Nat, (∀ r ∈ rs, Scalar r) ∧ nfkd t = rs.flatMap utf8 ∧ rs.length ≤ f.stop - f.start

/-- A line that the handler accepts: an object whose fields the index supports and whose searched texts fit. -/
structure LineFits (env : JEnv) (hs : List Bytes) (x : Bytes × List Field) : Prop where
  fields : LineFields env.lex x.1 x.2
  short : x.1.length < 2 ^ 32
  each : ∀ f ∈ x.2, FieldOK env.lex hs x.1 f
  forward : Forward (env.lex x.1).toks
  fit : ∀ f ∈ x.2, GramsFit env.nfkd hs f

end Appendable.Spec
