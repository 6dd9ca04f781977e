import Verif.Model.Res
import Verif.Model.Ngram
/-! src/ngram/tokenizer.ts, and `Shuffle` of pkg/ngram/tokenizer.go. -/
namespace Appendable

/-- A JavaScript string: its UTF-16 code units. -/
abbrev JsString := List UInt16

/-- `Array.from(string)`: the code points; a surrogate without its partner stands for itself. -/
def jsCodePoints : JsString → List Nat
  | [] => []
  | [u] => [u.toNat]
  | u :: v :: rest =>
    if 0xD800 ≤ u.toNat ∧ u.toNat < 0xDC00 ∧ 0xDC00 ≤ v.toNat ∧ v.toNat < 0xE000 then
      (0x10000 + (u.toNat - 0xD800) * 0x400 + (v.toNat - 0xDC00)) :: jsCodePoints rest
    else u.toNat :: jsCodePoints (v :: rest)

/-- The regular expression `/[a-zA-Z0-9]/` on one character. -/
def jsWordChar (c : Nat) : Bool :=
  (decide (97 ≤ c) && decide (c ≤ 122)) || (decide (65 ≤ c) && decide (c ≤ 90)) || (decide (48 ≤ c) && decide (c ≤ 57))

/-- The regular expression `/\s/` on one character (ECMAScript: WhiteSpace and LineTerminator). -/
def jsSpaceChar (c : Nat) : Bool :=
  (decide (9 ≤ c) && decide (c ≤ 13)) || c == 32 || c == 0xA0 || c == 0x1680 || (decide (0x2000 ≤ c) && decide (c ≤ 0x200A)) ||
  c == 0x2028 || c == 0x2029 || c == 0x202F || c == 0x205F || c == 0x3000 || c == 0xFEFF

/-- src/ngram/tokenizer.ts:32-45: the words, as lists of indices; `idx` counts code points, `cur` is `currentWordOffsets`. -/
def tsWords (minGram : Nat) : Nat → List Nat → List Nat → List (List Nat)
  | _, cur, [] => if cur.length ≥ minGram then [cur] else []
  | idx, cur, c :: cs =>
    if jsWordChar c then tsWords minGram (idx + 1) (cur ++ [idx]) cs
    else if jsSpaceChar c then (if cur.length ≥ minGram then [cur] else []) ++ tsWords minGram (idx + 1) [] cs
    else tsWords minGram (idx + 1) cur cs

/-- src/ngram/tokenizer.ts:3-7 `NgramToken`, without the encoded value. -/
structure TsToken where
  value : JsString
  type : Nat
  deriving DecidableEq, Repr, Inhabited

/-- src/ngram/tokenizer.ts:13-17 `allGrams` with the numbers of src/db/database.ts:19-31 `FieldType`. -/
def tsGramType : Nat → Option Nat
  | 1 => some 10
  | 2 => some 9
  | 3 => some 8
  | _ => none

/-- src/ngram/tokenizer.ts:56-60: the string of the `N` indices from `idx` on; `phrase[i]` is a code unit. -/
def tsGramStr (phrase : JsString) (word : List Nat) (N idx : Nat) : JsString :=
  ((word.drop idx).take N).map (fun i => phrase.getD i 0)

/-- src/ngram/tokenizer.ts:54-70: the tokens of length `N`. `lower` is `String.prototype.toLowerCase`, a parameter. -/
def tsGramsOf (lower : JsString → JsString) (phrase : JsString) (words : List (List Nat)) (N type : Nat) : List TsToken :=
  words.flatMap (fun word => (List.range (word.length + 1 - N)).map (fun idx => ⟨lower (tsGramStr phrase word N idx), type⟩))

/-- The loop of src/ngram/tokenizer.ts:47-71 over the `k` values from `N` on. -/
def tsGramLoop (lower : JsString → JsString) (phrase : JsString) (words : List (List Nat)) : Nat → Nat → Res (List TsToken)
  | 0, _ => .ok []
  | k + 1, N => match tsGramType N with
    | none => .err (.msg "Unrecognized gram type for gram length")
    | some ty => (tsGramLoop lower phrase words k (N + 1)).bind fun rest => .ok (tsGramsOf lower phrase words N ty ++ rest)

/-- src/ngram/tokenizer.ts:26-74 `tokens`, of a tokenizer with whole numbers `minGram` and `maxGram`. -/
def tsTokens (lower : JsString → JsString) (minGram maxGram : Nat) (phrase : JsString) : Res (List TsToken) :=
  tsGramLoop lower phrase (tsWords minGram 0 [] (jsCodePoints phrase)) (maxGram + 1 - minGram) minGram

/-- Exchange of two elements of an array, `soup[i], soup[j] = soup[j], soup[i]`; Go panics on an index out of range. -/
def exchange {α : Type} (i j : Nat) (l : List α) : Res (List α) :=
  match l[i]?, l[j]? with
  | some x, some y => .ok ((l.set i y).set j x)
  | _, _ => .panic

/-- The loop of pkg/ngram/tokenizer.go:67-70 and src/ngram/tokenizer.ts:80-83, from index `i` downwards.  The random
number drawn at index `i` is `rand i`, taken modulo `i + 1`: `rand.Intn(i + 1)` and
`Math.floor(Math.random() * (idx + 1))` are numbers from 0 to `i`. -/
def shuffleLoop {α : Type} (rand : Nat → Nat) : Nat → List α → Res (List α)
  | 0, soup => .ok soup
  | i + 1, soup => (exchange (i + 1) (rand (i + 1) % (i + 2)) soup).bind (shuffleLoop rand i)

/-- pkg/ngram/tokenizer.go:61-73 `Shuffle` and src/ngram/tokenizer.ts:76-86 `shuffle` -/
def shuffle {α : Type} (rand : Nat → Nat) (tokens : List α) : Res (List α) := shuffleLoop rand (tokens.length - 1) tokens

end Appendable
