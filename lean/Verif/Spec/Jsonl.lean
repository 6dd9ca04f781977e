import Verif.Model.Jsonl
import Verif.Spec.Jobs
/-! What a JSONL file says, and what its index should hold. -/
namespace Appendable.Spec
open Appendable Tree

/-- A field of a line: its dotted name, the (first) token of its value, and where the value is: from just after the
colon following the key to the end of the token, relative to the line. -/
structure Field where
  name : Bytes
  tok : Tok
  start : Nat
  stop : Nat
  deriving DecidableEq, Repr

/-- A string, number, boolean or null. -/
def isScalar : Tok → Prop
  | .str _ | .num _ | .bool _ | .null => True
  | _ => False

instance : DecidablePred isScalar := fun t => by cases t <;> unfold isScalar <;> infer_instance

/-- `Skips n l r`: the tokens `l` begin with the rest of `n` nested arrays; `r` comes after them. -/
inductive Skips : Nat → List (Tok × Nat) → List (Tok × Nat) → Prop
  | done {r : List (Tok × Nat)} : Skips 0 r r
  | opening {n e : Nat} {l r : List (Tok × Nat)} (h : Skips (n + 2) l r) : Skips (n + 1) ((.lbrack, e) :: l) r
  | closing {n e : Nat} {l r : List (Tok × Nat)} (h : Skips n l r) : Skips (n + 1) ((.rbrack, e) :: l) r
  | other {n e : Nat} {t : Tok} {l r : List (Tok × Nat)} (h1 : t ≠ .lbrack) (h2 : t ≠ .rbrack) (h : Skips (n + 1) l r) :
      Skips (n + 1) ((t, e) :: l) r

/-- The dotted name of a path. -/
def dotted (path : List Bytes) : Bytes := List.intercalate [46] path

/-- `Obj path l fs r`: the tokens `l` are the fields `fs` of an object reached by `path` (fields of nested objects after
the field they are in, with dotted names), up to its closing brace; `r` comes after it. -/
inductive Obj : List Bytes → List (Tok × Nat) → List Field → List (Tok × Nat) → Prop
  | close {path : List Bytes} {e : Nat} {r : List (Tok × Nat)} : Obj path ((.rbrace, e) :: r) [] r
  | scalar {path : List Bytes} {key : Bytes} {ke ve : Nat} {v : Tok} {l r : List (Tok × Nat)} {fs : List Field}
      (hv : isScalar v) (h : Obj path l fs r) :
      Obj path ((.str key, ke) :: (v, ve) :: l) (⟨dotted (path ++ [key]), v, ke + 1, ve⟩ :: fs) r
  | array {path : List Bytes} {key : Bytes} {ke ve : Nat} {l m r : List (Tok × Nat)} {fs : List Field}
      (hs : Skips 1 l m) (h : Obj path m fs r) :
      Obj path ((.str key, ke) :: (.lbrack, ve) :: l) (⟨dotted (path ++ [key]), .lbrack, ke + 1, ve⟩ :: fs) r
  | object {path : List Bytes} {key : Bytes} {ke ve : Nat} {l m r : List (Tok × Nat)} {fs gs : List Field}
      (hn : Obj (path ++ [key]) l gs m) (h : Obj path m fs r) :
      Obj path ((.str key, ke) :: (.lbrace, ve) :: l) (⟨dotted (path ++ [key]), .lbrace, ke + 1, ve⟩ :: (gs ++ fs)) r

/-- The line `text` is an object with the fields `fs` (whatever comes after it). -/
def LineFields (lex : Bytes → Dec) (text : Bytes) (fs : List Field) : Prop :=
  ∃ (e : Nat) (l r : List (Tok × Nat)), (lex text).toks = (.lbrace, e) :: l ∧ Obj [] l fs r

/-- The field type of a value. -/
def kindOf : Tok → FieldType
  | .str _ => .string
  | .num _ => .float64
  | .bool _ => .boolean
  | .null => .null
  | .lbrack => .array
  | _ => .object

/-- How a value is stored in the index: a string as it is, a number as the eight bytes of its IEEE 754 form, the highest
first, a boolean as one byte, 1 or 0; null as nothing. -/
def valueBytes : Tok → Bytes
  | .str text => text
  | .num bits => [UInt8.ofNat (bits.toNat / 2 ^ 56), UInt8.ofNat (bits.toNat / 2 ^ 48), UInt8.ofNat (bits.toNat / 2 ^ 40),
      UInt8.ofNat (bits.toNat / 2 ^ 32), UInt8.ofNat (bits.toNat / 2 ^ 24), UInt8.ofNat (bits.toNat / 2 ^ 16),
      UInt8.ofNat (bits.toNat / 2 ^ 8), UInt8.ofNat bits.toNat]
  | .bool true => [1]
  | .bool false => [0]
  | _ => []

/-- Where the value of a field is in the file, if its line starts at `off`. -/
def valuePtr (off : Nat) (f : Field) : MemPtr := ⟨UInt64.ofNat (off + f.start), UInt32.ofNat (f.stop - f.start)⟩

/-- What a value adds to the total length of its index: its length in the file, 1 for booleans, nothing for null,
objects and arrays. -/
def valueTotal : Tok → UInt32 → UInt64
  | .str _, n => n.toUInt64
  | .num _, n => n.toUInt64
  | .bool _, _ => 1
  | _, _ => 0

/-- The n-grams of a searched field: `n` characters each.  Each is stored at the position of the value plus its offset
in the text, with the length of the whole text. -/
def gramJob (nfkd : Bytes → Bytes) (off : Nat) (line : MemPtr) (f : Field) (text : Bytes) (ty : FieldType) (n : Nat) : Job :=
  let gs := buildNgram nfkd text n
  ⟨f.name, ty.code, gs.map (fun g => (⟨⟨UInt64.ofNat (off + f.start) + g.offset, UInt32.ofNat text.length⟩, g.word⟩, line)),
    (gs.map (fun g => g.length.toUInt64)).foldr (· + ·) 0⟩

/-- What a field of the line starting at `off` adds to the index: its value in the index of its name and type (nothing
but the index itself for arrays and objects), and its n-grams if its name is one of the search headers. -/
def fieldJobs (nfkd : Bytes → Bytes) (headers : List Bytes) (off : Nat) (line : MemPtr) (f : Field) : List Job :=
  ⟨f.name, (kindOf f.tok).code, if isScalar f.tok then [(⟨valuePtr off f, valueBytes f.tok⟩, line)] else [],
    valueTotal f.tok (valuePtr off f).length⟩ ::
  match f.tok with
  | .str text => if f.name ∈ headers then
      [gramJob nfkd off line f text .unigram 1, gramJob nfkd off line f text .bigram 2, gramJob nfkd off line f text .trigram 3]
    else []
  | _ => []

/-- What the lines from position `off` on add to the index. -/
def linesJobs (nfkd : Bytes → Bytes) (headers : List Bytes) : Nat → List (Bytes × List Field) → List Job
  | _, [] => []
  | off, (text, fs) :: ls =>
    fs.flatMap (fieldJobs nfkd headers off ⟨UInt64.ofNat off, UInt32.ofNat text.length⟩) ++
      linesJobs nfkd headers (off + text.length + 1) ls

/-- The file made of complete lines and a last incomplete one. -/
def fileOf (lines : List Bytes) (tail : Bytes) : Bytes := lines.flatMap (· ++ [10]) ++ tail

/-- `data` consists of the complete lines `lines` and the incomplete line `tail`. -/
def IsLines (data : Bytes) (lines : List Bytes) (tail : Bytes) : Prop :=
  data = fileOf lines tail ∧ (∀ l ∈ lines, (10 : UInt8) ∉ l) ∧ (10 : UInt8) ∉ tail

/-- The fields that the index supports: the name is at most 236 bytes long; a searched field is a string; and the bytes
of a string value, read on their own, give the string again (that is not so if there are spaces between the key and the
colon). -/
structure FieldOK (lex : Bytes → Dec) (headers : List Bytes) (text : Bytes) (f : Field) : Prop where
  name : f.name.length ≤ 236
  search : f.name ∈ headers → ∃ v, f.tok = .str v
  inside : f.start ≤ f.stop ∧ f.stop ≤ text.length
  text : ∀ v, f.tok = .str v → ∃ e r, (lex ((text.drop f.start).take (f.stop - f.start))).toks = (.str v, e) :: r

/-- No index gets the same key (value and position) twice. -/
def Distinct (js : List Job) : Prop := ∀ (n : Bytes) (t : UInt8), ((entriesOf js n t).map (·.1)).Nodup

/-- `SyncRun env hs data i s`: the index file `i` with search headers `hs` in state `s` is reached from an empty file by
opening it, successful calls of `Synchronize` with a data file that only grows, and reopening; `data` is the data file
of the last call. -/
inductive SyncRun (env : JEnv) (hs : List Bytes) : Bytes → IndexFile → PF → Prop
  | create {f f' : File} {i : IndexFile} {s : PF} (hf : f.bytes = []) (hb : f.budget = none)
      (h : IndexFile.openIndex .jsonl hs f = (.ok (i, s), f')) : SyncRun env hs [] i s
  | sync {data more : Bytes} {i : IndexFile} {s s' : PF} (hr : SyncRun env hs data i s)
      (h : jsonlSync env i (data ++ more) s = (.ok (), s')) : SyncRun env hs (data ++ more) i s'
  | reopen {data : Bytes} {i i' : IndexFile} {s s' : PF} {f f' : File} (hr : SyncRun env hs data i s)
      (hb : f.bytes = s.file.bytes) (hu : f.budget = none) (h : IndexFile.openIndex .jsonl hs f = (.ok (i', s'), f')) :
      SyncRun env hs data i' s'

end Appendable.Spec
