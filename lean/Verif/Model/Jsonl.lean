import Verif.Model.IndexFile
import Verif.Model.Ngram
/-! pkg/handlers/jsonl.go: the JSON lines handler. -/
namespace Appendable

/-- The tokens of `encoding/json` (Go standard library): delimiters, strings (unquoted), numbers (the bits of the
float64), booleans, null. -/
inductive Tok where
  | lbrace | rbrace | lbrack | rbrack
  | str (b : Bytes)
  | num (bits : UInt64)
  | bool (b : Bool)
  | null
  deriving DecidableEq, Repr, Inhabited

/-- The state of a `json.Decoder`: the tokens that `Token` will still return, each with the input offset after it, up
to the first error or the end; `endMore` is what `More` says there.  (The rest of the input is not looked at.) -/
structure Dec where
  toks : List (Tok × Nat)
  endMore : Bool
  deriving DecidableEq, Repr, Inhabited

/-- `Decoder.More` (Go standard library): the next byte that is not a space is not a closing delimiter. -/
def Dec.more (d : Dec) : Bool :=
  match d.toks with
  | [] => d.endMore
  | (.rbrace, _) :: _ => false
  | (.rbrack, _) :: _ => false
  | _ => true

/-- What the handler uses of libraries: `json.NewDecoder` on a text, and `norm.NFKD.String`. -/
structure JEnv where
  lex : Bytes → Dec
  nfkd : Bytes → Bytes

/-- The value bytes of a scalar token: pkg/handlers/jsonl.go:102-129 and the cases of 169-259. -/
def Tok.bytes : Tok → Bytes
  | .str b => b
  | .num bits => beBytes 8 bits.toNat
  | .bool b => if b then [1] else [0]
  | _ => []

/-- pkg/handlers/jsonl.go:96-130 `Parse`.  An error is logged and gives nil.  A delimiter panics in Go; here it gives
nothing (no key of the indexes is stored with such a text). -/
def JEnv.parse (env : JEnv) (value : Bytes) : Bytes :=
  match (env.lex value).toks with
  | [] => []
  | (t, _) :: _ => t.bytes

/-- pkg/handlers/jsonl.go:75-94 `jsonTypeToFieldType` (a list of one in Go); `none` is the panic. -/
def Tok.fieldType : Tok → Option UInt8
  | .lbrace => some 4
  | .lbrack => some 5
  | .num _ => some 3
  | .str _ => some 0
  | .bool _ => some 6
  | .null => some 7
  | _ => none

/-- `strings.Join(path, ".")` (Go standard library) -/
def joinDots : List Bytes → Bytes
  | [] => []
  | [a] => a
  | a :: b :: l => a ++ 46 :: joinDots (b :: l)

/-- pkg/handlers/jsonl.go:268-285: skip the tokens of an array at the given depth. -/
def skipArray : Nat → List (Tok × Nat) → Option (List (Tok × Nat))
  | _, [] => none
  | depth, (t, _) :: r =>
    let depth := match t with
      | .lbrack => depth + 1
      | .rbrack => depth - 1
      | _ => depth
    if depth = 0 then some r else skipArray depth r

/-- pkg/handlers/jsonl.go:190-206: insert the n-grams one by one, and the sum of their lengths. -/
def insertGrams (t : Tree) (mp : MemPtr) (len : UInt32) (line : MemPtr) : List Token → UInt64 → Act PF UInt64
  | [], total => return total
  | g :: gs, total => do
    t.insert ⟨⟨mp.offset + g.offset, len⟩, g.word⟩ line
    insertGrams t mp len line gs (total + g.length.toUInt64)

/-- pkg/handlers/jsonl.go:169-300, the switch over the field type `ft` in the index `page` with metadata `m`: the
length to add to the total, and the decoder afterwards.  `rec` is the recursive call for a nested object.  The cases
`expected string`, `expected bool type` and `unrecognized type` that cannot occur (the type comes from the value) are
left out. -/
def handleValue (env : JEnv) (data : Bytes) (line mp : MemPtr) (rec : Dec → Act PF Dec) (page : LP) (m : IndexMeta)
    (value : Tok) (ft : UInt8) (d : Dec) : Act PF (UInt64 × Dec) :=
  let t := treeAt data env.parse m.width page
  if ft = 10 ∨ ft = 9 ∨ ft = 8 then
    match value with
    | .str v => do
      let total ← insertGrams t mp (UInt32.ofNat v.length) line (buildNgram env.nfkd v (m.width - 1).toNat) 0
      return (total, d)
    | _ => Act.throw (.msg "expected string")
  else
    match value with
    | .str v => do
      t.insert ⟨mp, v⟩ line
      return (mp.length.toUInt64, d)
    | .null => do
      t.insert ⟨mp, []⟩ line
      return (0, d)
    | .num bits => do
      t.insert ⟨mp, beBytes 8 bits.toNat⟩ line
      return (mp.length.toUInt64, d)
    | .bool b => do
      t.insert ⟨mp, if b then [1] else [0]⟩ line
      return (1, d)
    | .lbrack =>
      match skipArray 1 d.toks with
      | none => Act.throw (.msg "failed to read token")
      | some r => return (0, { d with toks := r })
    | .lbrace => do
      let d' ← rec d
      match d'.toks with
      | (.rbrace, _) :: r => return (0, { d' with toks := r })
      | _ => Act.throw (.msg "expected '}'")
    | _ => Act.crash

/-- pkg/handlers/jsonl.go:158-309, one round of the loop over the field types. -/
def handleType (env : JEnv) (i : IndexFile) (data : Bytes) (line : MemPtr) (name : Bytes) (mp : MemPtr)
    (rec : Dec → Act PF Dec) (value : Tok) (ft : UInt8) (d : Dec) : Act PF Dec := do
  let (page, m) ← i.findOrCreate name ft
  let (n, d') ← handleValue env data line mp rec page m value ft d
  let buf ← Act.lift { m with totalLen := m.totalLen + n }.marshal
  page.setMetadata buf
  return d'

/-- pkg/handlers/jsonl.go:158-309, the loop over the field types.  (In Go the length of `mp` is computed anew from the
decoder position in each round; for a delimiter value it would differ in later rounds, which fail before using it.) -/
def handleTypes (env : JEnv) (i : IndexFile) (data : Bytes) (line : MemPtr) (name : Bytes) (mp : MemPtr)
    (rec : Dec → Act PF Dec) (value : Tok) : List UInt8 → Dec → Act PF Dec
  | [], d => return d
  | ft :: fts, d => do
    let d' ← handleType env i data line name mp rec value ft d
    handleTypes env i data line name mp rec value fts d'

/-- pkg/handlers/jsonl.go:132-314 `handleJSONLObject`: the fields of an object up to its end.  `line` is the parameter
`data` of Go.  `fuel` bounds the number of tokens. -/
def handleObj (env : JEnv) (i : IndexFile) (data : Bytes) (line : MemPtr) : Nat → List Bytes → Dec → Act PF Dec
  | 0, _, _ => Act.crash
  | fuel + 1, path, d =>
    if d.more = false then return d
    else match d.toks with
      | (.str key, ke) :: (value, ve) :: r =>
        let fieldOffset := ke + 1
        let name := joinDots (path ++ [key])
        let mp : MemPtr := ⟨line.offset + UInt64.ofNat fieldOffset, UInt32.ofNat (((ve : Int) - fieldOffset) % 2 ^ 32).toNat⟩
        match value.fieldType with
        | none => Act.crash
        | some ft => do
          let fts := if i.isSearch name then [ft, 10, 9, 8] else [ft]
          let d' ← handleTypes env i data line name mp (handleObj env i data line fuel (path ++ [key])) value fts ⟨r, d.endMore⟩
          handleObj env i data line fuel path d'
      | [(.str _, _)] => Act.throw (.msg "failed to read token")
      | [] => Act.throw (.msg "failed to read token")
      | _ => Act.throw (.msg "expected string key")

/-- `bytes.IndexByte(b, '\n')` (Go standard library) -/
def indexNewline : Bytes → Option Nat
  | [] => none
  | b :: bs => if b = 10 then some 0 else (indexNewline bs).map (· + 1)

/-- pkg/handlers/jsonl.go:41-58: one line of the data file. -/
def handleLine (env : JEnv) (i : IndexFile) (data : Bytes) (line : MemPtr) (text : Bytes) : Act PF Unit :=
  match (env.lex text).toks with
  | (.lbrace, _) :: r => do
    let d ← handleObj env i data line (r.length + 1) [] ⟨r, (env.lex text).endMore⟩
    match d.toks with
    | (.rbrace, _) :: _ => return ()
    | _ => Act.throw (.msg "expected '}'")
  | _ => Act.throw (.msg "only json objects are supported at the root")

/-- pkg/handlers/jsonl.go:33-65, the loop over the lines.  `fuel` bounds the number of lines.  The slice
`df[metadata.ReadOffset:]` panics if the offset is behind the end. -/
def syncLoop (env : JEnv) (i : IndexFile) (data : Bytes) : Nat → FileMeta → Act PF FileMeta
  | 0, _ => Act.crash
  | fuel + 1, m =>
    if m.readOffset.toNat > data.length then Act.crash
    else match indexNewline (data.drop m.readOffset.toNat) with
      | none => return m
      | some n => do
        handleLine env i data ⟨m.readOffset, UInt32.ofNat n⟩ ((data.drop m.readOffset.toNat).take n)
        syncLoop env i data fuel { m with readOffset := m.readOffset + UInt64.ofNat n + 1, entries := m.entries + 1 }

/-- pkg/handlers/jsonl.go:27-73 `Synchronize` (without the benchmark callback). -/
def jsonlSync (env : JEnv) (i : IndexFile) (data : Bytes) : Act PF Unit := do
  let m ← i.metadata
  let m' ← syncLoop env i data (data.length + 1) m
  i.setMetadata m'

end Appendable
