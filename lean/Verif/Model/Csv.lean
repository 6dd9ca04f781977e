import Verif.Model.Jsonl
/-! pkg/handlers/csv.go: the CSV handler, and the part of `encoding/csv` (Go standard library) that it uses. -/
namespace Appendable

/-! ### `csv.Reader.Read` with the default settings, on a text without newline -/

/-- A quoted field, after its opening quote: the contents, and what follows the comma after it (`none` at the end of
the line).  `none` is the error "extraneous or missing \" in quoted-field". -/
def csvQuoted : Bytes → Bytes → Option (Bytes × Option Bytes)
  | [], _ => none
  | b :: r, acc =>
    if b = 34 then
      match r with
      | [] => some (acc, none)
      | c :: r' => if c = 34 then csvQuoted r' (acc ++ [34]) else if c = 44 then some (acc, some r') else none
    else csvQuoted r (acc ++ [b])

/-- A field that does not begin with a quote: up to the next comma or the end.  `none` is the error "bare \" in
non-quoted field". -/
def csvPlain : Bytes → Option (Bytes × Option Bytes)
  | [] => some ([], none)
  | b :: r =>
    if b = 44 then some ([], some r)
    else if b = 34 then none
    else match csvPlain r with
      | none => none
      | some (f, rest) => some (b :: f, rest)

/-- The next field. -/
def csvField (line : Bytes) : Option (Bytes × Option Bytes) :=
  if line.head? = some 34 then csvQuoted line.tail [] else csvPlain line

/-- The fields of a line.  `fuel` bounds their number. -/
def csvFields : Nat → Bytes → Option (List Bytes)
  | 0, _ => none
  | fuel + 1, line =>
    match csvField line with
    | none => none
    | some (f, none) => some [f]
    | some (f, some rest) => (csvFields fuel rest).map (f :: ·)

/-- The end of a text: a trailing carriage return is dropped. -/
def dropCR (line : Bytes) : Bytes := if line.getLast? = some 13 then line.dropLast else line

/-- `csv.NewReader(line).Read()`: the fields of the line; `none` is an error (no record: `io.EOF`; bad quotes). -/
def csvRead (line : Bytes) : Option (List Bytes) :=
  if dropCR line = [] then none else csvFields (line.length + 1) (dropCR line)

/-! ### The handler -/

/-- `strconv.ParseBool` (Go standard library): `1`, `t`, `T`, `TRUE`, `true`, `True` and `0`, `f`, `F`, `FALSE`, `false`,
`False`. -/
def parseBool (v : Bytes) : Option Bool :=
  if v ∈ [[49], [116], [84], [84, 82, 85, 69], [116, 114, 117, 101], [84, 114, 117, 101]] then some true
  else if v ∈ [[48], [102], [70], [70, 65, 76, 83, 69], [102, 97, 108, 115, 101], [70, 97, 108, 115, 101]] then some false
  else none

/-- pkg/handlers/csv.go:107-127 `InferCSVField`.  `num` is `strconv.Atoi` (converted to float64) or else
`strconv.ParseFloat`: the bits of the number. -/
def inferCSV (num : Bytes → Option UInt64) (v : Bytes) : Tok :=
  if v = [] then .null
  else match num v with
    | some bits => .num bits
    | none => match parseBool v with
      | some b => .bool b
      | none => .str v

/-- pkg/handlers/csv.go:129-151 `Parse` -/
def csvParse (num : Bytes → Option UInt64) (v : Bytes) : Bytes := (inferCSV num v).bytes

/-- The field type of an inferred value. -/
def csvType (num : Bytes → Option UInt64) (v : Bytes) : UInt8 :=
  match inferCSV num v with
  | .null => 7
  | .num _ => 3
  | .bool _ => 6
  | _ => 0

/-- pkg/handlers/csv.go:160-194, the loop over the fields of a row; `hs` are the headers of the remaining fields and
`cum` is `cumulativeLength`. -/
def csvFieldsLoop (num : Bytes → Option UInt64) (i : IndexFile) (data : Bytes) (line : MemPtr) :
    List Bytes → List Bytes → UInt64 → Act PF Unit
  | _, [], _ => return ()
  | [], _ :: _, _ => Act.throw (.msg "field index is out of bounds with header")
  | h :: hs, v :: vs, cum => do
    let (page, _) ← i.findOrCreate h (csvType num v)
    (treeAt data (csvParse num) 0 page).insert ⟨⟨line.offset + cum, UInt32.ofNat v.length⟩, csvParse num v⟩ line
    csvFieldsLoop num i data line hs vs (cum + (UInt32.ofNat v.length + 1).toUInt64)

/-- pkg/handlers/csv.go:153-195 `handleCSVLine` -/
def handleCSVLine (num : Bytes → Option UInt64) (i : IndexFile) (data : Bytes) (headers : List Bytes) (line : MemPtr)
    (text : Bytes) : Act PF Unit :=
  match csvRead text with
  | none => Act.throw (.msg "failed to read CSV record")
  | some record => csvFieldsLoop num i data line headers record 0

/-- pkg/handlers/csv.go:46-74, the loop over the lines.  `fuel` bounds the number of lines. -/
def csvLoop (num : Bytes → Option UInt64) (i : IndexFile) (data : Bytes) : Nat → List Bytes → FileMeta → Act PF FileMeta
  | 0, _, _ => Act.crash
  | fuel + 1, headers, m =>
    if m.readOffset.toNat > data.length then Act.crash
    else match indexNewline (data.drop m.readOffset.toNat) with
      | none => return m
      | some n =>
        if headers = [] then
          match csvRead ((data.drop m.readOffset.toNat).take n) with
          | none => Act.throw (.msg "failed to parse CSV header")
          | some hs => csvLoop num i data fuel hs { m with readOffset := m.readOffset + UInt64.ofNat n + 1 }
        else do
          handleCSVLine num i data headers ⟨m.readOffset, UInt32.ofNat n⟩ ((data.drop m.readOffset.toNat).take n)
          csvLoop num i data fuel headers { m with readOffset := m.readOffset + UInt64.ofNat n + 1 }

/-- pkg/handlers/csv.go:29-85 `Synchronize` -/
def csvSync (num : Bytes → Option UInt64) (i : IndexFile) (data : Bytes) : Act PF Unit := do
  let m ← i.metadata
  let headers ← i.indexFieldNames
  let m' ← csvLoop num i data (data.length + 1) headers m
  i.setMetadata m'

end Appendable
