import Verif.Model.Res
import Verif.Model.Encoding
/-! pkg/appendable/appendable.go: file and index metadata. -/
namespace Appendable

/-- pkg/appendable/appendable.go:36-41 `Format` -/
inductive Format where
  | jsonl
  | csv
  deriving DecidableEq, Repr, Inhabited

/-- `byte(m.Format)` with `FormatJSONL = 0`, `FormatCSV = 1` (pkg/appendable/appendable.go:38-41).  A Go
`Format` could hold any other byte; the code never creates one. -/
def Format.toByte : Format → UInt8
  | .jsonl => 0
  | .csv => 1

/-- pkg/appendable/appendable.go:97-107 `FileMeta` -/
structure FileMeta where
  version : UInt8
  format : Format
  readOffset : UInt64
  entries : UInt64
  deriving DecidableEq, Repr, Inhabited

/-- pkg/appendable/appendable.go:109-116 `FileMeta.MarshalBinary`.  The buffer is `10 + SizeVarint(Entries)`
bytes, `PutUvarint` panics if that is too short and leaves zeros behind the varint if it is too long. -/
def FileMeta.marshal (m : FileMeta) : Res Bytes :=
  let sz := sizeVarint m.entries
  let e := putUvarint m.entries
  if e.length ≤ sz then
    .ok ([m.version, m.format.toByte] ++ leBytes 8 m.readOffset.toNat ++ (e ++ List.replicate (sz - e.length) 0))
  else .panic

/-- pkg/appendable/appendable.go:118-141 `FileMeta.UnmarshalBinary` -/
def FileMeta.unmarshal (buf : Bytes) : Res FileMeta :=
  if buf.length < 10 then .err (.msg "invalid metadata size")
  else
    let ro := UInt64.ofNat (leNat ((buf.drop 2).take 8))
    let e := (uvarint (buf.drop 10)).1
    match buf with
    | v :: f :: _ =>
      if f = 0 then .ok ⟨v, .jsonl, ro, e⟩
      else if f = 1 then .ok ⟨v, .csv, ro, e⟩
      else .err (.msg "unrecognized file format")
    | _ => .panic

/-- pkg/appendable/appendable.go:46-64 `FieldType` (iota order). -/
inductive FieldType where
  | string | int64 | uint64 | float64 | object | array | boolean | null | trigram | bigram | unigram | vector
  deriving DecidableEq, Repr, Inhabited

/-- The iota value of a field type, pkg/appendable/appendable.go:46-64. -/
def FieldType.code : FieldType → UInt8
  | .string => 0 | .int64 => 1 | .uint64 => 2 | .float64 => 3 | .object => 4 | .array => 5
  | .boolean => 6 | .null => 7 | .trigram => 8 | .bigram => 9 | .unigram => 10 | .vector => 11

/-- pkg/appendable/appendable.go:143-150 `IndexMeta`.  The field type is kept as the byte it is in Go; the
field name is a Go string, i.e. a byte string. -/
structure IndexMeta where
  fieldName : Bytes
  fieldType : UInt8
  width : UInt16
  totalLen : UInt64
  deriving DecidableEq, Repr, Inhabited

/-- pkg/appendable/appendable.go:152-160 `IndexMeta.MarshalBinary` -/
def IndexMeta.marshal (m : IndexMeta) : Res Bytes :=
  let sz := sizeVarint m.totalLen
  let e := putUvarint m.totalLen
  if e.length ≤ sz then
    .ok (leBytes 2 m.fieldType.toNat ++ leBytes 2 m.width.toNat ++ leBytes 2 (m.fieldName.length % 2 ^ 16)
      ++ m.fieldName ++ (e ++ List.replicate (sz - e.length) 0))
  else .panic

/-- pkg/appendable/appendable.go:162-176 `IndexMeta.UnmarshalBinary`.  `FieldType(uint16)` keeps the low
byte; `Uint16(buf[4:])` panics on 4 or 5 bytes; the length check compares with `4+nameLength` although the
name starts at 6, so the slice `buf[6:6+nameLength]` (uint16 arithmetic) can panic. -/
def IndexMeta.unmarshal (buf : Bytes) : Res IndexMeta :=
  if buf.length < 4 then .err (.msg "invalid metadata size")
  else if buf.length < 6 then .panic
  else
    let ft := UInt8.ofNat (leNat (buf.take 2) % 256)
    let w := UInt16.ofNat (leNat ((buf.drop 2).take 2))
    let nl := leNat ((buf.drop 4).take 2)
    if buf.length < 4 + nl then .err (.msg "invalid metadata size")
    else
      let e := (6 + nl) % 2 ^ 16
      if e < 6 ∨ buf.length < e then .panic
      else .ok ⟨(buf.drop 6).take nl, ft, w, (uvarint (buf.drop e)).1⟩

/-- pkg/appendable/appendable.go:178-197 `DetermineType`: 0 is variable width, otherwise width + 1. -/
def determineType : FieldType → UInt16
  | .boolean => 1 + 1
  | .null => 1 + 0
  | .float64 | .int64 | .uint64 => 1 + 8
  | .trigram => 1 + 3
  | .bigram => 1 + 2
  | .unigram => 1 + 1
  | _ => 0

/-- `DetermineType` on a raw type byte: unknown bytes fall through to 0. -/
def determineTypeByte (b : UInt8) : UInt16 :=
  if b = 6 then 2 else if b = 7 then 1 else if b = 3 ∨ b = 1 ∨ b = 2 then 9
  else if b = 8 then 4 else if b = 9 then 3 else if b = 10 then 2 else 0

end Appendable
