import Verif.Model.Meta

namespace Appendable

/-- pkg/appendable/appendable.go:66-95 `FieldType.TypescriptType`, before the parts are joined: the masks are the iota values of
the constants (46-64), tested as if they were single bits.  `FieldType` is a byte. -/
def typescriptParts (t : UInt8) : List String :=
  (if t &&& FieldType.string.code ≠ 0 ∨ t &&& FieldType.trigram.code ≠ 0 ∨ t &&& FieldType.bigram.code ≠ 0
      ∨ t &&& FieldType.unigram.code ≠ 0 then ["string"] else [])
  ++ (if t &&& FieldType.int64.code ≠ 0 ∨ t &&& FieldType.float64.code ≠ 0 then ["number"] else [])
  ++ (if t &&& FieldType.object.code ≠ 0 then ["Record"] else [])
  ++ (if t &&& FieldType.array.code ≠ 0 then ["any[]"] else [])
  ++ (if t &&& FieldType.boolean.code ≠ 0 then ["boolean"] else [])
  ++ (if t &&& FieldType.null.code ≠ 0 then ["null"] else [])
  ++ (if t &&& FieldType.vector.code ≠ 0 then ["number[]"] else [])

/-- pkg/appendable/appendable.go:66-95 `FieldType.TypescriptType`. -/
def typescriptType (t : UInt8) : String :=
  let components := typescriptParts t
  if components.length = 0 then "unknown" else String.intercalate " | " components

end Appendable
