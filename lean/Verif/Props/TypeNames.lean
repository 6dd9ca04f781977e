import Verif.Model.TypeNames

namespace Appendable

namespace Spec
/-- The TypeScript type of the values of a field: what the comments of appendable.go and the names of the constants say. -/
def tsTypeOf : FieldType → String
  | .string => "string" | .int64 => "number" | .uint64 => "number" | .float64 => "number" | .object => "Record"
  | .array => "any[]" | .boolean => "boolean" | .null => "null" | .trigram => "string" | .bigram => "string"
  | .unigram => "string" | .vector => "number[]"
end Spec

/-- C98 is violated for every declared field type: `TypescriptType` never is the type of the values of the field. -/
theorem C98_types_violated (t : FieldType) : typescriptType t.code ≠ Spec.tsTypeOf t := by
  cases t <;> decide +kernel

/-- C98 is violated for the field type of strings: the answer is "unknown". -/
theorem C98_string_violated : typescriptType FieldType.string.code = "unknown" := by decide +kernel

/-- C98, partial: for every declared field type but the one of strings, the right type is one of the alternatives named.
Missing: strings, and that no other alternative is named. -/
theorem C98_covers_partial (t : FieldType) (h : t ≠ .string) : Spec.tsTypeOf t ∈ typescriptParts t.code := by
  cases t <;> first | exact absurd rfl h | decide +kernel

/-- C98 is violated: the answer for every declared field type. -/
theorem C98_answers_violated (t : FieldType) : typescriptType t.code = match t with
    | .string => "unknown"
    | .int64 | .bigram => "string | number | any[] | null | number[]"
    | .uint64 | .unigram => "string | number | boolean | null | number[]"
    | .float64 | .vector => "string | number | any[] | boolean | null | number[]"
    | .object => "Record | any[] | boolean | null"
    | .array | .boolean | .null => "string | number | Record | any[] | boolean | null | number[]"
    | .trigram => "string | number[]" := by
  cases t <;> decide +kernel

-- a type that meets the hypothesis: what is said of the integers
example : typescriptType FieldType.int64.code = "string | number | any[] | null | number[]" := by decide +kernel

end Appendable
