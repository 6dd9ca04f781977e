import Verif.Model.TsClient
/-! src/resolver/cache.ts -/
namespace Appendable

/-- One element of the answer of a `RangeResolver` (src/resolver/resolver.ts:16-28). -/
structure RangeData where
  data : Bytes
  totalLength : Int
  deriving DecidableEq, Repr, Inhabited

/-- What a `RangeResolver` does with a list of ranges (first and last byte). -/
abbrev RangeResolver := List (Int × Int) → Res (List RangeData)

/-- The array `cache` of src/resolver/cache.ts:4-7: the requested ranges with the (settled) answers, in the order of the
requests. -/
abbrev RangeCache := List ((Int × Int) × Res (List RangeData))

/-- src/resolver/cache.ts:15-26: what a request for `start`, `end` gets from an answer stored for the range that starts
at `s`. -/
def cacheHit (s start end_ : Int) : Res (List RangeData) → Res (List RangeData)
  | .ok (r :: _) => .ok [⟨jsSlice r.data (start - s) (end_ - s), r.totalLength⟩]
  | .ok [] => .err (.msg "TypeError")
  | .err e => .err e
  | .panic => .panic

/-- src/resolver/cache.ts:9-34: one call of the function that `cache` returns.  The parameter pattern `[{ start, end }]`
ignores all ranges but the first.  `resolver` is what the underlying resolver does at the time of this call. -/
def cacheCall (resolver : RangeResolver) (ranges : List (Int × Int)) (cache : RangeCache) : Res (List RangeData) × RangeCache :=
  match ranges with
  | [] => (.err (.msg "TypeError"), cache)
  | (start, end_) :: _ =>
    match cache.find? (fun c => decide (c.1.1 ≤ start) && decide (end_ ≤ c.1.2)) with
    | some cached => (cacheHit cached.1.1 start end_ cached.2, cache)
    | none => (resolver [(start, end_)], cache ++ [((start, end_), resolver [(start, end_)])])

end Appendable
