import Verif.Model.TsMultipart
/-! src/resolver/range-request.ts.

Simplifications: `Number` (`num`) and `parseInt` (`int`) are parameters on byte strings, `none` is NaN; the requests of
`Promise.all` are made in order, and the first that fails decides. -/
namespace Appendable

/-- How a promise settles. -/
inductive Net (α : Type) where
  | ok (a : α)
  | fail
  | lengthIntegrity
  | hang
  deriving DecidableEq, Repr

/-- `await` -/
def Net.bind {α β : Type} (x : Net α) (f : α → Net β) : Net β :=
  match x with
  | .ok a => f a
  | .fail => .fail
  | .lengthIntegrity => .lengthIntegrity
  | .hang => .hang

/-- What `fetch` resolves to: the status, two of the headers, and the chunks of the body. -/
structure Reply where
  status : Nat
  contentType : Option Bytes
  contentRange : Option Bytes
  body : List Bytes

/-- `fetch(url, { headers: { Range } })`, as a function of the `Range` header. -/
abbrev Fetch := Bytes → Net Reply

/-- One requested range: start, end (inclusive), and the length that the file should have. -/
structure RangeReq where
  start : Nat
  stop : Nat
  expected : Option Nat

/-- An element of the result. -/
structure Fetched where
  data : Bytes
  total : Option Int
  deriving DecidableEq, Repr

namespace RangeRequest

variable (show_ : Nat → Bytes) (num int : Bytes → Option Int)

/-- `${start}-${end}`, range-request.ts:12 and 51. -/
def rangeText (r : RangeReq) : Bytes := show_ r.start ++ [45] ++ show_ r.stop

/-- `Number(header.split("/")[1])`, range-request.ts:17-19 and 99-101; `Number(undefined)` is NaN. -/
def totalOf (header : Bytes) : Option Int :=
  match jsSplit 47 header with
  | _ :: t :: _ => num t
  | _ => none

/-- `if (expectedLength && totalLength !== expectedLength)`, range-request.ts:20-22. -/
def wrongLength (expected : Option Nat) (total : Option Int) : Bool :=
  match expected with
  | none => false
  | some e => e ≠ 0 && total ≠ some (e : Int)

/-- range-request.ts:11-27: the answer to one range.  The status is not looked at; without `Content-Range` header
`.split` throws. -/
def individualReply (r : RangeReq) (res : Reply) : Net Fetched :=
  match res.contentRange with
  | none => .fail
  | some h => if wrongLength r.expected (totalOf num h) then .lengthIntegrity else .ok ⟨res.body.flatten, totalOf num h⟩

/-- range-request.ts:5-30 `resolveIndividualPromises` -/
def individual (fetch : Fetch) : List RangeReq → Net (List Fetched)
  | [] => .ok []
  | r :: rs => ((fetch (ascii "bytes=" ++ rangeText show_ r)).bind (individualReply num r)).bind fun d =>
    (individual fetch rs).bind fun ds => .ok (d :: ds)

/-- range-request.ts:50-52 `rangesHeader` -/
def rangesText : List RangeReq → Bytes
  | [] => []
  | [r] => rangeText show_ r
  | r :: rs => rangeText show_ r ++ [44] ++ rangesText rs

/-- range-request.ts:91-96: `headers["content-range"]?.split("/")[1]` and `parseInt`. -/
def partResult (p : MPart) : Fetched :=
  match recGet p.headers (ascii "content-range") with
  | none => ⟨p.data, some 0⟩
  | some h => match jsSplit 47 h with
    | _ :: [] :: _ => ⟨p.data, some 0⟩
    | _ :: t :: _ => ⟨p.data, int t⟩
    | _ => ⟨p.data, some 0⟩

/-- range-request.ts:72-96: a multipart body.  Without parts, `chunks[chunks.length - 1].data` throws. -/
def multipartResult (contentType : Bytes) (body : List Bytes) : Net (List Fetched) :=
  match parseMultipartBody num contentType body with
  | (_, .hang) => .hang
  | (_, .fail) => .fail
  | ([], .done) => .fail
  | (ps, .done) => .ok (ps.map (partResult int))

/-- JavaScript's `s.includes(sub)`. -/
def jsIncludes (sub : Bytes) : Bytes → Bool
  | [] => sub.isEmpty
  | b :: s => sub.isPrefixOf (b :: s) || jsIncludes sub s

/-- range-request.ts:61-118: the reply to the request for all ranges. -/
def manyReply (fetch : Fetch) (ranges : List RangeReq) (res : Reply) : Net (List Fetched) :=
  if res.status = 200 then individual show_ num fetch ranges
  else if res.status = 206 then
    match res.contentType with
    | none => .fail
    | some [] => .fail
    | some ct =>
      if jsIncludes (ascii "multipart/byteranges") ct then multipartResult num int ct res.body
      else match res.contentRange with
        | some h => .ok [⟨res.body.flatten, totalOf num h⟩]
        | none => .fail
  else .fail

/-- range-request.ts:32-119 `requestRanges`.  `multi` is the configuration `useMultipartByteRanges !== false`. -/
def requestRanges (multi : Bool) (fetch : Fetch) (ranges : List RangeReq) : Net (List Fetched) :=
  if multi then
    if ranges.any (fun r => decide (r.stop ≤ r.start)) then .fail
    else (fetch (ascii "bytes=" ++ rangesText show_ ranges)).bind (manyReply show_ num int fetch ranges)
  else individual show_ num fetch ranges

end RangeRequest
end Appendable
