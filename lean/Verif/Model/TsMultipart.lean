import Verif.Model.TsClient
/-! src/resolver/multipart.ts: the parser of `multipart/byteranges` bodies.

Simplifications: header texts are byte strings (`TextDecoder` is the identity on them, `trim` strips ASCII white space),
`Number` is a parameter `num` (`none` for NaN; fractions do not occur).  The stream of the response is the list of its
chunks, after which it is closed. -/
namespace Appendable

/-- How the async generator ends. -/
inductive MEnd where
  /-- it returns -/
  | done
  /-- it throws -/
  | fail
  /-- it never settles -/
  | hang
  deriving DecidableEq, Repr

/-- A step of the generator: it goes on with a result and the state, or the generator ends. -/
inductive MStep (σ α : Type) where
  | ok (a : α) (s : σ)
  | stop (e : MEnd)

/-- Sequencing. -/
def MStep.andThen {σ α β : Type} (x : MStep σ α) (f : α → σ → MStep σ β) : MStep σ β :=
  match x with
  | .ok a s => f a s
  | .stop e => .stop e

/-- The variables `residual` (multipart.ts:2), `buf`, `ptr`, `length` (67-69) and the chunks still in the stream. -/
structure MSt where
  buf : Bytes
  ptr : Nat
  length : Nat
  residual : Option Bytes
  chunks : List Bytes

namespace MSt

/-- Size of `buf`, multipart.ts:67. -/
def cap : Nat := 4096

/-- multipart.ts:13-22: copy a prefix of the residual `r` into `buf.subarray(off, off + room)`. -/
def deliver (s : MSt) (off room : Nat) (r : Bytes) : Nat × MSt :=
  let n := min r.length room
  (n, { s with buf := s.buf.take off ++ r.take n ++ s.buf.drop (off + n)
               residual := if r.length - n = 0 then none else some (r.drop n) })

/-- multipart.ts:5-31, the function returned by `getReader` for a default reader: `none` if it never returns.  At the end
of the stream `reader.read()` keeps answering `done`, which only sets `readDone`: the loop goes on for ever.  As the
function never returns after that, it never returns `done: true`. -/
def read (s : MSt) (off room : Nat) : Option (Nat × MSt) :=
  match s.residual with
  | some r => some (s.deliver off room r)
  | none => match s.chunks with
    | [] => none
    | c :: cs => some ({ s with chunks := cs }.deliver off room c)

/-- multipart.ts:71-85 `extend`.  It is only called with `length === 0`, so that the check for a full buffer is dead. -/
def extend (s : MSt) : Option MSt :=
  (if s.ptr + s.length ≥ cap then s.read ((s.ptr + s.length) % cap) (s.ptr - (s.ptr + s.length) % cap)
    else s.read (s.ptr + s.length) (cap - (s.ptr + s.length))).map fun (n, s') => { s' with length := s'.length + n }

/-- `while (length === 0) { if (await extend()) return; }`, e.g. multipart.ts:90-94.  `fuel` bounds the number of rounds;
a round takes a chunk or part of the residual. -/
def fill : Nat → MSt → Option MSt
  | 0, _ => none
  | fuel + 1, s => if s.length = 0 then s.extend.bind (fill fuel) else some s

/-- Number of rounds that suffices for `fill`. -/
def rounds (s : MSt) : Nat := s.chunks.length + 3

/-- The bytes still to come. -/
def left (s : MSt) : Nat := s.length + (s.residual.getD []).length + s.chunks.flatten.length

/-- Wait for a byte, take `buf[ptr]` and step, e.g. multipart.ts:126-133.  A byte that does not match makes the
generator throw, so that it does not matter that it is consumed here. -/
def next (s : MSt) : Option (UInt8 × MSt) :=
  (fill s.rounds s).bind fun s' => s'.buf[s'.ptr]?.map fun b => (b, { s' with ptr := (s'.ptr + 1) % cap, length := s'.length - 1 })

/-- The state at the start, multipart.ts:2 and 67-69. -/
def start (chunks : List Bytes) : MSt := ⟨List.replicate cap 0, 0, 0, none, chunks⟩

end MSt

/-- JavaScript's `s.split(c)` for a one character separator. -/
def jsSplit (c : UInt8) : Bytes → List Bytes
  | [] => [[]]
  | b :: bs => if b = c then [] :: jsSplit c bs
    else match jsSplit c bs with
      | [] => [[b]]
      | w :: ws => (b :: w) :: ws

/-- White space, as far as it is ASCII. -/
def jsSpace (b : UInt8) : Bool := (9 ≤ b && b ≤ 13) || b == 32

/-- JavaScript's `trim`. -/
def jsTrim (s : Bytes) : Bytes := ((s.dropWhile jsSpace).reverse.dropWhile jsSpace).reverse

/-- A part as yielded, multipart.ts:179: the data and the record of headers. -/
structure MPart where
  data : Bytes
  headers : List (Bytes × Bytes)
  deriving DecidableEq, Repr

/-- `record[key] = value` (multipart.ts:146).  Simplification: a header with the name `__proto__`, whose assignment JavaScript ignores, is not
treated specially. -/
def recSet (r : List (Bytes × Bytes)) (k v : Bytes) : List (Bytes × Bytes) :=
  match r with
  | [] => [(k, v)]
  | (k', v') :: r' => if k' = k then (k, v) :: r' else (k', v') :: recSet r' k v

/-- `record[key]` -/
def recGet (r : List (Bytes × Bytes)) (k : Bytes) : Option Bytes := (r.find? (·.1 = k)).map (·.2)

/-- A string constant of the program. -/
def ascii (s : String) : Bytes := s.toList.map fun c => UInt8.ofNat c.toNat

namespace Multipart

variable {σ : Type} (next : σ → Option (UInt8 × σ)) (num : Bytes → Option Int)

/-- multipart.ts:89-101 (the boundary) and 182-196 (the trailing line break): read exactly these bytes. -/
def readLit : Bytes → σ → MStep σ Unit
  | [], s => .ok () s
  | c :: cs, s => match next s with
    | none => .stop .hang
    | some (b, s') => if b = c then readLit cs s' else .stop .fail

/-- multipart.ts:103-120: the line break after the boundary; a `-` ends the body. -/
def readBreak : Bytes → σ → MStep σ Unit
  | [], s => .ok () s
  | c :: cs, s => match next s with
    | none => .stop .hang
    | some (b, s') => if b = c then readBreak cs s' else if b = 45 then .stop .done else .stop .fail

/-- multipart.ts:140-146: the tokens of one header line. -/
def headerLine (header : Bytes) : Option (Bytes × Bytes) :=
  match jsSplit 58 header with
  | k :: v :: _ => some (jsTrim k, jsTrim v)
  | _ => none

/-- multipart.ts:122-153: read the headers; `fuel` exceeds the number of bytes to come. -/
def readHeaders : Nat → UInt8 → Bytes → List (Bytes × Bytes) → σ → MStep σ (List (Bytes × Bytes))
  | 0, _, _, _, _ => .stop .hang
  | fuel + 1, lastByte, header, headers, s => match next s with
    | none => .stop .hang
    | some (byte, s') =>
      if lastByte = 13 ∧ byte = 10 then
        if header.length = 1 then .ok headers s'
        else match headerLine header with
          | none => .stop .fail
          | some (k, v) => readHeaders fuel byte [] (recSet headers k v) s'
      else readHeaders fuel byte (header ++ [byte]) headers s'

/-- multipart.ts:34-45 `parseContentRangeHeader`: the unit, the start and the end; `none` if it throws.  A missing end is
`Number(undefined)`, i.e. NaN. -/
def parseContentRange (header : Bytes) : Option (Bytes × Option Int × Option Int) :=
  match jsSplit 32 header with
  | [unit, spec] =>
    let range := (jsSplit 47 spec).headD []
    match jsSplit 45 range with
    | start :: stop :: _ => some (unit, num start, num stop)
    | start :: _ => some (unit, num start, none)
    | [] => none
  | _ => none

/-- multipart.ts:157-168: the number of bytes of the part; `none` if it throws.  `new Uint8Array` throws for a negative
length, and takes NaN as 0. -/
def contentLength (headers : List (Bytes × Bytes)) : Option Nat :=
  match recGet headers (ascii "Content-Range") with
  | none => none
  | some [] => none
  | some h => match parseContentRange num h with
    | none => none
    | some (unit, start, stop) =>
      if unit = ascii "bytes" then
        match start, stop with
        | some a, some b => if b - a + 1 < 0 then none else some (b - a + 1).toNat
        | _, _ => some 0
      else none

/-- multipart.ts:169-178: read `n` bytes. -/
def readData : Nat → σ → MStep σ Bytes
  | 0, s => .ok [] s
  | n + 1, s => match next s with
    | none => .stop .hang
    | some (b, s') => (readData n s').andThen fun bs s'' => .ok (b :: bs) s''

/-- multipart.ts:88-179: one part, up to its `yield`. -/
def readPart (boundary : Bytes) (fuel : Nat) (s : σ) : MStep σ MPart :=
  (readLit next boundary s).andThen fun _ s =>
  (readBreak next [13, 10] s).andThen fun _ s =>
  (readHeaders next fuel 0 [] [] s).andThen fun headers s =>
  match contentLength num headers with
  | none => .stop .fail
  | some n => (readData next n s).andThen fun data s => .ok ⟨data, headers⟩ s

/-- multipart.ts:87-197: the parts yielded, and how the generator ends.  `fuel` exceeds the number of bytes to come. -/
def run (boundary : Bytes) : Nat → σ → List MPart × MEnd
  | 0, _ => ([], .hang)
  | fuel + 1, s => match readPart next num boundary (fuel + 1) s with
    | .stop e => ([], e)
    | .ok p s => match readLit next [13, 10] s with
      | .stop e => ([p], e)
      | .ok _ s => let r := run boundary fuel s; (p :: r.1, r.2)

/-- multipart.ts:52-63: the delimiter from the content type; `none` if it throws. -/
def delimiter (contentType : Bytes) : Option Bytes :=
  let tokens := jsSplit 59 contentType
  if tokens.head? = some (ascii "multipart/byteranges") then
    match (tokens.map jsTrim).find? (fun t => (ascii "boundary=").isPrefixOf t) with
    | none => none
    | some t => match jsSplit 61 t with
      | _ :: [] :: _ => none
      | _ :: b :: _ => some (ascii "--" ++ b)
      | _ => none
  else none

end Multipart

/-- multipart.ts:47-198 `parseMultipartBody`, iterated to its end. -/
def parseMultipartBody (num : Bytes → Option Int) (contentType : Bytes) (chunks : List Bytes) : List MPart × MEnd :=
  match Multipart.delimiter contentType with
  | none => ([], .fail)
  | some d => Multipart.run MSt.next num d ((MSt.start chunks).left + 1) (MSt.start chunks)

end Appendable
