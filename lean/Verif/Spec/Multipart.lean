import Verif.Model.Encoding
/-! What a server sends as a `multipart/byteranges` body (RFC 2046, RFC 9110; Go's `http.ServeContent`). -/
namespace Appendable.Spec

/-- A text in ASCII. -/
def text (s : String) : Bytes := s.toList.map fun c => UInt8.ofNat c.toNat

/-- A number in decimal notation. -/
def decimal (n : Nat) : Bytes := if h : n < 10 then [UInt8.ofNat (48 + n)] else decimal (n / 10) ++ [UInt8.ofNat (48 + n % 10)]
termination_by n
decreasing_by omega

/-- The line break of the protocol. -/
def crlf : Bytes := [13, 10]

/-- A part as the server means it: headers (name and value) and data. -/
structure WirePart where
  headers : List (Bytes × Bytes)
  data : Bytes

/-- One header on the wire. -/
def wireHeader (h : Bytes × Bytes) : Bytes := h.1 ++ text ": " ++ h.2 ++ crlf

/-- One part on the wire. -/
def wirePart (boundary : Bytes) (p : WirePart) : Bytes :=
  text "--" ++ boundary ++ crlf ++ p.headers.flatMap wireHeader ++ crlf ++ p.data ++ crlf

/-- The whole body: the parts, the closing delimiter, and whatever follows it. -/
def wireBody (boundary : Bytes) (ps : List WirePart) (epilogue : Bytes) : Bytes :=
  ps.flatMap (wirePart boundary) ++ text "--" ++ boundary ++ text "--" ++ epilogue

/-- The content type announced for it. -/
def contentTypeOf (boundary : Bytes) : Bytes := text "multipart/byteranges; boundary=" ++ boundary

/-- A text without line breaks. -/
def OneLine (v : Bytes) : Prop := 13 ∉ v ∧ 10 ∉ v

/-- A text that stands in a header without any quoting: no line breaks, no colon, no blank at either end. -/
structure HeaderText (v : Bytes) : Prop where
  oneLine : OneLine v
  noColon : 58 ∉ v
  first : ∀ b, v.head? = some b → 32 < b
  last : ∀ b, v.getLast? = some b → 32 < b

/-- Bytes `a` to `b` of a file whose size is written `total` (a number or `*`). -/
def contentRange (a b : Nat) (total : Bytes) : Bytes :=
  text "bytes " ++ decimal a ++ text "-" ++ decimal b ++ text "/" ++ total

/-- A part that carries the bytes of one range: it has a `Content-Range` header that tells the length of the data, all
header names are different, and every header fits on its line. -/
structure RangePart (p : WirePart) : Prop where
  range : ∃ a b total, (text "Content-Range", contentRange a b total) ∈ p.headers ∧ b + 1 = a + p.data.length ∧
    b < 2 ^ 53 ∧ ∀ x ∈ total, 32 < x ∧ x ≠ 58
  names : (p.headers.map (·.1)).Nodup
  keys : ∀ h ∈ p.headers, HeaderText h.1
  values : ∀ h ∈ p.headers, OneLine h.2

/-- The value of a header; of several with the same name it is the last. -/
def lastValue (headers : List (Bytes × Bytes)) (name : Bytes) : Option Bytes := (headers.reverse.find? (·.1 = name)).map (·.2)

/-- A part whose headers may be repeated: the last `Content-Range` tells the length of the data. -/
structure RepeatPart (p : WirePart) : Prop where
  range : ∃ a b total, lastValue p.headers (text "Content-Range") = some (contentRange a b total) ∧ b + 1 = a + p.data.length ∧
    b < 2 ^ 53 ∧ ∀ x ∈ total, 32 < x ∧ x ≠ 58
  keys : ∀ h ∈ p.headers, HeaderText h.1
  values : ∀ h ∈ p.headers, HeaderText h.2

/-- A boundary that needs no quotes in the content type. -/
def BoundaryText (b : Bytes) : Prop := b ≠ [] ∧ ∀ x ∈ b, 32 < x ∧ x ≠ 59 ∧ x ≠ 61

/-- JavaScript's `Number` is right about the decimal notation of exactly representable numbers. -/
def ReadsDecimals (num : Bytes → Option Int) : Prop := ∀ n : Nat, n < 2 ^ 53 → num (decimal n) = some (n : Int)

/-- Bytes `a` to `b` (inclusive) of a file. -/
def bytesOf (F : Bytes) (a b : Nat) : Bytes := (F.drop a).take (b + 1 - a)

/-- The `Range` header that asks for some ranges. -/
def rangeHeader (rs : List (Nat × Nat)) : Bytes :=
  text "bytes=" ++ List.intercalate (text ",") (rs.map fun r => decimal r.1 ++ text "-" ++ decimal r.2)

/-- The parts answer the ranges one by one. -/
def Answers (F : Bytes) (rs : List (Nat × Nat)) (ps : List WirePart) : Prop :=
  rs.length = ps.length ∧ ∀ x ∈ rs.zip ps, RangePart x.2 ∧ x.2.data = bytesOf F x.1.1 x.1.2 ∧
    (text "Content-Range", contentRange x.1.1 x.1.2 (decimal F.length)) ∈ x.2.headers

end Appendable.Spec
