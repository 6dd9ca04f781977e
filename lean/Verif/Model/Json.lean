import Verif.Model.Jsonl
/-! The token stream of `encoding/json` (Go standard library, not part of the repository): `json.NewDecoder` on a text,
with `Token`, `More` and `InputOffset`, as pkg/handlers/jsonl.go:39-56,97,134-146,270,292 uses them.  It instantiates the
parameter `lex` of the handler. -/
namespace Appendable

/-- `isSpace` (encoding/json/scanner.go) -/
def jsonSpace (c : UInt8) : Bool := c == 32 || c == 9 || c == 13 || c == 10

/-- `peek` (encoding/json/stream.go): skip spaces; the position and the rest. -/
def skipSpace (pos : Nat) : Bytes → Nat × Bytes
  | [] => (pos, [])
  | c :: cs => if jsonSpace c then skipSpace (pos + 1) cs else (pos, c :: cs)

/-- The states of the token stream, encoding/json/stream.go `tokenTopValue`... -/
inductive TState where
  | topValue | arrayStart | arrayValue | arrayComma | objectStart | objectKey | objectColon | objectValue | objectComma
  deriving DecidableEq, Repr, Inhabited

/-- `tokenValueAllowed` -/
def TState.valueAllowed : TState → Bool
  | .topValue | .arrayStart | .arrayValue | .objectValue => true
  | _ => false

/-- `tokenValueEnd` -/
def TState.valueEnd : TState → TState
  | .arrayStart | .arrayValue => .arrayComma
  | .objectValue => .objectComma
  | st => st

def isHex (c : UInt8) : Bool := (48 ≤ c && c ≤ 57) || (97 ≤ c && c ≤ 102) || (65 ≤ c && c ≤ 70)

/-- The value of a hexadecimal digit. -/
def hexVal (c : UInt8) : Nat := if c ≤ 57 then c.toNat - 48 else if c ≤ 70 then c.toNat - 55 else c.toNat - 87

/-- encoding/json/scanner.go `stateInString`: the number of bytes up to and including the closing quote. -/
def scanString : Bytes → Option Nat
  | [] => none
  | 34 :: _ => some 1
  | 92 :: c :: cs =>
    if c = 34 ∨ c = 92 ∨ c = 47 ∨ c = 98 ∨ c = 102 ∨ c = 110 ∨ c = 114 ∨ c = 116 then (scanString cs).map (· + 2)
    else if c = 117 then
      match cs with
      | a :: b :: d :: e :: cs => if isHex a && isHex b && isHex d && isHex e then (scanString cs).map (· + 6) else none
      | _ => none
    else none
  | c :: cs => if c < 32 ∨ c = 92 then none else (scanString cs).map (· + 1)

/-- `utf8.AppendRune` (Go standard library) of a code point that is not a surrogate. -/
def encodeRune (r : Nat) : Bytes :=
  if r < 0x80 then [UInt8.ofNat r]
  else if r < 0x800 then [UInt8.ofNat (0xC0 + r / 64), UInt8.ofNat (0x80 + r % 64)]
  else if r < 0x10000 then [UInt8.ofNat (0xE0 + r / 4096), UInt8.ofNat (0x80 + r / 64 % 64), UInt8.ofNat (0x80 + r % 64)]
  else [UInt8.ofNat (0xF0 + r / 262144), UInt8.ofNat (0x80 + r / 4096 % 64), UInt8.ofNat (0x80 + r / 64 % 64), UInt8.ofNat (0x80 + r % 64)]

/-- `getu4` (encoding/json/decode.go) -/
def getu4 : Bytes → Option Nat
  | 92 :: 117 :: a :: b :: c :: d :: _ => some (((hexVal a * 16 + hexVal b) * 16 + hexVal c) * 16 + hexVal d)
  | _ => none

/-- `unquoteBytes` (encoding/json/decode.go) on the inside of a string that `scanString` accepts.  `fuel` bounds the
number of steps. -/
def unquote : Nat → Bytes → Bytes
  | 0, _ => []
  | _ + 1, [] => []
  | fuel + 1, 92 :: cs =>
    match cs with
    | [] => []
    | 98 :: cs => 8 :: unquote fuel cs
    | 102 :: cs => 12 :: unquote fuel cs
    | 110 :: cs => 10 :: unquote fuel cs
    | 114 :: cs => 13 :: unquote fuel cs
    | 116 :: cs => 9 :: unquote fuel cs
    | 117 :: cs =>
      let r := (getu4 (92 :: 117 :: cs)).getD 0
      let rest := cs.drop 4
      if 0xD800 ≤ r ∧ r < 0xE000 then
        match getu4 rest with
        | some r1 =>
          if r < 0xDC00 ∧ 0xDC00 ≤ r1 ∧ r1 < 0xE000 then
            encodeRune ((r - 0xD800) * 1024 + (r1 - 0xDC00) + 0x10000) ++ unquote fuel (rest.drop 6)
          else encodeRune 0xFFFD ++ unquote fuel rest
        | none => encodeRune 0xFFFD ++ unquote fuel rest
      else encodeRune r ++ unquote fuel rest
    | c :: cs => c :: unquote fuel cs
  | fuel + 1, c :: cs =>
    if c < 0x80 then c :: unquote fuel cs
    else
      let (r, w) := decodeRune (c :: cs)
      encodeRune r ++ unquote fuel ((c :: cs).drop w)

def isDigit (c : UInt8) : Bool := 48 ≤ c && c ≤ 57

/-- The number of leading digits. -/
def digits : Bytes → Nat
  | [] => 0
  | c :: cs => if isDigit c then digits cs + 1 else 0

/-- encoding/json/scanner.go `state1`, `stateDot`, `stateE`: the fraction and exponent after the integer part; the
number of their bytes. -/
def scanExp : Bytes → Option Nat
  | c :: cs =>
    if c = 101 ∨ c = 69 then
      match cs with
      | d :: ds =>
        if d = 43 ∨ d = 45 then (if digits ds = 0 then none else some (digits ds + 2))
        else if isDigit d then some (digits (d :: ds) + 1) else none
      | [] => none
    else some 0
  | [] => some 0

def scanFrac : Bytes → Option Nat
  | 46 :: cs => if digits cs = 0 then none else (scanExp (cs.drop (digits cs))).map (· + 1 + digits cs)
  | cs => scanExp cs

/-- encoding/json/scanner.go `stateNeg`, `state0`, `state1`: the number of bytes of a number without its sign. -/
def scanUnsigned : Bytes → Option Nat
  | [] => none
  | c :: cs =>
    if c = 48 then (scanFrac cs).map (· + 1)
    else if isDigit c then (scanFrac (cs.drop (digits cs))).map (· + 1 + digits cs)
    else none

def scanNumber : Bytes → Option Nat
  | 45 :: cs => (scanUnsigned cs).map (· + 1)
  | cs => scanUnsigned cs

/-- `Decode` of a scalar (encoding/json/stream.go `readValue` and decode.go `literalStore`): its value and the number
of its bytes.  `num` is `strconv.ParseFloat`: the bits of the float64, `none` if it is out of range. -/
def readScalar (num : Bytes → Option UInt64) (b : Bytes) : Option (Tok × Nat) :=
  match b with
  | [] => none
  | c :: cs =>
    if c = 34 then (scanString cs).map (fun n => (.str (unquote n (cs.take (n - 1))), n + 1))
    else if c = 116 then (if cs.take 3 = [114, 117, 101] then some (.bool true, 4) else none)
    else if c = 102 then (if cs.take 4 = [97, 108, 115, 101] then some (.bool false, 5) else none)
    else if c = 110 then (if cs.take 3 = [117, 108, 108] then some (.null, 4) else none)
    else match scanNumber b with
      | none => none
      | some n => (num (b.take n)).map (fun x => (.num x, n))

/-- The token after a value has ended. -/
structure LexState where
  stack : List TState
  st : TState
  pos : Nat
  rest : Bytes

/-- `Token` (encoding/json/stream.go): the next token and the state after it; `none` is an error or the end.  `fuel`
bounds the number of colons and commas consumed. -/
def nextTok (num : Bytes → Option UInt64) : Nat → LexState → Option (Tok × LexState)
  | 0, _ => none
  | fuel + 1, x =>
    match skipSpace x.pos x.rest with
    | (_, []) => none
    | (pos, c :: cs) =>
      if c = 91 then
        if x.st.valueAllowed then some (.lbrack, ⟨x.st :: x.stack, .arrayStart, pos + 1, cs⟩) else none
      else if c = 93 then
        if x.st = .arrayStart ∨ x.st = .arrayComma then
          match x.stack with
          | top :: stack => some (.rbrack, ⟨stack, top.valueEnd, pos + 1, cs⟩)
          | [] => none
        else none
      else if c = 123 then
        if x.st.valueAllowed then some (.lbrace, ⟨x.st :: x.stack, .objectStart, pos + 1, cs⟩) else none
      else if c = 125 then
        if x.st = .objectStart ∨ x.st = .objectComma then
          match x.stack with
          | top :: stack => some (.rbrace, ⟨stack, top.valueEnd, pos + 1, cs⟩)
          | [] => none
        else none
      else if c = 58 then
        if x.st = .objectColon then nextTok num fuel ⟨x.stack, .objectValue, pos + 1, cs⟩ else none
      else if c = 44 then
        if x.st = .arrayComma then nextTok num fuel ⟨x.stack, .arrayValue, pos + 1, cs⟩
        else if x.st = .objectComma then nextTok num fuel ⟨x.stack, .objectKey, pos + 1, cs⟩
        else none
      else if c = 34 ∧ (x.st = .objectStart ∨ x.st = .objectKey) then
        (readScalar num (c :: cs)).map (fun r => (r.1, ⟨x.stack, .objectColon, pos + r.2, (c :: cs).drop r.2⟩))
      else if x.st.valueAllowed then
        (readScalar num (c :: cs)).map (fun r => (r.1, ⟨x.stack, x.st.valueEnd, pos + r.2, (c :: cs).drop r.2⟩))
      else none

/-- All tokens with the input offsets after them, and `More` at the end.  `fuel` bounds the number of tokens. -/
def lexAll (num : Bytes → Option UInt64) : Nat → LexState → Dec
  | 0, _ => ⟨[], false⟩
  | fuel + 1, x =>
    match nextTok num 3 x with
    | none =>
      match (skipSpace x.pos x.rest).2 with
      | [] => ⟨[], false⟩
      | c :: _ => ⟨[], decide (c ≠ 93 ∧ c ≠ 125)⟩
    | some (t, y) =>
      let d := lexAll num fuel y
      ⟨(t, y.pos) :: d.toks, d.endMore⟩

/-- `json.NewDecoder(bytes.NewReader(b))` -/
def goLex (num : Bytes → Option UInt64) (b : Bytes) : Dec := lexAll num (b.length + 1) ⟨[], .topValue, 0, b⟩

end Appendable
