import Verif.Model.Encoding
/-! pkg/ngram/tokenizer.go: n-grams of a text. -/
namespace Appendable

/-- The accepted range of the second byte of a UTF-8 sequence and its length, by first byte: the tables `first` and
`acceptRanges` of unicode/utf8 (Go standard library).  `none`: not a valid first byte of a longer sequence. -/
def utf8First (b : Nat) : Option (Nat × Nat × Nat) :=
  if 0xC2 ≤ b ∧ b ≤ 0xDF then some (2, 0x80, 0xBF)
  else if b = 0xE0 then some (3, 0xA0, 0xBF)
  else if 0xE1 ≤ b ∧ b ≤ 0xEC then some (3, 0x80, 0xBF)
  else if b = 0xED then some (3, 0x80, 0x9F)
  else if 0xEE ≤ b ∧ b ≤ 0xEF then some (3, 0x80, 0xBF)
  else if b = 0xF0 then some (4, 0x90, 0xBF)
  else if 0xF1 ≤ b ∧ b ≤ 0xF3 then some (4, 0x80, 0xBF)
  else if b = 0xF4 then some (4, 0x80, 0x8F)
  else none

/-- `utf8.DecodeRuneInString` (Go standard library) of a nonempty string: the rune and its width; an invalid sequence
is U+FFFD with width 1. -/
def decodeRune : Bytes → Nat × Nat
  | [] => (0xFFFD, 0)
  | b0 :: bs =>
    if b0.toNat < 0x80 then (b0.toNat, 1)
    else match utf8First b0.toNat with
      | none => (0xFFFD, 1)
      | some (n, lo, hi) =>
        match bs with
        | [] => (0xFFFD, 1)
        | b1 :: bs =>
          if b1.toNat < lo ∨ hi < b1.toNat then (0xFFFD, 1)
          else if n = 2 then (b0.toNat % 32 * 64 + b1.toNat % 64, 2)
          else match bs with
            | [] => (0xFFFD, 1)
            | b2 :: bs =>
              if b2.toNat < 0x80 ∨ 0xBF < b2.toNat then (0xFFFD, 1)
              else if n = 3 then (b0.toNat % 16 * 4096 + b1.toNat % 64 * 64 + b2.toNat % 64, 3)
              else match bs with
                | [] => (0xFFFD, 1)
                | b3 :: _ =>
                  if b3.toNat < 0x80 ∨ 0xBF < b3.toNat then (0xFFFD, 1)
                  else (b0.toNat % 8 * 262144 + b1.toNat % 64 * 4096 + b2.toNat % 64 * 64 + b3.toNat % 64, 4)

/-- `utf8.RuneLen` (Go standard library) of a rune that `DecodeRune` returns. -/
def runeLen (r : Nat) : Nat := if r < 0x80 then 1 else if r < 0x800 then 2 else if r < 0x10000 then 3 else 4

/-- The loop of pkg/ngram/tokenizer.go:38-49: the ASCII runes of the normalized text `b` with the offsets recorded for
them, `i - additionalOffsets`.  `i` is the byte position; `fuel` bounds the number of runes. -/
def asciiFrom : Nat → Nat → Int → Bytes → List (UInt8 × Int)
  | 0, _, _, _ => []
  | _ + 1, _, _, [] => []
  | fuel + 1, i, add, b0 :: bs =>
    let (r, w) := decodeRune (b0 :: bs)
    let add := if runeLen r > 1 then add + ((runeLen r : Int) - 1) else add
    let rest := asciiFrom fuel (i + w) add ((b0 :: bs).drop w)
    if r ≤ 0x7F then (UInt8.ofNat r, (i : Int) - add) :: rest else rest

/-- pkg/ngram/tokenizer.go:28-51 `normalizeToAscii`.  `nfkd` is `norm.NFKD.String` (golang.org/x/text), a parameter.
The string and the map of offsets are one list. -/
def normalizeToAscii (nfkd : Bytes → Bytes) (s : Bytes) : List (UInt8 × Int) :=
  asciiFrom (nfkd s).length 0 0 (nfkd s)

/-- pkg/ngram/tokenizer.go:17-21 `Token` -/
structure Token where
  word : Bytes
  offset : UInt64
  length : UInt32
  deriving DecidableEq, Repr, Inhabited

/-- `unicode.IsLetter` or `unicode.IsDigit` of an ASCII rune -/
def isWordChar (c : UInt8) : Bool := (65 ≤ c && c ≤ 90) || (97 ≤ c && c ≤ 122) || (48 ≤ c && c ≤ 57)

/-- `unicode.IsSpace` of an ASCII rune -/
def isSpaceChar (c : UInt8) : Bool := c == 32 || (9 ≤ c && c ≤ 13)

/-- `strings.ToLower` of ASCII text, per byte. -/
def lowerChar (c : UInt8) : UInt8 := if 65 ≤ c && c ≤ 90 then c + 32 else c

/-- pkg/ngram/tokenizer.go:84-99: the words (of at least `gl` characters).  `cur` is `currWord`. -/
def splitWords (gl : Nat) : List (UInt8 × Int) → List (UInt8 × Int) → List (List (UInt8 × Int))
  | cur, [] => if cur.length ≥ gl then [cur] else []
  | cur, x :: xs =>
    if isWordChar x.1 then splitWords gl (cur ++ [x]) xs
    else if isSpaceChar x.1 then (if cur.length ≥ gl then [cur] else []) ++ splitWords gl [] xs
    else splitWords gl cur xs

/-- pkg/ngram/tokenizer.go:104-118: the token of the window `w`, which is not empty. -/
def gramToken (w : List (UInt8 × Int)) : Token :=
  let q := (w.head?.map (·.2)).getD 0
  let l := (w.getLast?.map (·.2)).getD 0
  ⟨w.map (fun x => lowerChar x.1), UInt64.ofNat ((q % 2 ^ 64).toNat), UInt32.ofNat (((l - q + 1) % 2 ^ 32).toNat)⟩

/-- pkg/ngram/tokenizer.go:101-120: the windows of `gl` characters of a word. -/
def windows (gl : Nat) (w : List (UInt8 × Int)) : List (List (UInt8 × Int)) :=
  (List.range (w.length + 1 - gl)).map (fun i => (w.drop i).take gl)

/-- pkg/ngram/tokenizer.go:75-123 `BuildNgram`, for `gl ≥ 1` as the handlers call it (with `gl = 0` it would panic). -/
def buildNgram (nfkd : Bytes → Bytes) (phrase : Bytes) (gl : Nat) : List Token :=
  (splitWords gl [] (normalizeToAscii nfkd phrase)).flatMap (fun w => (windows gl w).map gramToken)

end Appendable
