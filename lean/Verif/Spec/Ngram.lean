import Verif.Model.Encoding
/-! N-grams of ASCII text, independently of the two tokenizers. -/
namespace Appendable.Spec

/-- ASCII text. -/
def Ascii (t : Bytes) : Prop := ∀ b ∈ t, b.toNat < 128

/-- An ASCII letter or digit. -/
def alnum (b : UInt8) : Bool := (Char.ofNat b.toNat).isAlphanum

/-- ASCII white space: tab, line feed, vertical tab, form feed, carriage return, space. -/
def white (b : UInt8) : Bool := [9, 10, 11, 12, 13, 32].contains b.toNat

/-- Lower case. -/
def lowered (b : UInt8) : UInt8 := UInt8.ofNat (Char.ofNat b.toNat).toLower.toNat

/-- The words of a text: the letters and digits of each piece between white space. -/
def words (t : Bytes) : List Bytes := (t.splitOnP white).map (fun piece => piece.filter alnum)

/-- The n-grams of a text: the windows of `n` characters of each word, from left to right, in lower case. -/
def ngrams (n : Nat) (t : Bytes) : List Bytes :=
  (words t).flatMap (fun w => (List.range (w.length + 1 - n)).map (fun i => ((w.drop i).take n).map lowered))

/-- The Unicode scalar values. -/
def Scalar (r : Nat) : Prop := r < 0xD800 ∨ (0xE000 ≤ r ∧ r < 0x110000)

/-- UTF-8. -/
def utf8 (r : Nat) : Bytes :=
  if r < 0x80 then [UInt8.ofNat r]
  else if r < 0x800 then [UInt8.ofNat (0xC0 + r / 64), UInt8.ofNat (0x80 + r % 64)]
  else if r < 0x10000 then [UInt8.ofNat (0xE0 + r / 4096), UInt8.ofNat (0x80 + r / 64 % 64), UInt8.ofNat (0x80 + r % 64)]
  else [UInt8.ofNat (0xF0 + r / 262144), UInt8.ofNat (0x80 + r / 4096 % 64), UInt8.ofNat (0x80 + r / 64 % 64), UInt8.ofNat (0x80 + r % 64)]

/-- The ASCII characters of a text of Unicode characters. -/
def asciiOf (rs : List Nat) : Bytes := (rs.filter (fun r => decide (r < 128))).map UInt8.ofNat

end Appendable.Spec
