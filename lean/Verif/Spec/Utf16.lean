import Verif.Spec.Ngram
/-! Strings of UTF-16 code units. -/
namespace Appendable.Spec

/-- The code units of a code point, which may be a surrogate without its partner. -/
def units (c : Nat) : List UInt16 :=
  if c < 0x10000 then [UInt16.ofNat c] else [UInt16.ofNat (0xD800 + (c - 0x10000) / 1024), UInt16.ofNat (0xDC00 + (c - 0x10000) % 1024)]

/-- A code point is given as a pair only if it is none of two surrogates: no high surrogate comes before a low one. -/
def NoPair (cs : List Nat) : Prop :=
  ∀ a b, [a, b] <:+: cs → ¬ (0xD800 ≤ a ∧ a < 0xDC00 ∧ 0xDC00 ≤ b ∧ b < 0xE000)

/-- The blanks of ECMAScript: white space and line ends. -/
def jsBlanks : List Nat :=
  [9, 10, 11, 12, 13, 32, 0xA0, 0x1680, 0x2000, 0x2001, 0x2002, 0x2003, 0x2004, 0x2005, 0x2006, 0x2007, 0x2008, 0x2009, 0x200A,
   0x2028, 0x2029, 0x202F, 0x205F, 0x3000, 0xFEFF]

/-- A text in ASCII: every blank outside of ASCII is a space, every other character outside of ASCII is left out. -/
def spaced (p : List UInt16) : Bytes :=
  p.flatMap fun u => if u.toNat < 128 then [UInt8.ofNat u.toNat] else if u.toNat ∈ jsBlanks then [32] else []

end Appendable.Spec
