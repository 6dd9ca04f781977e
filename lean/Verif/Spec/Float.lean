/-! The numbers that float64 bit patterns stand for (IEEE 754). -/
namespace Appendable.Spec

/-- The sign bit. -/
def floatNeg (b : UInt64) : Bool := b.toNat / 2 ^ 63 == 1
/-- The exponent field. -/
def floatExp (b : UInt64) : Nat := b.toNat / 2 ^ 52 % 2 ^ 11
/-- The mantissa field. -/
def floatMan (b : UInt64) : Nat := b.toNat % 2 ^ 52
/-- Neither infinite nor NaN. -/
def floatFinite (b : UInt64) : Prop := floatExp b < 2 ^ 11 - 1

/-- The magnitude in units of 2^-1074: subnormal numbers have exponent field 0 and no leading 1. -/
def floatMag (b : UInt64) : Nat :=
  if floatExp b = 0 then floatMan b else (2 ^ 52 + floatMan b) * 2 ^ (floatExp b - 1)

/-- The value in units of 2^-1074. -/
def floatVal (b : UInt64) : Int := if floatNeg b then -(floatMag b : Int) else floatMag b

end Appendable.Spec
