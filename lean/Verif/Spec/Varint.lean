/-! Specification of base-128 varints, independent of the model: the value denoted by a byte string. -/
namespace Appendable.Spec

/-- The number denoted by a group of bytes: seven low bits of each byte, least significant group first. -/
def varintValue : List UInt8 → Nat
  | [] => 0
  | b :: bs => b.toNat % 128 + 128 * varintValue bs

/-- A complete varint: every byte but the last has the continuation bit, the last one has not. -/
def varintShape : List UInt8 → Bool
  | [] => false
  | [b] => decide (b.toNat < 128)
  | b :: bs => decide (128 ≤ b.toNat) && varintShape bs

end Appendable.Spec
