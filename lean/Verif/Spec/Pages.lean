import Verif.Model.Node
/-! Vocabulary about file contents used in statements. -/
namespace Appendable

/-- `n` bytes of `l` from position `p` on. -/
def slice (l : Bytes) (p n : Nat) : Bytes := (l.drop p).take n

/-- The page at offset `off`. -/
def pageAt (bytes : Bytes) (off : Nat) : Bytes := slice bytes off pageSize

/-- A page that starts with `b` and is zero after it. -/
def padPage (b : Bytes) : Bytes := b ++ List.replicate (pageSize - b.length) 0

end Appendable
