/-
Byte-level encodings: `encoding/binary` (Go standard library) as used by the repository, and
pkg/encoding/sizeVarint.go.
-/
namespace Appendable

/-- A Go `[]byte`. -/
abbrev Bytes := List UInt8

/-- Little-endian encoding of `x` in `n` bytes: `binary.LittleEndian.PutUint16/32/64` with n = 2, 4, 8
(pkg/bptree/node.go:71-75, pkg/appendable/appendable.go:108, pkg/linkedpage/linkedpage.go:108,250). -/
def leBytes : Nat → Nat → Bytes
  | 0, _ => []
  | n + 1, x => UInt8.ofNat (x % 256) :: leBytes n (x / 256)

/-- `binary.LittleEndian.Uint16/32/64` of a slice of that length. -/
def leNat : Bytes → Nat
  | [] => 0
  | b :: bs => b.toNat + 256 * leNat bs

/-- Big-endian encoding, `binary.BigEndian.PutUint64` (pkg/handlers/jsonl.go:114,116,224,226) and `PutUint32`
(pkg/hnsw/friends.go:99). -/
def beBytes (n x : Nat) : Bytes := (leBytes n x).reverse

/-- `binary.BigEndian.Uint64/Uint32`. -/
def beNat (b : Bytes) : Nat := leNat b.reverse

/-- The loop of `binary.PutUvarint` / `binary.AppendUvarint` (Go standard library): while x >= 0x80 emit
`byte(x) | 0x80` (which is `x % 128 + 128`) and shift right by 7.  `fuel` bounds the number of
continuation bytes. -/
def uvarintLoop : Nat → Nat → Bytes
  | 0, x => [UInt8.ofNat x]
  | fuel + 1, x =>
    if x < 128 then [UInt8.ofNat x]
    else UInt8.ofNat (x % 128 + 128) :: uvarintLoop fuel (x / 128)

/-- `binary.PutUvarint`: a uint64 needs at most 9 continuation bytes (binary.MaxVarintLen64 = 10). -/
def putUvarint (x : UInt64) : Bytes := uvarintLoop 9 x.toNat

/-- The loop of `binary.Uvarint` (Go standard library).  `i` is the loop index, `s` the shift, `x` the
accumulator; the result is the value and the number of bytes read (0: buffer too small, negative:
overflow).  The accumulated bit groups are disjoint, so `|` is written `+`. -/
def uvarintGo : Bytes → Nat → Nat → Nat → UInt64 × Int
  | [], _, _, _ => (0, 0)
  | b :: bs, i, s, x =>
    if i = 10 then (0, -((i : Int) + 1))
    else if b.toNat < 128 then
      if i = 9 ∧ b.toNat > 1 then (0, -((i : Int) + 1))
      else (UInt64.ofNat (x + b.toNat * 2 ^ s), (i : Int) + 1)
    else uvarintGo bs (i + 1) (s + 7) (x + (b.toNat - 128) * 2 ^ s)

/-- `binary.Uvarint`. -/
def uvarint (buf : Bytes) : UInt64 × Int := uvarintGo buf 0 0 0

/-- `bits.Len64`: the number of bits needed to represent x, 0 for 0 (Go standard library). -/
def bitLen (x : Nat) : Nat := if x = 0 then 0 else Nat.log2 x + 1

/-- pkg/encoding/sizeVarint.go:5-7: `int(9*uint32(bits.Len64(v))+64) / 64`. -/
def sizeVarint (v : UInt64) : Nat := (9 * bitLen v.toNat + 64) / 64

/-- Reading one varint off the front of `buf[m:]` as the decoders of the repository do
(`o, on := binary.Uvarint(buf[m:]); m += on`).  Simplification: when `Uvarint` reports an error (n <= 0)
the Go code goes on with a wrong position; here that is `none`. -/
def takeUvarint (buf : Bytes) : Option (UInt64 × Bytes) :=
  match uvarint buf with
  | (v, n) => if 0 < n then some (v, buf.drop n.toNat) else none

end Appendable
