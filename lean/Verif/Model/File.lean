import Verif.Model.Res
import Verif.Model.Encoding
/-! The random-access files the index is stored in: pkg/buftest/buffer.go `SeekableBuffer` and
pkg/mmap/mmap.go `MemoryMappedFile`. -/
namespace Appendable

/-- Which implementation of `io.ReadWriteSeeker` is used. -/
inductive Backend where
  /-- pkg/buftest/buffer.go (tests) -/
  | buffer
  /-- pkg/mmap/mmap.go (cmd/main.go) -/
  | mmap
  deriving DecidableEq, Repr

/-- State of the file: contents, current position (`pos` of pkg/buftest/buffer.go:11-14, `seek` of
pkg/mmap/mmap.go:12-19) and the number of writes that still succeed (`none`: all of them).
`budget` models crash points and full disks: once it is 0 every write fails without effect. -/
structure File where
  kind : Backend
  bytes : Bytes
  pos : Nat
  budget : Option Nat
  deriving DecidableEq, Repr

/-- Contents after writing `b` at position `off` (`copy` / `append` in memory, `pwrite` on a file: a hole is
filled with zeros). -/
def writeAt (l : Bytes) (off : Nat) (b : Bytes) : Bytes :=
  (l ++ List.replicate (off - l.length) 0).take off ++ b ++ l.drop (off + b.length)

namespace File

/-- `Seek` to an absolute position: pkg/mmap/mmap.go:78-99 rejects positions outside of the file,
pkg/buftest/buffer.go:33-49 clamps them. -/
def seekAbs (abs : Int) : Act File Int := fun f =>
  match f.kind with
  | .mmap =>
    if abs < 0 then (.err (.msg "negative position"), f)
    else if abs > f.bytes.length then (.err (.msg "position out of bounds"), f)
    else (.ok abs, { f with pos := abs.toNat })
  | .buffer =>
    let p := if abs < 0 then 0 else if abs > f.bytes.length then f.bytes.length else abs.toNat
    (.ok (p : Int), { f with pos := p })

/-- `Seek(off, io.SeekStart)` -/
def seekStart (off : Int) : Act File Int := seekAbs off
/-- `Seek(off, io.SeekEnd)` -/
def seekEnd (off : Int) : Act File Int := fun f => seekAbs (f.bytes.length + off) f
/-- `Seek(off, io.SeekCurrent)` -/
def seekCur (off : Int) : Act File Int := fun f => seekAbs (f.pos + off) f

/-- `Read` into a buffer of `n` bytes: the bytes read and whether `io.EOF` was returned.
pkg/mmap/mmap.go:102-109 returns EOF on every short read (and panics if the position is behind the end);
pkg/buftest/buffer.go:51-58 returns EOF only if nothing is left. -/
def read (n : Nat) : Act File (Bytes × Bool) := fun f =>
  match f.kind with
  | .mmap =>
    if f.pos > f.bytes.length then (.panic, f)
    else
      let d := (f.bytes.drop f.pos).take n
      (.ok (d, decide (d.length < n)), { f with pos := f.pos + d.length })
  | .buffer =>
    if f.pos ≥ f.bytes.length then (.ok ([], true), f)
    else
      let d := (f.bytes.drop f.pos).take n
      (.ok (d, false), { f with pos := f.pos + d.length })

/-- `Write`.  pkg/buftest/buffer.go:24-31 overwrites and appends.  pkg/mmap/mmap.go:121-162: in range it
copies; beyond the end it writes through the file and remaps, and then returns `len(b)` where `b` has been
shadowed by the new mapping, so that the returned count and the position are off (except for the first
mapping of an empty file).  Returns the count reported to the caller.
A write that would make the file 2^63 bytes long fails, as does one without budget. -/
def write (b : Bytes) : Act File Nat := fun f =>
  if f.budget = some 0 then (.err .io, f)
  else if f.pos + b.length ≥ 2 ^ 63 then (.err .io, f)
  else
    let budget' := f.budget.map (· - 1)
    match f.kind with
    | .buffer =>
      if f.pos > f.bytes.length then (.panic, f)
      else (.ok b.length, { f with bytes := writeAt f.bytes f.pos b, pos := f.pos + b.length, budget := budget' })
    | .mmap =>
      let new := writeAt f.bytes f.pos b
      let n := if f.pos + b.length > f.bytes.length then
          (if f.bytes.length = 0 then b.length else new.length)
        else b.length
      (.ok n, { f with bytes := new, pos := f.pos + n, budget := budget' })

end File
end Appendable
