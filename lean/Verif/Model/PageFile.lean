import Verif.Model.File
import Verif.Model.Node
/-! pkg/pagefile: the page allocator (debug build, i.e. without the `release` tag, as `go build` and
`go test` produce it). -/
namespace Appendable

/-- `len(pf.freePageIndexes)`, pkg/pagefile/pagefile.go:30 -/
def ringSize : Nat := 512

/-- pkg/pagefile/pagefile.go:24-34 `PageFile`.  `pageSize` is the constant 4096. -/
structure PF where
  file : File
  /-- `freePageIndexes [512]int64` -/
  ring : List Int
  /-- `freePageHead` -/
  head : Nat
  /-- `freePageCount` -/
  count : Nat
  lastPage : Nat
  deriving DecidableEq, Repr

/-- `int64(x)` of a uint64 -/
def int64OfU64 (x : Nat) : Int := if x < 2 ^ 63 then (x : Int) else (x : Int) - 2 ^ 64

/-- `uint64(x)` of an int64 -/
def u64OfInt (x : Int) : Nat := (x % 2 ^ 64).toNat

namespace PF

/-- Calls on the embedded `io.ReadWriteSeeker`. -/
def onFile {α : Type} (m : Act File α) : Act PF α := fun s =>
  let r := m s.file
  (r.1, { s with file := r.2 })

/-- The loop of pkg/pagefile/pagefile.go:64-73: read the free page offsets from the first page until the
first zero. -/
def loadRing (buf : Bytes) : Nat → Nat → List Int → Nat → Nat → List Int × Nat × Nat
  | 0, _, ring, head, count => (ring, head, count)
  | n + 1, i, ring, head, count =>
    let offset := int64OfU64 (leNat ((buf.drop (i * 8)).take 8))
    if offset ≠ 0 then
      loadRing buf n (i + 1) (ring.set head offset) ((head + 1) % ringSize) (count + 1)
    else (ring, head, count)

/-- pkg/pagefile/pagefile.go:42-85 `NewPageFile`.  `rws.Read(buf)` leaves the tail of `buf` zero on a short
read; on EOF the buffer (with whatever was read) is written at the current position. -/
def openFile : Act File PF := do
  let _ ← File.seekStart 0
  let (d, eof) ← File.read pageSize
  let buf := d ++ List.replicate (pageSize - d.length) 0
  let ring0 : List Int := List.replicate ringSize 0
  let (ring, head, count) ← (if eof then do
      let _ ← File.write buf
      return (ring0, 0, 0)
    else return loadRing buf ringSize 0 ring0 0 0)
  let n ← File.seekEnd 0
  if n.tmod pageSize ≠ 0 then Act.throw (.msg "file size is not a multiple of the page size")
  else do
    let f ← Act.get
    return ⟨f, ring, head, count, (n / pageSize).toNat⟩

/-- `tail` of pkg/pagefile/pagefile.go:101,121 -/
def tail (s : PF) : Nat := (s.head + ringSize - s.count) % ringSize

/-- The loop of pkg/pagefile/pagefile.go:102-105; `none` is the index-out-of-range panic of
`pf.freePageIndexes[tail+i]`. -/
def ringSlice (ring : List Int) : Nat → Nat → Option (List Int)
  | _, 0 => some []
  | i, n + 1 => do
    let x ← ring[i]?
    let xs ← ringSlice ring (i + 1) n
    return x :: xs

/-- The page that pkg/pagefile/pagefile.go:100-105 builds: the free offsets, little endian, then zeros. -/
def freePageBytes (offs : List Int) : Bytes :=
  (offs.map (fun o => leBytes 8 (u64OfInt o))).flatten ++ List.replicate (ringSize * 8 - offs.length * 8) 0

/-- pkg/pagefile/pagefile.go:99-113 `writeFreePageIndices` -/
def writeFreePageIndices : Act PF Unit := fun s =>
  match ringSlice s.ring s.tail s.count with
  | none => (.panic, s)
  | some offs =>
    (do
      let _ ← onFile (File.seekStart 0)
      let _ ← onFile (File.write (freePageBytes offs))
      return ()) s

/-- pkg/pagefile/pagefile.go:115-131 `FreePageIndex` -/
def freePageIndex : Act PF Int := fun s =>
  if s.count = 0 then (.ok (-1), s)
  else
    match s.ring[s.tail]? with
    | none => (.panic, s)
    | some offset =>
      (do
        Act.set { s with ring := s.ring.set s.tail 0, count := s.count - 1 }
        writeFreePageIndices
        return offset) s

/-- pkg/pagefile/pagefile_debug.go:7-16 `Write` -/
def write (b : Bytes) : Act PF Nat := do
  let n ← onFile (File.seekCur 0)
  if n.tmod pageSize + b.length > pageSize then Act.crash
  else onFile (File.write b)

/-- pkg/pagefile/pagefile_debug.go:18-27 `Read` -/
def read (len : Nat) : Act PF (Bytes × Bool) := do
  let n ← onFile (File.seekCur 0)
  if n.tmod pageSize + len > pageSize then Act.crash
  else onFile (File.read len)

/-- `Seek` of the embedded file. -/
def seek (off : Int) : Act PF Int := onFile (File.seekStart off)

/-- pkg/pagefile/pagefile.go:133-179 `NewPage`; `buf = none` is nil. -/
def newPage (buf : Option Bytes) : Act PF Int :=
  let b := buf.getD []
  if b.length > pageSize then Act.throw (.msg "buffer is too large")
  else do
    let offset ← freePageIndex
    let offset ← (if offset ≠ -1 then do
        let _ ← onFile (File.seekStart offset)
        return offset
      else do
        let n ← onFile (File.seekEnd 0)
        (fun s => (.ok (), { s with lastPage := s.lastPage + 1 }) : Act PF Unit)
        return n)
    let pad ← (if offset.tmod pageSize ≠ 0 then do
        let pad := (pageSize : Int) - offset.tmod pageSize
        let _ ← write (List.replicate pad.toNat 0)
        return pad
      else (return 0 : Act PF Int))
    let _ ← onFile (File.write (b ++ List.replicate (pageSize - b.length) 0))
    let _ ← onFile (File.seekStart offset)
    return offset + pad

/-- pkg/pagefile/pagefile.go:181-201 `FreePage` -/
def freePage (offset : Int) : Act PF Unit := fun s =>
  if offset.tmod pageSize ≠ 0 then (.err (.msg "offset is not a multiple of the page size"), s)
  else if s.count = ringSize then (.err (.msg "free page index is full"), s)
  else if s.ring.any (· == offset) then (.err (.msg "offset already exists"), s)
  else
    writeFreePageIndices
      { s with ring := s.ring.set s.head offset, head := (s.head + 1) % ringSize, count := s.count + 1 }

/-- pkg/pagefile/pagefile.go:91-97 `Page` -/
def page (i : Int) : Res Int :=
  if i < 0 then .err (.msg "page index cannot be negative") else .ok ((i + 1) * pageSize)

/-- pkg/pagefile/pagefile.go:87-89,211-213 `LastPage`, `PageCount` -/
def pageCount (s : PF) : Nat := s.lastPage

end PF
end Appendable
