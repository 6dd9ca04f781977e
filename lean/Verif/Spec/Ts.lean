import Verif.Model.TsQuery
import Verif.Model.Node
import Verif.Model.IndexFile
import Verif.Spec.Pages
import Verif.Spec.Order
/-! What the TypeScript client may rely on, and what it should return. -/
namespace Appendable.Spec

/-- The resolver serves the bytes of `file`: asked for inclusive ranges of at least two bytes that start inside of the
file, it returns the bytes of each range (as far as the file goes), in the order of the ranges. -/
def Faithful (r : Resolver) (file : Bytes) : Prop :=
  ∀ ranges : List (Int × Int), (∀ x ∈ ranges, 0 ≤ x.1 ∧ x.1 < x.2 ∧ x.1 < file.length) →
    r ranges = .ok (ranges.map (fun x => slice file x.1.toNat (x.2 + 1 - x.1).toNat))

/-- A pointer whose two numbers are below 2^31. -/
def SmallPtr (p : MemPtr) : Prop := p.offset.toNat < 2 ^ 31 ∧ p.length.toNat < 2 ^ 31

/-- A key that the client can read: its data pointer is below 2^31 and, if the key value has to be fetched from the
data file, it has at least two bytes there and the client's parser reads it as the Go code does. -/
def Readable (parse : Bytes → Res Bytes) (cfg : Cfg) (k : RV) : Prop :=
  SmallPtr k.dp ∧ (cfg.width = 0 → 2 ≤ k.dp.length.toNat ∧
    parse (slice cfg.data k.dp.offset.toNat k.dp.length.toNat) = .ok k.value)

/-- The value `x` satisfies the condition `x op v` (in the byte order of values). -/
def Matches : TsOp → Bytes → Bytes → Prop
  | .lt, x, v => List.Lex (· < ·) x v
  | .le, x, v => List.Lex (· < ·) x v ∨ x = v
  | .eq, x, v => x = v
  | .ge, x, v => List.Lex (· < ·) v x ∨ x = v
  | .gt, x, v => List.Lex (· < ·) v x

/-- The entries in the order of their keys, or in the opposite order. -/
def Ordered : TsDir → List (RV × MemPtr) → Prop
  | .asc, xs => Ascending xs
  | .desc, xs => Ascending xs.reverse

/-- The entries `xs` are exactly those of `es` whose value satisfies `x op v`, each once, in order. -/
def Answer (es : List (RV × MemPtr)) (op : TsOp) (v : Bytes) (ord : TsDir) (xs : List (RV × MemPtr)) : Prop :=
  (∀ e, e ∈ xs ↔ e ∈ es ∧ Matches op e.1.value v) ∧ Ordered ord xs

/-- The rows for the entries: `row` of the record of each, in this order; an exception ends them. -/
def gather {β : Type} (row : MemPtr → Res β) : List (RV × MemPtr) → TsRows β
  | [] => ⟨[], none⟩
  | e :: es =>
    match row e.2 with
    | .panic => ⟨[], some (.msg "panic")⟩
    | .err e => ⟨[], some e⟩
    | .ok b => ⟨b :: (gather row es).rows, (gather row es).fail⟩

/-- An index of type `ty` serves values of type `ft`: it has that type or, for numbers (3), is one of the two other
number types. -/
def Fits (ft : Nat) (ty : UInt8) : Prop := ty.toNat = ft ∨ (ft = 3 ∧ (ty = 1 ∨ ty = 2))

/-- Among the indexes `is`, the first one for the field `name` and values of type `ft` is number `k`, with the slot `p`
and the metadata `m`. -/
def Picks (is : List (LP × IndexMeta)) (name : Bytes) (ft k : Nat) (p : LP) (m : IndexMeta) : Prop :=
  is[k]? = some (p, m) ∧ m.fieldName = name ∧ Fits ft m.fieldType ∧
    ∀ (j : Nat) (x : LP × IndexMeta), j < k → is[j]? = some x → ¬ (x.2.fieldName = name ∧ Fits ft x.2.fieldType)

/-- The client has the index file `B` and the data file `data` before it; the index file is not above 2 GB. -/
structure Sees (db : TsDb) (data B : Bytes) : Prop where
  idx : Faithful db.idx B
  dat : Faithful db.dat data
  len : B.length ≤ 2 ^ 31

/-- The client can read the entry: its key, and its record, which has at least two bytes and starts in the data file. -/
def EntryOK (parse : Bytes → Res Bytes) (cfg : Cfg) (e : RV × MemPtr) : Prop :=
  Readable parse cfg e.1 ∧ SmallPtr e.2 ∧ 2 ≤ e.2.length.toNat ∧ e.2.offset.toNat < cfg.data.length

/-- The record of an entry, in the data file. -/
def record (data : Bytes) (p : MemPtr) : Bytes := slice data p.offset.toNat p.length.toNat

/-- The query `q` has the single condition `field op value` with the value bytes `v`; the index the client picks for it is
number `k`, at slot `p` with metadata `m`; the index has entries, and the client can read them. -/
structure Served (parse : Bytes → Bytes) (data : Bytes) (s : PF) (fm : FileMeta) (is : List (LP × IndexMeta))
    (c : Nat → List (RV × MemPtr)) (db : TsDb) (q : TsQuery) (op : TsOp) (v : Bytes) (k : Nat) (p : LP) (m : IndexMeta) : Prop where
  sees : Sees db data s.file.bytes
  ask : ∃ name value ft, q.where_ = [⟨name, op, value⟩] ∧ tsProcessWhere value = some (ft, v) ∧ Picks is name ft k p m
  nonempty : c k ≠ []
  entries : ∀ e ∈ c k, EntryOK (db.parse fm.format.toByte.toNat m.fieldType.toNat) ⟨data, parse, m.width⟩ e

/-- The query yields the rows `r`, and ends as `r` says.  (The loops of the model are bounded by a number; the bound has
to be large enough.) -/
def Returns {β : Type} (db : TsDb) (select : Bytes → Res β) (q : TsQuery) (r : TsRows β) : Prop :=
  ∃ N, ∀ fuel, N ≤ fuel → db.query fuel select q = r

/-- The rows for the records of the entries, in this order. -/
def rowsOf {β : Type} (data : Bytes) (select : Bytes → Res β) (xs : List (RV × MemPtr)) : TsRows β :=
  gather (fun p => select (record data p)) xs

end Appendable.Spec
