import Verif.Spec.Tree
/-! A file of which only the first pages are left, as after an incomplete copy or download. -/
namespace Appendable.Spec
open Appendable Tree

/-- `s'` is a page file on the first pages of the file of `s`; everything else about it is arbitrary. -/
structure CutOf (s s' : PF) : Prop where
  kind : s'.file.kind = s.file.kind
  front : ∃ rest, s.file.bytes = s'.file.bytes ++ rest
  whole : s'.file.bytes.length % 4096 = 0

/-- `NextStops t it s xs e`: calling `Next` until it returns false shows the entries `xs`, and then the error `e` is recorded. -/
inductive NextStops (t : Tree) : Iter → PF → List (RV × MemPtr) → Err → Prop
  | stop {it it' : Iter} {s s' : PF} {e : Err} (h : it.next t s = (.ok (false, it'), s')) (he : it'.err = some e) :
      NextStops t it s [] e
  | step {it it' : Iter} {s s' : PF} {k : RV} {p : MemPtr} {xs : List (RV × MemPtr)} {e : Err}
      (h : it.next t s = (.ok (true, it'), s')) (hk : it'.curKey = some k) (hp : it'.curPointer = some p)
      (rest : NextStops t it' s' xs e) : NextStops t it s ((k, p) :: xs) e

/-- The same for `Prev`. -/
inductive PrevStops (t : Tree) : Iter → PF → List (RV × MemPtr) → Err → Prop
  | stop {it it' : Iter} {s s' : PF} {e : Err} (h : it.prev t s = (.ok (false, it'), s')) (he : it'.err = some e) :
      PrevStops t it s [] e
  | step {it it' : Iter} {s s' : PF} {k : RV} {p : MemPtr} {xs : List (RV × MemPtr)} {e : Err}
      (h : it.prev t s = (.ok (true, it'), s')) (hk : it'.curKey = some k) (hp : it'.curPointer = some p)
      (rest : PrevStops t it' s' xs e) : PrevStops t it s ((k, p) :: xs) e

end Appendable.Spec
