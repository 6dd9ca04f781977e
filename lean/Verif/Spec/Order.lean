import Verif.Model.Pointer
/-! Specification of the key order, independent of the comparison code: lexicographic on the value bytes
(`List.Lex`), then on the pointer offset, then on the pointer length. -/
namespace Appendable.Spec

/-- `a` comes strictly before `b`. -/
def KeyLt (a b : RV) : Prop :=
  List.Lex (· < ·) a.value b.value ∨
  (a.value = b.value ∧
    (a.dp.offset < b.dp.offset ∨
      (a.dp.offset = b.dp.offset ∧ a.dp.length < b.dp.length)))

/-- Entries in strictly ascending key order. -/
def Ascending {V : Type} (es : List (RV × V)) : Prop := es.Pairwise (fun x y => KeyLt x.1 y.1)

end Appendable.Spec
