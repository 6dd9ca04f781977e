import Verif.Model.TsRace
import Verif.Spec.Index
/-! What calls at the same time should return. -/
namespace Appendable.Spec

/-- The same field names in the same order, and for each the same types in the same order; a type may be given more often than
once. -/
def SameHeaders (xs ys : List (Bytes × List Nat)) : Prop :=
  xs.map (fun h => (h.1, firstOccurrences h.2)) = ys.map (fun h => (h.1, firstOccurrences h.2))

/-- `n` calls of `indexHeaders` on a new object. -/
def freshCalls (n : Nat) : TsCalls := ⟨[], List.replicate n .start⟩

end Appendable.Spec
