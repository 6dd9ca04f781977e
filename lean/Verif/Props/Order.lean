import Verif.Lemmas.Order
import Verif.Lemmas.TsOrder
/-! Properties C07 and C08: the key order and the binary search inside a node. -/
namespace Appendable
open Spec

/-- C07: the comparison is negative exactly when the first key comes first in the lexicographic order on
(value bytes, pointer offset, pointer length), positive exactly when it comes after, zero exactly when the
keys are identical; the TypeScript comparison of the same keys (`RV.ts`: the same numbers) has the same result. -/
theorem C07_compare_is_lexicographic (a b : RV) :
    (compareRV a b < 0 ↔ KeyLt a b) ∧ (compareRV a b > 0 ↔ KeyLt b a) ∧ (compareRV a b = 0 ↔ a = b)
      ∧ tsCompareRV a.ts b.ts = compareRV a b := by
  refine ⟨compareRV_lt_iff a b, ?_, compareRV_eq_zero a b, tsCompareRV_eq a b⟩
  rw [← compareRV_lt_iff b a, compareRV_swap a b]; omega

/-- C07: that order is a strict total order. -/
theorem C07_strict_total_order :
    (∀ a, ¬ KeyLt a a) ∧ (∀ a b c, KeyLt a b → KeyLt b c → KeyLt a c) ∧
    (∀ a b, KeyLt a b ∨ a = b ∨ KeyLt b a) :=
  ⟨KeyLt.irrefl, fun _ _ _ => KeyLt.trans, KeyLt.total⟩

/-- C07: the comparison code itself is transitive and antisymmetric. -/
theorem C07_compare_transitive (a b c : RV) (h1 : compareRV a b < 0) (h2 : compareRV b c < 0) :
    compareRV a c < 0 ∧ compareRV b a > 0 := by
  rw [compareRV_lt_iff] at *
  exact ⟨h1.trans h2, by have := (compareRV_lt_iff a b).2 h1; rw [compareRV_swap a b]; omega⟩

example : compareRV ⟨⟨5, 1⟩, [1]⟩ ⟨⟨2, 1⟩, [1, 0]⟩ < 0 ∧ compareRV ⟨⟨2, 1⟩, [1, 0]⟩ ⟨⟨2, 3⟩, [1, 0]⟩ < 0 := by
  decide

/-- C08: on a list of keys in strictly ascending order the Go search returns the number of keys strictly
below the target, and reports whether the target is in the list; the TypeScript search returns the same. -/
theorem C08_binary_search_lower_bound (ks : List RV) (hs : ks.Pairwise KeyLt) (k : RV) :
    bsearch compareRV ks k = ((ks.filter (fun x => decide (KeyLt x k))).length, decide (k ∈ ks)) ∧
    tsBinarySearch (ks.map RV.ts) k.ts = bsearch compareRV ks k :=
  ⟨bsearch_spec hs k, tsBinarySearch_eq ks k⟩

/-- C08, positional form: everything before the returned index is smaller, everything from it on is not. -/
theorem C08_binary_search_partition (ks : List RV) (hs : ks.Pairwise KeyLt) (k : RV) :
    (∀ x ∈ ks.take (bsearch compareRV ks k).1, KeyLt x k) ∧
    (∀ x ∈ ks.drop (bsearch compareRV ks k).1, ¬ KeyLt x k) := by
  rw [bsearch_spec hs k]
  constructor
  · intro x hx
    obtain ⟨i, hi, rfl⟩ := List.mem_iff_getElem.1 hx
    simp only [List.length_take] at hi
    rw [List.getElem_take]
    exact (sorted_lt_countLt hs k i (by omega)).2 (by omega)
  · intro x hx
    obtain ⟨i, hi, rfl⟩ := List.mem_iff_getElem.1 hx
    simp only [List.length_drop] at hi
    rw [List.getElem_drop, sorted_lt_countLt hs k _ (by omega)]
    omega

example : [(⟨⟨1, 1⟩, [1]⟩ : RV), ⟨⟨0, 1⟩, [2]⟩, ⟨⟨7, 1⟩, [2]⟩].Pairwise KeyLt := by decide
example : bsearch compareRV [(⟨⟨1, 1⟩, [1]⟩ : RV), ⟨⟨0, 1⟩, [2]⟩, ⟨⟨7, 1⟩, [2]⟩] ⟨⟨3, 0⟩, [2]⟩ = (2, false) := by
  decide

end Appendable
