import Verif.Model.TsOrder
import Verif.Lemmas.Order
namespace Appendable

theorem tsCompareBytesAux_eq (xs ys a b : Bytes) (d : Nat) (ha : a.length = d + xs.length)
    (hb : b.length = d + ys.length) (n : Nat) (hn : n = min xs.length ys.length) :
    tsCompareBytesAux n xs ys a b = bytesCompare xs ys := by
  induction xs generalizing ys n d with
  | nil =>
    have : n = 0 := by simp at hn; exact hn
    subst this
    cases ys with
    | nil => simp at ha hb; simp [tsCompareBytesAux, bytesCompare]; omega
    | cons y ys => simp at ha hb; simp [tsCompareBytesAux, bytesCompare]; omega
  | cons x xs ih =>
    cases ys with
    | nil =>
      have : n = 0 := by simp at hn; exact hn
      subst this
      simp at ha hb
      have h1 : ¬ a.length < b.length := by omega
      have h2 : b.length < a.length := by omega
      simp [tsCompareBytesAux, bytesCompare, h1, h2]
    | cons y ys =>
      have : n = min xs.length ys.length + 1 := by simp at hn; omega
      subst this
      simp only [tsCompareBytesAux, bytesCompare]
      simp at ha hb
      rw [ih ys (d + 1) (by omega) (by omega) _ rfl]
      by_cases h1 : x < y
      · have : x ≠ y := by intro e; subst e; exact absurd h1 (by simp [UInt8.lt_iff_toNat_lt])
        simp [h1, this]
      · by_cases h2 : y < x
        · have : x ≠ y := by intro e; subst e; exact absurd h2 (by simp [UInt8.lt_iff_toNat_lt])
          simp [h1, h2, this]
        · have : x = y := by
            apply UInt8.toNat_inj.1
            rw [UInt8.lt_iff_toNat_lt] at h1 h2; omega
          simp [this]

theorem tsCompareBytes_eq (a b : Bytes) : tsCompareBytes a b = bytesCompare a b :=
  tsCompareBytesAux_eq a b a b 0 (by simp) (by simp) _ rfl

theorem tsCompareRV_eq (a b : RV) : tsCompareRV a.ts b.ts = compareRV a b := by
  unfold tsCompareRV compareRV RV.ts MemPtr.ts
  simp only [tsCompareBytes_eq, gt_iff_lt, UInt64.lt_iff_toNat_lt, UInt32.lt_iff_toNat_lt, Int.ofNat_lt]
  split
  · rfl
  · repeat' split
    all_goals first | rfl | omega

theorem tsBsearchLoop_eq (ks : List RV) (k : RV) : ∀ (f i j : Nat),
    bsearchLoop tsCompareRV (ks.map RV.ts) k.ts f i j = bsearchLoop compareRV ks k f i j := by
  intro f
  induction f with
  | zero => intro i j; rfl
  | succ f ih =>
    intro i j
    simp only [bsearchLoop, List.getElem?_map]
    split
    · cases h : ks[(i + j) / 2]? with
      | none => rfl
      | some x => simp only [Option.map_some, tsCompareRV_eq, ih]
    · rfl

theorem tsBinarySearch_eq (ks : List RV) (k : RV) : tsBinarySearch (ks.map RV.ts) k.ts = bsearch compareRV ks k := by
  unfold tsBinarySearch bsearch
  simp only [tsBsearchLoop_eq, List.length_map, List.getElem?_map]
  congr 1
  cases ks[bsearchLoop compareRV ks k ks.length 0 ks.length]? with
  | none => rfl
  | some x => simp only [Option.map_some, tsCompareRV_eq]

end Appendable
