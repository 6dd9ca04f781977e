import Verif.Lemmas.Rep
import Verif.Model.BPTree
/-! Sizes of nodes and of the halves of a split. -/
namespace Appendable
open Spec Tree

/-- Bytes of an inline value. -/
def vlen (cfg : Cfg) : Nat := if cfg.width = 0 then 0 else (cfg.width - 1).toNat

theorem sizeVarint_pos (v : UInt64) : 1 ≤ sizeVarint v := by
  rw [sizeVarint_eq_length]; exact putUvarint_length_pos v
theorem sizeVarint_le (v : UInt64) : sizeVarint v ≤ 10 := by
  rw [sizeVarint_eq_length]; exact putUvarint_length_le v
theorem sizeVarint_le32 (v : UInt32) : sizeVarint v.toUInt64 ≤ 5 := by
  rw [sizeVarint_eq_length]
  apply putUvarint_length_of_lt _ 4
  have : v.toUInt64.toNat = v.toNat := by simp
  rw [this]
  have := v.toNat_lt
  omega

theorem keySize_bounds {cfg : Cfg} {k : RV} (h : KeyOK cfg k) :
    vlen cfg + 2 ≤ keySize cfg.width k ∧ keySize cfg.width k ≤ vlen cfg + 15 := by
  have h1 := sizeVarint_pos k.dp.length.toUInt64
  have h2 := sizeVarint_le32 k.dp.length
  have h3 := sizeVarint_pos k.dp.offset
  have h4 := sizeVarint_le k.dp.offset
  unfold keySize vlen
  unfold KeyOK at h
  by_cases hw : cfg.width = 0
  · simp only [hw, if_true, ne_eq, not_true_eq_false, if_false]; omega
  · simp only [hw, if_false, ne_eq, not_false_iff, if_true] at *; omega

theorem leafPtrSize_bounds (p : MemPtr) : 2 ≤ leafPtrSize p ∧ leafPtrSize p ≤ 15 := by
  have h1 := sizeVarint_pos p.length.toUInt64
  have h2 := sizeVarint_le32 p.length
  have h3 := sizeVarint_pos p.offset
  have h4 := sizeVarint_le p.offset
  unfold leafPtrSize; omega

theorem intPtrSize_bounds (p : UInt64) : 1 ≤ intPtrSize p ∧ intPtrSize p ≤ 10 :=
  ⟨putUvarint_length_pos p, putUvarint_length_le p⟩

theorem sum_ge {α : Type} (f : α → Nat) (a : Nat) (l : List α) (h : ∀ x ∈ l, a ≤ f x) :
    l.length * a ≤ (l.map f).sum := by
  induction l with
  | nil => simp
  | cons x l ih =>
    have := ih (fun y hy => h y (by simp [hy]))
    have := h x (by simp)
    simp only [List.length_cons, List.map_cons, List.sum_cons, Nat.add_mul, Nat.one_mul]; omega

theorem sum_le {α : Type} (f : α → Nat) (a : Nat) (l : List α) (h : ∀ x ∈ l, f x ≤ a) :
    (l.map f).sum ≤ l.length * a := by
  induction l with
  | nil => simp
  | cons x l ih =>
    have := ih (fun y hy => h y (by simp [hy]))
    have := h x (by simp)
    simp only [List.length_cons, List.map_cons, List.sum_cons, Nat.add_mul, Nat.one_mul]; omega

theorem sum_ge' {α : Type} (f : α → Nat) (a c : Nat) (l : List α) (h : ∀ x ∈ l, a ≤ f x) (hc : c ≤ l.length) :
    c * a ≤ (l.map f).sum := Nat.le_trans (Nat.mul_le_mul_right a hc) (sum_ge f a l h)

theorem sum_le' {α : Type} (f : α → Nat) (a c : Nat) (l : List α) (h : ∀ x ∈ l, f x ≤ a) (hc : l.length ≤ c) :
    (l.map f).sum ≤ c * a := Nat.le_trans (sum_le f a l h) (Nat.mul_le_mul_right a hc)

theorem sum_take_drop {α : Type} (f : α → Nat) (l : List α) (m : Nat) :
    (l.map f).sum = ((l.take m).map f).sum + ((l.drop m).map f).sum := by
  conv => lhs; rw [← List.take_append_drop m l]
  rw [List.map_append, List.sum_append]

theorem Spec.LeafShape.isLeaf {n : Node} (h : LeafShape n) (h0 : 0 < n.keys.length) : n.leaf = true := by
  unfold Node.leaf; have := h.1; simp; omega

theorem Spec.InternalShape.isLeaf {n : Node} (h : InternalShape n) : n.leaf = false := by
  unfold Node.leaf; simp [h.2]

theorem nodeOK_of_size {cfg : Cfg} {n : Node} (h0 : 0 < n.keys.length) (hs : LeafShape n ∨ InternalShape n)
    (hk : ∀ k ∈ n.keys, KeyOK cfg k) (hsz : n.size cfg.width ≤ pageSize) : NodeOK cfg n := by
  refine ⟨h0, ?_, hs, hk⟩
  have := sum_ge (keySize cfg.width) 1 n.keys (fun k h => by have := (keySize_bounds (hk k h)).1; omega)
  unfold Node.size pageSize at *
  omega

/-- A leaf that overflows by one entry splits into two leaves that fit. -/
theorem leaf_split_sizes {cfg : Cfg} {n : Node} (hs : LeafShape n) (hk : ∀ k ∈ n.keys, KeyOK cfg k)
    (hv : vlen cfg ≤ 2016) (hbig : pageSize < n.size cfg.width) (hsz : n.size cfg.width ≤ pageSize + vlen cfg + 30) :
    2 ≤ n.keys.length ∧ (leftHalf n (n.keys.length / 2)).size cfg.width ≤ pageSize ∧
      (rightHalf n (n.keys.length / 2)).size cfg.width ≤ pageSize := by
  have hK : ∀ k ∈ n.keys, _ := fun k h => keySize_bounds (hk k h)
  have hP : ∀ p ∈ n.leafPtrs, _ := fun p _ => leafPtrSize_bounds p
  have hlen := hs.1
  have hint := hs.2
  have e1 : n.size cfg.width = 4 + (n.keys.map (keySize cfg.width)).sum + (n.leafPtrs.map leafPtrSize).sum := by
    unfold Node.size; rw [hint]; simp
  have u : ∀ c, n.keys.length ≤ c → (n.keys.map (keySize cfg.width)).sum ≤ c * (vlen cfg + 15) ∧
      (n.leafPtrs.map leafPtrSize).sum ≤ c * 15 := fun c hc =>
    ⟨sum_le' _ _ _ _ (fun k h => (hK k h).2) hc, sum_le' _ _ _ _ (fun p h => (hP p h).2) (by omega)⟩
  have h2 : 2 ≤ n.keys.length := by
    by_cases h : n.keys.length ≤ 1
    · have := u 1 h
      unfold pageSize at *; omega
    · omega
  have hleaf := hs.isLeaf (by omega)
  generalize hm : n.keys.length / 2 = mid
  have eK := sum_take_drop (keySize cfg.width) n.keys mid
  have eP := sum_take_drop leafPtrSize n.leafPtrs mid
  have hKl : ∀ k ∈ n.keys.take mid, _ := fun k h => hK k (List.mem_of_mem_take h)
  have hKr : ∀ k ∈ n.keys.drop mid, _ := fun k h => hK k (List.mem_of_mem_drop h)
  have lK : (n.keys.take mid).length = mid := by simp; omega
  have rK : (n.keys.drop mid).length = n.keys.length - mid := by simp
  have lP : (n.leafPtrs.take mid).length = mid := by simp; omega
  have rP : (n.leafPtrs.drop mid).length = n.keys.length - mid := by simp; omega
  have sl : (leftHalf n mid).size cfg.width = 4 + ((n.keys.take mid).map (keySize cfg.width)).sum
      + ((n.leafPtrs.take mid).map leafPtrSize).sum := by
    unfold leftHalf Node.size; rw [if_pos hleaf]; simp [hint]
  have sr : (rightHalf n mid).size cfg.width = 4 + ((n.keys.drop mid).map (keySize cfg.width)).sum
      + ((n.leafPtrs.drop mid).map leafPtrSize).sum := by
    unfold rightHalf Node.size; rw [if_pos hleaf]; simp
  refine ⟨h2, ?_, ?_⟩
  · rw [sl]
    by_cases h3 : n.keys.length ≤ 3
    · have a := sum_le' (keySize cfg.width) _ 1 (n.keys.take mid) (fun k h => (hKl k h).2) (by omega)
      have b := sum_le' leafPtrSize _ 1 (n.leafPtrs.take mid) (fun p _ => (leafPtrSize_bounds p).2) (by omega)
      unfold pageSize at *; omega
    · by_cases h16 : n.keys.length < 16
      · have a := sum_ge' (keySize cfg.width) _ 2 (n.keys.drop mid) (fun k h => (hKr k h).1) (by omega)
        have b := sum_ge' leafPtrSize _ 2 (n.leafPtrs.drop mid) (fun p _ => (leafPtrSize_bounds p).1) (by omega)
        have := u 15 (by omega)
        unfold pageSize at *; omega
      · have a := sum_ge' (keySize cfg.width) _ 8 (n.keys.drop mid) (fun k h => (hKr k h).1) (by omega)
        have b := sum_ge' leafPtrSize _ 8 (n.leafPtrs.drop mid) (fun p _ => (leafPtrSize_bounds p).1) (by omega)
        unfold pageSize at *; omega
  · rw [sr]
    by_cases h3 : n.keys.length ≤ 3
    · have a := sum_le' (keySize cfg.width) _ 2 (n.keys.drop mid) (fun k h => (hKr k h).2) (by omega)
      have b := sum_le' leafPtrSize _ 2 (n.leafPtrs.drop mid) (fun p _ => (leafPtrSize_bounds p).2) (by omega)
      unfold pageSize at *; omega
    · by_cases h16 : n.keys.length < 16
      · have a := sum_ge' (keySize cfg.width) _ 2 (n.keys.take mid) (fun k h => (hKl k h).1) (by omega)
        have b := sum_ge' leafPtrSize _ 2 (n.leafPtrs.take mid) (fun p _ => (leafPtrSize_bounds p).1) (by omega)
        have := u 15 (by omega)
        unfold pageSize at *; omega
      · have a := sum_ge' (keySize cfg.width) _ 8 (n.keys.take mid) (fun k h => (hKl k h).1) (by omega)
        have b := sum_ge' leafPtrSize _ 8 (n.leafPtrs.take mid) (fun p _ => (leafPtrSize_bounds p).1) (by omega)
        unfold pageSize at *; omega

/-- The same for an internal node that overflows by one key and one child. -/
theorem internal_split_sizes {cfg : Cfg} {n : Node} (hs : InternalShape n) (hk : ∀ k ∈ n.keys, KeyOK cfg k)
    (hv : vlen cfg ≤ 2016) (hbig : pageSize < n.size cfg.width) (hsz : n.size cfg.width ≤ pageSize + vlen cfg + 30) :
    3 ≤ n.keys.length ∧ (leftHalf n (n.keys.length / 2)).size cfg.width ≤ pageSize ∧
      (rightHalf n (n.keys.length / 2)).size cfg.width ≤ pageSize := by
  have hK : ∀ k ∈ n.keys, _ := fun k h => keySize_bounds (hk k h)
  have hP : ∀ p ∈ n.intPtrs, _ := fun p _ => intPtrSize_bounds p
  have hlen := hs.1
  have hlf := hs.2
  have e1 : n.size cfg.width = 4 + (n.keys.map (keySize cfg.width)).sum + (n.intPtrs.map intPtrSize).sum := by
    unfold Node.size; rw [hlf]; simp
  have u : ∀ c, n.keys.length ≤ c → (n.keys.map (keySize cfg.width)).sum ≤ c * (vlen cfg + 15) ∧
      (n.intPtrs.map intPtrSize).sum ≤ (c + 1) * 10 := fun c hc =>
    ⟨sum_le' _ _ _ _ (fun k h => (hK k h).2) hc, sum_le' _ _ _ _ (fun p h => (hP p h).2) (by omega)⟩
  have h2 : 3 ≤ n.keys.length := by
    by_cases h : n.keys.length ≤ 2
    · have := u 2 h
      unfold pageSize at *; omega
    · omega
  have hleaf := hs.isLeaf
  generalize hm : n.keys.length / 2 = mid
  have eK := sum_take_drop (keySize cfg.width) n.keys mid
  have eP := sum_take_drop intPtrSize n.intPtrs (mid + 1)
  have eD : ((n.keys.drop mid).map (keySize cfg.width)).sum
      = keySize cfg.width (n.keys[mid]'(by omega)) + ((n.keys.drop (mid + 1)).map (keySize cfg.width)).sum := by
    rw [List.drop_eq_getElem_cons (by omega), List.map_cons, List.sum_cons]
  have hmk := hK (n.keys[mid]'(by omega)) (List.getElem_mem _)
  have hKl : ∀ k ∈ n.keys.take mid, _ := fun k h => hK k (List.mem_of_mem_take h)
  have hKr : ∀ k ∈ n.keys.drop (mid + 1), _ := fun k h => hK k (List.mem_of_mem_drop h)
  have lK : (n.keys.take mid).length = mid := by simp; omega
  have rK : (n.keys.drop (mid + 1)).length = n.keys.length - (mid + 1) := by simp
  have lP : (n.intPtrs.take (mid + 1)).length = mid + 1 := by simp; omega
  have rP : (n.intPtrs.drop (mid + 1)).length = n.keys.length - mid := by simp; omega
  have sl : (leftHalf n mid).size cfg.width = 4 + ((n.keys.take mid).map (keySize cfg.width)).sum
      + ((n.intPtrs.take (mid + 1)).map intPtrSize).sum := by
    unfold leftHalf Node.size; rw [if_neg (by simp [hleaf])]; simp [hlf]
  have sr : (rightHalf n mid).size cfg.width = 4 + ((n.keys.drop (mid + 1)).map (keySize cfg.width)).sum
      + ((n.intPtrs.drop (mid + 1)).map intPtrSize).sum := by
    unfold rightHalf Node.size; rw [if_neg (by simp [hleaf])]; simp
  refine ⟨h2, ?_, ?_⟩
  · rw [sl]
    by_cases h3 : n.keys.length ≤ 4
    · have a := sum_le' (keySize cfg.width) _ 2 (n.keys.take mid) (fun k h => (hKl k h).2) (by omega)
      have b := sum_le' intPtrSize _ 3 (n.intPtrs.take (mid + 1)) (fun p _ => (intPtrSize_bounds p).2) (by omega)
      unfold pageSize at *; omega
    · by_cases h16 : n.keys.length < 24
      · have a := sum_ge' (keySize cfg.width) _ 2 (n.keys.drop (mid + 1)) (fun k h => (hKr k h).1) (by omega)
        have := u 23 (by omega)
        unfold pageSize at *; omega
      · have a := sum_ge' (keySize cfg.width) _ 11 (n.keys.drop (mid + 1)) (fun k h => (hKr k h).1) (by omega)
        have b := sum_ge' intPtrSize _ 11 (n.intPtrs.drop (mid + 1)) (fun p _ => (intPtrSize_bounds p).1) (by omega)
        unfold pageSize at *; omega
  · rw [sr]
    by_cases h3 : n.keys.length ≤ 4
    · have a := sum_le' (keySize cfg.width) _ 1 (n.keys.drop (mid + 1)) (fun k h => (hKr k h).2) (by omega)
      have b := sum_le' intPtrSize _ 2 (n.intPtrs.drop (mid + 1)) (fun p _ => (intPtrSize_bounds p).2) (by omega)
      unfold pageSize at *; omega
    · by_cases h16 : n.keys.length < 24
      · have a := sum_ge' (keySize cfg.width) _ 2 (n.keys.take mid) (fun k h => (hKl k h).1) (by omega)
        have := u 23 (by omega)
        unfold pageSize at *; omega
      · have a := sum_ge' (keySize cfg.width) _ 11 (n.keys.take mid) (fun k h => (hKl k h).1) (by omega)
        have b := sum_ge' intPtrSize _ 11 (n.intPtrs.take (mid + 1)) (fun p _ => (intPtrSize_bounds p).1) (by omega)
        unfold pageSize at *; omega

theorem zip_take {α β : Type} (a : List α) (b : List β) (m : Nat) : (a.zip b).take m = (a.take m).zip (b.take m) := by
  rw [List.zip_eq_zipWith, List.zip_eq_zipWith, List.take_zipWith]

theorem zip_drop {α β : Type} (a : List α) (b : List β) (m : Nat) : (a.zip b).drop m = (a.drop m).zip (b.drop m) := by
  rw [List.zip_eq_zipWith, List.zip_eq_zipWith, List.drop_zipWith]

/-- A node that has just overflowed splits into two well-formed nodes with the entries in order. -/
theorem MemRep.split {cfg : Cfg} {R leaf n lo hi es qs} (h : MemRep cfg R leaf n lo hi es qs)
    (h0 : 0 < n.keys.length)
    (hv : vlen cfg ≤ 2016) (hbig : pageSize < n.size cfg.width) (hsz : n.size cfg.width ≤ pageSize + vlen cfg + 30) :
    ∃ (hm : n.keys.length / 2 < n.keys.length) (es1 es2 : List Entry) (qs1 qs2 : List Nat),
      es = es1 ++ es2 ∧ qs = qs1 ++ qs2 ∧
      MemRep cfg R leaf (leftHalf n (n.keys.length / 2)) lo (some n.keys[n.keys.length / 2]) es1 qs1 ∧
      MemRep cfg R leaf (rightHalf n (n.keys.length / 2)) (some n.keys[n.keys.length / 2]) hi es2 qs2 ∧
      NodeOK cfg (leftHalf n (n.keys.length / 2)) ∧ NodeOK cfg (rightHalf n (n.keys.length / 2)) ∧
      (leftHalf n (n.keys.length / 2)).size cfg.width ≤ pageSize ∧
      (rightHalf n (n.keys.length / 2)).size cfg.width ≤ pageSize := by
  have hk := h.2.2
  have hmid : n.keys.length / 2 < n.keys.length := by omega
  refine ⟨hmid, ?_⟩
  cases leaf with
  | true =>
    obtain ⟨hs, he, hq, hso, hb, hlm⟩ := h.1 rfl
    obtain ⟨h2, s1, s2⟩ := leaf_split_sizes hs hk hv hbig hsz
    have hleaf := hs.isLeaf h0
    generalize hm : n.keys.length / 2 = mid at *
    have hlen := hs.1
    have kl : (leftHalf n mid).keys = n.keys.take mid := by unfold leftHalf; rw [if_pos hleaf]
    have pl : (leftHalf n mid).leafPtrs = n.leafPtrs.take mid := by unfold leftHalf; rw [if_pos hleaf]
    have il : (leftHalf n mid).intPtrs = [] := by unfold leftHalf; rw [if_pos hleaf]; exact hs.2
    have kr : (rightHalf n mid).keys = n.keys.drop mid := by unfold rightHalf; rw [if_pos hleaf]
    have pr : (rightHalf n mid).leafPtrs = n.leafPtrs.drop mid := by unfold rightHalf; rw [if_pos hleaf]
    have ir : (rightHalf n mid).intPtrs = [] := by unfold rightHalf; rw [if_pos hleaf]
    have shl : LeafShape (leftHalf n mid) := ⟨by rw [kl, pl]; simp; omega, il⟩
    have shr : LeafShape (rightHalf n mid) := ⟨by rw [kr, pr]; simp; omega, ir⟩
    have hkl : ∀ k ∈ (leftHalf n mid).keys, KeyOK cfg k := by
      rw [kl]; exact fun k hh => hk k (List.mem_of_mem_take hh)
    have hkr : ∀ k ∈ (rightHalf n mid).keys, KeyOK cfg k := by
      rw [kr]; exact fun k hh => hk k (List.mem_of_mem_drop hh)
    have hpw := List.pairwise_iff_getElem.1 hso
    refine ⟨es.take mid, es.drop mid, [], [], (List.take_append_drop _ _).symm, hq, ⟨fun _ => ⟨shl, ?_, rfl, ?_, ?_, ?_⟩, by simp, hkl⟩,
      ⟨fun _ => ⟨shr, ?_, rfl, ?_, ?_, ?_⟩, by simp, hkr⟩,
      nodeOK_of_size (by rw [kl]; simp; omega) (.inl shl) hkl s1,
      nodeOK_of_size (by rw [kr]; simp; omega) (.inl shr) hkr s2, s1, s2⟩
    · rw [kl, pl, he, zip_take]
    · rw [kl]; exact List.Pairwise.sublist (List.take_sublist _ _) hso
    · intro k hk'
      rw [kl] at hk'
      refine ⟨(hb k (List.mem_of_mem_take hk')).1, fun x hx => ?_⟩
      cases hx
      obtain ⟨i, hi, rfl⟩ := List.mem_iff_getElem.1 hk'
      rw [List.getElem_take]
      rw [List.length_take] at hi
      exact hpw i mid (by omega) (by omega) (by omega)
    · intro l hl
      obtain ⟨i, hi, hil⟩ := List.mem_iff_getElem.1 (hlm l hl)
      rw [kl]
      by_cases h0 : i = 0
      · subst h0
        exact List.mem_iff_getElem.2 ⟨0, by simp; omega, by rw [List.getElem_take]; exact hil⟩
      · exact absurd (hpw 0 i (by omega) hi (by omega)) (by rw [hil]; exact (hb _ (List.getElem_mem _)).1 l hl)
    · rw [kr, pr, he, zip_drop]
    · rw [kr]; exact List.Pairwise.sublist (List.drop_sublist _ _) hso
    · intro k hk'
      rw [kr] at hk'
      refine ⟨fun x hx => ?_, (hb k (List.mem_of_mem_drop hk')).2⟩
      cases hx
      obtain ⟨i, hi, rfl⟩ := List.mem_iff_getElem.1 hk'
      rw [List.getElem_drop]
      rw [List.length_drop] at hi
      by_cases h0 : i = 0
      · subst h0; exact KeyLe.refl _
      · exact (hpw mid (mid + i) (by omega) (by omega) (by omega)).le
    · intro l hl
      cases hl
      rw [kr]
      exact List.mem_iff_getElem.2 ⟨0, by simp; omega, by rw [List.getElem_drop]; rfl⟩
  | false =>
    obtain ⟨hs, hkids⟩ := h.2.1 rfl
    obtain ⟨h2, s1, s2⟩ := internal_split_sizes hs hk hv hbig hsz
    have hleaf := hs.isLeaf
    generalize hm : n.keys.length / 2 = mid at *
    have hlen := hs.1
    obtain ⟨es1, es2, qs1, qs2, c1, c2, c3, c4⟩ := hkids.cut mid hmid
    have kl : (leftHalf n mid).keys = n.keys.take mid := by unfold leftHalf; rw [if_neg (by simp [hleaf])]
    have pl : (leftHalf n mid).intPtrs = n.intPtrs.take (mid + 1) := by
      unfold leftHalf; rw [if_neg (by simp [hleaf])]
    have il : (leftHalf n mid).leafPtrs = [] := by unfold leftHalf; rw [if_neg (by simp [hleaf])]; exact hs.2
    have kr : (rightHalf n mid).keys = n.keys.drop (mid + 1) := by unfold rightHalf; rw [if_neg (by simp [hleaf])]
    have pr : (rightHalf n mid).intPtrs = n.intPtrs.drop (mid + 1) := by
      unfold rightHalf; rw [if_neg (by simp [hleaf])]
    have ir : (rightHalf n mid).leafPtrs = [] := by unfold rightHalf; rw [if_neg (by simp [hleaf])]
    have shl : InternalShape (leftHalf n mid) := ⟨by rw [kl, pl]; simp; omega, il⟩
    have shr : InternalShape (rightHalf n mid) := ⟨by rw [kr, pr]; simp; omega, ir⟩
    have hkl : ∀ k ∈ (leftHalf n mid).keys, KeyOK cfg k := by
      rw [kl]; exact fun k hh => hk k (List.mem_of_mem_take hh)
    have hkr : ∀ k ∈ (rightHalf n mid).keys, KeyOK cfg k := by
      rw [kr]; exact fun k hh => hk k (List.mem_of_mem_drop hh)
    refine ⟨es1, es2, qs1, qs2, c1, c2, ⟨by simp, fun _ => ⟨shl, ?_⟩, hkl⟩, ⟨by simp, fun _ => ⟨shr, ?_⟩, hkr⟩,
      nodeOK_of_size (by rw [kl]; simp; omega) (.inr shl) hkl s1,
      nodeOK_of_size (by rw [kr]; simp; omega) (.inr shr) hkr s2, s1, s2⟩
    · rw [kl, pl]; exact c3
    · rw [kr, pr]; exact c4

end Appendable
