import Verif.Lemmas.VecRep
/-! Sizes of nodes of the vector tree and of the halves of a split. -/
namespace Appendable.V
open Spec VTree

theorem idSize_bounds (k : RefId) : 3 ≤ VNode.idSize k ∧ VNode.idSize k ≤ 25 := by
  have h1 := sizeVarint_pos k.dp.length.toUInt64
  have h2 := sizeVarint_le32 k.dp.length
  have h3 := sizeVarint_pos k.dp.offset
  have h4 := sizeVarint_le k.dp.offset
  have h5 := sizeVarint_pos k.value
  have h6 := sizeVarint_le k.value
  unfold VNode.idSize; omega

theorem offSize_bounds (p : UInt64) : 1 ≤ sizeVarint p ∧ sizeVarint p ≤ 10 := ⟨sizeVarint_pos p, sizeVarint_le p⟩

/-- Bytes of one vector. -/
def vbytes (d : UInt64) : Nat := 4 * d.toNat

theorem vbytes_pos {d : UInt64} (h : d ≠ 0) : 4 ≤ vbytes d := by
  unfold vbytes
  have : d.toNat ≠ 0 := fun hc => h (UInt64.toNat_inj.1 (by simpa using hc))
  omega

theorem ok_of_size {n : VNode} (h0 : 0 < n.ids.length) (hs : n.offsets = [] ∨ n.offsets.length = n.ids.length + 1)
    (hd : n.dim ≠ 0) (hD : n.Dims) (hsz : n.size ≤ pageSize) : n.Ok := by
  refine ⟨h0, ?_, hd, hD, hs⟩
  have := sum_ge VNode.idSize 1 n.ids (fun k h => by have := (idSize_bounds k).1; omega)
  unfold VNode.size pageSize at *
  omega

theorem Dims.take {n : VNode} (h : n.Dims) (m : Nat) (offs : List UInt64) :
    (⟨n.ids.take m, n.vectors.take m, offs, n.dim⟩ : VNode).Dims :=
  ⟨by simp [h.1], fun v hv => h.2 v (List.mem_of_mem_take hv)⟩

theorem Dims.drop {n : VNode} (h : n.Dims) (m : Nat) (offs : List UInt64) :
    (⟨n.ids.drop m, n.vectors.drop m, offs, n.dim⟩ : VNode).Dims :=
  ⟨by simp [h.1], fun v hv => h.2 v (List.mem_of_mem_drop hv)⟩

/-- The halves of a leaf. -/
theorem leaf_halves {t : VTree} {n : VNode} (hl : n.offsets = []) (hd : n.dim = t.dim) (m : Nat) :
    leftHalf n m = ⟨n.ids.take m, n.vectors.take m, [], n.dim⟩ ∧
      t.rightHalf n m = ⟨n.ids.drop m, n.vectors.drop m, [], n.dim⟩ := by
  have h : n.leaf = true := by unfold VNode.leaf; simp [hl]
  unfold leftHalf rightHalf
  rw [if_pos h, if_pos h, hd, hl]; exact ⟨rfl, rfl⟩

/-- The halves of an internal node. -/
theorem internal_halves {t : VTree} {n : VNode} (hl : n.offsets.length = n.ids.length + 1) (hd : n.dim = t.dim) (m : Nat) :
    leftHalf n m = ⟨n.ids.take m, n.vectors.take m, n.offsets.take (m + 1), n.dim⟩ ∧
      t.rightHalf n m = ⟨n.ids.drop (m + 1), n.vectors.drop (m + 1), n.offsets.drop (m + 1), n.dim⟩ := by
  have h : ¬ n.leaf = true := by unfold VNode.leaf; simp; intro hc; rw [hc] at hl; simp at hl
  unfold leftHalf rightHalf
  rw [if_neg h, if_neg h, hd]; exact ⟨rfl, rfl⟩

theorem nd_le {N c D : Nat} (h : N ≤ c) : N * D ≤ c * D := Nat.mul_le_mul_right D h

/-- A leaf that overflows by one entry splits into two leaves that fit. -/
theorem leaf_split_sizes {n : VNode} (hl : n.offsets = []) (hD : n.Dims) (h0 : n.dim ≠ 0)
    (hv : vbytes n.dim ≤ 2000 ∨ (vbytes n.dim ≤ 4000 ∧ n.ids.length ≤ 2)) (hbig : pageSize < n.size)
    (hsz : n.size ≤ pageSize + vbytes n.dim + 35) :
    2 ≤ n.ids.length ∧
      (⟨n.ids.take (n.ids.length / 2), n.vectors.take (n.ids.length / 2), [], n.dim⟩ : VNode).size ≤ pageSize ∧
      (⟨n.ids.drop (n.ids.length / 2), n.vectors.drop (n.ids.length / 2), [], n.dim⟩ : VNode).size ≤ pageSize := by
  have hdp := vbytes_pos h0
  have hlen := hD.1
  have hdim := offSize_bounds n.dim
  have e1 : n.size = 4 + (n.ids.map VNode.idSize).sum + sizeVarint n.dim + n.ids.length * vbytes n.dim := by
    unfold VNode.size; rw [hl, hlen]; simp [vbytes]
  have u : ∀ c, n.ids.length ≤ c → (n.ids.map VNode.idSize).sum ≤ c * 25 ∧ n.ids.length * vbytes n.dim ≤ c * vbytes n.dim :=
    fun c hc => ⟨sum_le' _ _ _ _ (fun k _ => (idSize_bounds k).2) hc, nd_le hc⟩
  have h2 : 2 ≤ n.ids.length := by
    by_cases h : n.ids.length ≤ 1
    · have := u 1 h
      unfold pageSize at *; omega
    · omega
  generalize hm : n.ids.length / 2 = mid
  have eK := sum_take_drop VNode.idSize n.ids mid
  have lK : (n.ids.take mid).length = mid := by simp; omega
  have rK : (n.ids.drop mid).length = n.ids.length - mid := by simp
  have lV : (n.vectors.take mid).length = mid := by simp; omega
  have rV : (n.vectors.drop mid).length = n.ids.length - mid := by simp; omega
  have eN : n.ids.length * vbytes n.dim = mid * vbytes n.dim + (n.ids.length - mid) * vbytes n.dim := by
    rw [← Nat.add_mul]; congr 1; omega
  have sl : (⟨n.ids.take mid, n.vectors.take mid, [], n.dim⟩ : VNode).size = 4 + ((n.ids.take mid).map VNode.idSize).sum
      + sizeVarint n.dim + mid * vbytes n.dim := by
    unfold VNode.size vbytes; simp only [lV, List.map_nil, List.sum_nil]; omega
  have sr : (⟨n.ids.drop mid, n.vectors.drop mid, [], n.dim⟩ : VNode).size = 4 + ((n.ids.drop mid).map VNode.idSize).sum
      + sizeVarint n.dim + (n.ids.length - mid) * vbytes n.dim := by
    unfold VNode.size vbytes; simp only [rV, List.map_nil, List.sum_nil]; omega
  have up : ∀ (l : List RefId) c, l.length ≤ c → (l.map VNode.idSize).sum ≤ c * 25 :=
    fun l c hc => sum_le' _ _ _ _ (fun k _ => (idSize_bounds k).2) hc
  have lw : ∀ (l : List RefId) c, c ≤ l.length → c * 3 ≤ (l.map VNode.idSize).sum :=
    fun l c hc => sum_ge' _ _ _ _ (fun k _ => (idSize_bounds k).1) hc
  refine ⟨h2, ?_, ?_⟩
  · rw [sl]
    by_cases h3 : n.ids.length ≤ 3
    · have a := up (n.ids.take mid) 1 (by omega)
      have b := nd_le (D := vbytes n.dim) (show mid ≤ 1 by omega)
      unfold pageSize at *; omega
    · by_cases h16 : n.ids.length < 16
      · have a := lw (n.ids.drop mid) 2 (by omega)
        have b := nd_le (D := vbytes n.dim) (show 2 ≤ n.ids.length - mid by omega)
        have := u 15 (by omega)
        unfold pageSize at *; omega
      · have a := lw (n.ids.drop mid) 8 (by omega)
        have b := nd_le (D := vbytes n.dim) (show 8 ≤ n.ids.length - mid by omega)
        unfold pageSize at *; omega
  · rw [sr]
    by_cases h22 : n.ids.length ≤ 2
    · have a := up (n.ids.drop mid) 1 (by omega)
      have b := nd_le (D := vbytes n.dim) (show n.ids.length - mid ≤ 1 by omega)
      unfold pageSize at *; omega
    by_cases h3 : n.ids.length ≤ 3
    · have a := up (n.ids.drop mid) 2 (by omega)
      have b := nd_le (D := vbytes n.dim) (show n.ids.length - mid ≤ 2 by omega)
      unfold pageSize at *; omega
    · by_cases h16 : n.ids.length < 16
      · have a := lw (n.ids.take mid) 2 (by omega)
        have b := nd_le (D := vbytes n.dim) (show 2 ≤ mid by omega)
        have := u 15 (by omega)
        unfold pageSize at *; omega
      · have a := lw (n.ids.take mid) 8 (by omega)
        have b := nd_le (D := vbytes n.dim) (show 8 ≤ mid by omega)
        unfold pageSize at *; omega

/-- The same for an internal node that overflows by one key and one child. -/
theorem internal_split_sizes {n : VNode} (hl : n.offsets.length = n.ids.length + 1) (hD : n.Dims) (h0 : n.dim ≠ 0)
    (hv : vbytes n.dim ≤ 2000) (hbig : pageSize < n.size) (hsz : n.size ≤ pageSize + vbytes n.dim + 35) :
    3 ≤ n.ids.length ∧
      (⟨n.ids.take (n.ids.length / 2), n.vectors.take (n.ids.length / 2), n.offsets.take (n.ids.length / 2 + 1), n.dim⟩ : VNode).size ≤ pageSize ∧
      (⟨n.ids.drop (n.ids.length / 2 + 1), n.vectors.drop (n.ids.length / 2 + 1), n.offsets.drop (n.ids.length / 2 + 1), n.dim⟩ : VNode).size
        ≤ pageSize := by
  have hdp := vbytes_pos h0
  have hlen := hD.1
  have hdim := offSize_bounds n.dim
  have e1 : n.size = 4 + (n.ids.map VNode.idSize).sum + (n.offsets.map sizeVarint).sum + sizeVarint n.dim
      + n.ids.length * vbytes n.dim := by
    unfold VNode.size; rw [hlen]; simp [vbytes]
  have up : ∀ (l : List RefId) c, l.length ≤ c → (l.map VNode.idSize).sum ≤ c * 25 :=
    fun l c hc => sum_le' _ _ _ _ (fun k _ => (idSize_bounds k).2) hc
  have lw : ∀ (l : List RefId) c, c ≤ l.length → c * 3 ≤ (l.map VNode.idSize).sum :=
    fun l c hc => sum_ge' _ _ _ _ (fun k _ => (idSize_bounds k).1) hc
  have upo : ∀ (l : List UInt64) c, l.length ≤ c → (l.map sizeVarint).sum ≤ c * 10 :=
    fun l c hc => sum_le' _ _ _ _ (fun k _ => (offSize_bounds k).2) hc
  have u : ∀ c, n.ids.length ≤ c → (n.ids.map VNode.idSize).sum ≤ c * 25 ∧ (n.offsets.map sizeVarint).sum ≤ (c + 1) * 10 ∧
      n.ids.length * vbytes n.dim ≤ c * vbytes n.dim :=
    fun c hc => ⟨up _ _ hc, upo _ _ (by omega), nd_le hc⟩
  have h2 : 3 ≤ n.ids.length := by
    by_cases h : n.ids.length ≤ 2
    · have := u 2 h
      unfold pageSize at *; omega
    · omega
  generalize hm : n.ids.length / 2 = mid
  have eK := sum_take_drop VNode.idSize n.ids mid
  have eO := sum_take_drop sizeVarint n.offsets (mid + 1)
  have eD : ((n.ids.drop mid).map VNode.idSize).sum
      = VNode.idSize (n.ids[mid]'(by omega)) + ((n.ids.drop (mid + 1)).map VNode.idSize).sum := by
    rw [List.drop_eq_getElem_cons (by omega), List.map_cons, List.sum_cons]
  have hmk := idSize_bounds (n.ids[mid]'(by omega))
  have lK : (n.ids.take mid).length = mid := by simp; omega
  have rK : (n.ids.drop (mid + 1)).length = n.ids.length - (mid + 1) := by simp
  have lV : (n.vectors.take mid).length = mid := by simp; omega
  have rV : (n.vectors.drop (mid + 1)).length = n.ids.length - (mid + 1) := by simp; omega
  have lO : (n.offsets.take (mid + 1)).length = mid + 1 := by simp; omega
  have rO : (n.offsets.drop (mid + 1)).length = n.ids.length - mid := by simp; omega
  have eN : n.ids.length * vbytes n.dim = mid * vbytes n.dim + vbytes n.dim + (n.ids.length - (mid + 1)) * vbytes n.dim := by
    rw [← Nat.succ_mul, ← Nat.add_mul]; congr 1; omega
  have sl : (⟨n.ids.take mid, n.vectors.take mid, n.offsets.take (mid + 1), n.dim⟩ : VNode).size
      = 4 + ((n.ids.take mid).map VNode.idSize).sum + ((n.offsets.take (mid + 1)).map sizeVarint).sum
      + sizeVarint n.dim + mid * vbytes n.dim := by
    unfold VNode.size vbytes; simp only [lV]
  have sr : (⟨n.ids.drop (mid + 1), n.vectors.drop (mid + 1), n.offsets.drop (mid + 1), n.dim⟩ : VNode).size
      = 4 + ((n.ids.drop (mid + 1)).map VNode.idSize).sum + ((n.offsets.drop (mid + 1)).map sizeVarint).sum
      + sizeVarint n.dim + (n.ids.length - (mid + 1)) * vbytes n.dim := by
    unfold VNode.size vbytes; simp only [rV]
  refine ⟨h2, ?_, ?_⟩
  · rw [sl]
    by_cases h3 : n.ids.length ≤ 4
    · have a := up (n.ids.take mid) 2 (by omega)
      have a' := upo (n.offsets.take (mid + 1)) 3 (by omega)
      have b := nd_le (D := vbytes n.dim) (show mid ≤ 2 by omega)
      unfold pageSize at *; omega
    · by_cases h16 : n.ids.length < 24
      · have a := lw (n.ids.drop (mid + 1)) 2 (by omega)
        have b := nd_le (D := vbytes n.dim) (show 2 ≤ n.ids.length - (mid + 1) by omega)
        have := u 23 (by omega)
        unfold pageSize at *; omega
      · have a := lw (n.ids.drop (mid + 1)) 11 (by omega)
        have b := nd_le (D := vbytes n.dim) (show 11 ≤ n.ids.length - (mid + 1) by omega)
        unfold pageSize at *; omega
  · rw [sr]
    by_cases h3 : n.ids.length ≤ 4
    · have a := up (n.ids.drop (mid + 1)) 1 (by omega)
      have a' := upo (n.offsets.drop (mid + 1)) 2 (by omega)
      have b := nd_le (D := vbytes n.dim) (show n.ids.length - (mid + 1) ≤ 1 by omega)
      unfold pageSize at *; omega
    · by_cases h16 : n.ids.length < 24
      · have a := lw (n.ids.take mid) 2 (by omega)
        have b := nd_le (D := vbytes n.dim) (show 2 ≤ mid by omega)
        have := u 23 (by omega)
        unfold pageSize at *; omega
      · have a := lw (n.ids.take mid) 11 (by omega)
        have b := nd_le (D := vbytes n.dim) (show 11 ≤ mid by omega)
        unfold pageSize at *; omega

/-- A node that has just overflowed splits into two well-formed nodes with the entries in order. -/
theorem MemRep.split {t : VTree} {R leaf n lo hi es qs} (h : MemRep t.dim R leaf n lo hi es qs)
    (hd : t.dim ≠ 0) (h0 : 0 < n.ids.length)
    (hv : vbytes t.dim ≤ 2000 ∨ (leaf = true ∧ vbytes t.dim ≤ 4000 ∧ n.ids.length ≤ 2))
    (hbig : pageSize < n.size) (hsz : n.size ≤ pageSize + vbytes t.dim + 35) :
    ∃ (hm : n.ids.length / 2 < n.ids.length) (es1 es2 : List VEntry) (qs1 qs2 : List Nat),
      es = es1 ++ es2 ∧ qs = qs1 ++ qs2 ∧
      MemRep t.dim R leaf (leftHalf n (n.ids.length / 2)) lo (some (idKey n.ids[n.ids.length / 2])) es1 qs1 ∧
      MemRep t.dim R leaf (t.rightHalf n (n.ids.length / 2)) (some (idKey n.ids[n.ids.length / 2])) hi es2 qs2 ∧
      (leftHalf n (n.ids.length / 2)).Ok ∧ (t.rightHalf n (n.ids.length / 2)).Ok ∧
      (leftHalf n (n.ids.length / 2)).size ≤ pageSize ∧ (t.rightHalf n (n.ids.length / 2)).size ≤ pageSize := by
  have hmid : n.ids.length / 2 < n.ids.length := by omega
  refine ⟨hmid, ?_⟩
  have hdim := h.2.2.1
  have hD := h.2.2.2
  have hd' : n.dim ≠ 0 := hdim ▸ hd
  cases leaf with
  | true =>
    obtain ⟨ho, hst, hq, hso, hb⟩ := h.1 rfl
    obtain ⟨h2, s1, s2⟩ := leaf_split_sizes ho hD hd' (by rw [hdim]; exact hv.imp id (fun h => h.2)) hbig (by rw [hdim]; exact hsz)
    obtain ⟨el, er⟩ := leaf_halves (t := t) ho hdim (n.ids.length / 2)
    rw [el, er]
    generalize hm : n.ids.length / 2 = mid at *
    have hpw := List.pairwise_iff_getElem.1 hso
    refine ⟨es.take mid, es.drop mid, [], [], (List.take_append_drop _ _).symm, hq,
      ⟨fun _ => ⟨rfl, hst.take mid, rfl, ?_, ?_⟩, by simp, hdim, Dims.take hD _ _⟩,
      ⟨fun _ => ⟨rfl, hst.drop mid, rfl, ?_, ?_⟩, by simp, hdim, Dims.drop hD _ _⟩,
      ok_of_size (by simp; omega) (.inl rfl) hd' (Dims.take hD _ _) s1,
      ok_of_size (by simp; omega) (.inl rfl) hd' (Dims.drop hD _ _) s2, s1, s2⟩
    · simp only [List.map_take]; exact List.Pairwise.sublist (List.take_sublist _ _) hso
    · intro k hk'
      refine ⟨(hb k (List.mem_of_mem_take hk')).1, fun x hx => ?_⟩
      cases hx
      obtain ⟨i, hi, rfl⟩ := List.mem_iff_getElem.1 hk'
      simp only [List.length_take] at hi
      have := hpw i mid (by simp; omega) (by simp; omega) (by omega)
      simpa using this
    · simp only [List.map_drop]; exact List.Pairwise.sublist (List.drop_sublist _ _) hso
    · intro k hk'
      refine ⟨fun x hx => ?_, (hb k (List.mem_of_mem_drop hk')).2⟩
      cases hx
      obtain ⟨i, hi, rfl⟩ := List.mem_iff_getElem.1 hk'
      simp only [List.length_drop] at hi
      by_cases h0 : i = 0
      · subst h0; simp
      · have := hpw mid (mid + i) (by simp; omega) (by simp; omega) (by omega)
        simp only [List.getElem_map] at this
        simp only [List.getElem_drop]
        omega
  | false =>
    have hkids := h.2.1 rfl
    have ho : n.offsets.length = n.ids.length + 1 := by have := hkids.length; simpa using this
    have hv' : vbytes t.dim ≤ 2000 := by rcases hv with h | h; exact h; simp at h
    obtain ⟨h2, s1, s2⟩ := internal_split_sizes ho hD hd' (by rw [hdim]; exact hv') hbig (by rw [hdim]; exact hsz)
    obtain ⟨el, er⟩ := internal_halves (t := t) ho hdim (n.ids.length / 2)
    rw [el, er]
    generalize hm : n.ids.length / 2 = mid at *
    obtain ⟨es1, es2, qs1, qs2, c1, c2, c3, c4⟩ := hkids.cut mid (by simpa using hmid)
    simp only [List.getElem_map] at c3 c4
    refine ⟨es1, es2, qs1, qs2, c1, c2, ⟨by simp, fun _ => ?_, hdim, Dims.take hD _ _⟩, ⟨by simp, fun _ => ?_, hdim, Dims.drop hD _ _⟩,
      ok_of_size (by simp; omega) (.inr (by simp; omega)) hd' (Dims.take hD _ _) s1,
      ok_of_size (by simp; omega) (.inr (by simp; omega)) hd' (Dims.drop hD _ _) s2, s1, s2⟩
    · simp only [List.map_take]; exact c3
    · simp only [List.map_drop]; exact c4

end Appendable.V
