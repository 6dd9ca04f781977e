import Verif.Spec.Size
import Verif.Lemmas.IndexApi
/-! Numbers of pages. -/
namespace Appendable
open Spec Tree

theorem minKeys_eq (cfg : Cfg) : minKeys cfg = halfPage cfg.width := by
  unfold minKeys halfPage vlen
  by_cases h : cfg.width = 0
  · rw [if_pos h, if_pos h]
  · rw [if_neg h, if_neg h]
    have : 0 < cfg.width.toNat := by
      rcases Nat.eq_zero_or_pos cfg.width.toNat with h0 | h0
      · exact absurd (UInt16.toNat.inj (by simpa using h0)) h
      · exact h0
    rw [UInt16.toNat_sub_of_le _ _ (by rw [UInt16.le_iff_toNat_le]; exact this)]
    rfl

/-- What a dense tree needs. -/
structure Counts (m h : Nat) (es : List Entry) (ps : List Nat) (k : Nat) : Prop where
  pages : ∃ L, L * m ≤ es.length ∧ ps.length * m + k ≤ L * (m + 1)
  ents : k * (m * (m + 1) ^ h) ≤ es.length

theorem Kids.counts {cfg : Cfg} {B : Bytes} {m h : Nat}
    (ih : ∀ o lo hi es ps, Rep cfg B h o lo hi es ps → Dense m cfg B h o → Counts m h es ps 1)
    {lo ks ptrs hi es qs} (hk : Kids (Rep cfg B h) lo ks ptrs hi es qs) (hd : ∀ o ∈ ptrs, Dense m cfg B h o) :
    Counts m h es qs (ks.length + 1) := by
  induction hk with
  | one h => exact ih _ _ _ _ _ h (hd _ (by simp))
  | cons h t ih2 =>
    obtain ⟨⟨L1, a1, a2⟩, a3⟩ := ih _ _ _ _ _ h (hd _ (by simp))
    obtain ⟨⟨L2, b1, b2⟩, b3⟩ := ih2 (fun o ho => hd o (by simp [ho]))
    refine ⟨⟨L1 + L2, ?_, ?_⟩, ?_⟩
    · rw [List.length_append, Nat.add_mul]; omega
    · rw [List.length_append, List.length_cons, Nat.add_mul, Nat.add_mul]; omega
    · rw [List.length_append, List.length_cons, Nat.add_mul]; omega

theorem Rep.counts {cfg : Cfg} {B : Bytes} {m h : Nat} {off : UInt64} {lo hi es ps} (hr : Rep cfg B h off lo hi es ps)
    (hd : Dense m cfg B h off) : Counts m h es ps 1 := by
  induction h generalizing off lo hi es ps with
  | zero =>
    obtain ⟨n, h1, h2⟩ := hd
    obtain ⟨n', qs, hn', rfl, hm⟩ := hr
    cases h1.unique hn'
    obtain ⟨hs, rfl, rfl, _⟩ := hm.1 rfl
    have hl : (n.keys.zip n.leafPtrs).length = n.keys.length := by rw [List.length_zip, hs.1]; omega
    refine ⟨⟨1, by omega, by simp⟩, by rw [hl]; simpa using h2⟩
  | succ h ih =>
    obtain ⟨n, h1, h2, h3⟩ := hd
    obtain ⟨n', qs, hn', rfl, hm⟩ := hr
    cases h1.unique hn'
    obtain ⟨⟨L, a1, a2⟩, a3⟩ := (hm.2.1 rfl).2.counts (fun _ _ _ _ _ => ih) h3
    refine ⟨⟨L, a1, ?_⟩, ?_⟩
    · rw [List.length_cons, Nat.add_mul]; omega
    · refine Nat.le_trans ?_ a3
      rw [Nat.one_mul, Nat.pow_succ, ← Nat.mul_assoc, Nat.mul_comm]
      exact Nat.mul_le_mul_right _ (by omega)

/-- The height of a tree. -/
theorem Rep.fanout {cfg : Cfg} {B : Bytes} {m h : Nat} {off : UInt64} {lo hi es ps} (hr : Rep cfg B (h + 1) off lo hi es ps)
    (hd : DenseBelow m cfg B (h + 1) off) : 2 * (m * (m + 1) ^ h) ≤ es.length := by
  obtain ⟨n, h1, h3⟩ := hd
  obtain ⟨n', qs, hn', rfl, hm⟩ := hr
  cases h1.unique hn'
  have hc := ((hm.2.1 rfl).2.counts (fun _ _ _ _ _ hr hd => hr.counts hd) h3).ents
  refine Nat.le_trans (Nat.mul_le_mul_right _ ?_) hc
  have := h1.ok.1
  omega

/-- The number of its pages. -/
theorem Rep.space {cfg : Cfg} {B : Bytes} {m h : Nat} {off : UInt64} {lo hi es ps} (hm0 : 0 < m) (hr : Rep cfg B h off lo hi es ps)
    (hd : DenseBelow m cfg B h off) : ps.length ≤ 1 + es.length * (m + 1) / (m * m) := by
  have hmm : 0 < m * m := Nat.mul_pos hm0 hm0
  cases h with
  | zero =>
    obtain ⟨n', qs, hn', rfl, hm⟩ := hr
    obtain ⟨hs, rfl, rfl, _⟩ := hm.1 rfl
    simp
  | succ h =>
    obtain ⟨n, h1, h3⟩ := hd
    obtain ⟨n', qs, hn', rfl, hm⟩ := hr
    cases h1.unique hn'
    obtain ⟨L, a1, a2⟩ := ((hm.2.1 rfl).2.counts (fun _ _ _ _ _ hr hd => hr.counts hd) h3).pages
    rw [List.length_cons, Nat.add_comm]
    refine Nat.add_le_add_left ((Nat.le_div_iff_mul_le hmm).2 ?_) 1
    have b1 : qs.length * m * m ≤ L * (m + 1) * m := Nat.mul_le_mul_right _ (by omega)
    have b2 : L * m * (m + 1) ≤ es.length * (m + 1) := Nat.mul_le_mul_right _ a1
    rw [← Nat.mul_assoc]
    have : L * (m + 1) * m = L * m * (m + 1) := Nat.mul_right_comm _ _ _
    omega

theorem halfPage_pos {w : UInt16} (h : w.toNat ≤ 2012) : 0 < halfPage w := by
  unfold halfPage
  have h2 : 2 ≤ 4082 / ((if w = 0 then 0 else w.toNat - 1) + 30) := by
    rw [Nat.le_div_iff_mul_le (by omega)]
    split <;> omega
  omega

theorem TreeIs.space {t : Tree} {s : PF} {free : List Nat} {es : List Entry} {ps : List Nat} (h : TreeIs t s free es ps)
    (hw : t.cfg.width.toNat ≤ 2012) : ps.length ≤ treePages t.cfg.width es.length := by
  unfold treePages
  rcases h.root with ⟨_, _, rfl⟩ | ⟨_, k, hr, _, hd⟩
  · simp
  · rw [minKeys_eq] at hd
    exact hr.space (halfPage_pos hw) hd

/-- Every page of a file is among the given ones. -/
theorem file_pages {B : Bytes} {xs : List Nat} (ha : B.length % pageSize = 0)
    (h : ∀ x, x % pageSize = 0 → x < B.length → x ∈ xs) : B.length ≤ pageSize * xs.length := by
  have h1 : ((List.range (B.length / pageSize)).map (fun i => i * pageSize)).Nodup := by
    rw [List.Nodup, List.pairwise_map]
    refine List.nodup_range.imp ?_
    intro a b hab hc
    unfold pageSize at hc; omega
  have h2 := List.Nodup.length_le_of_subset h1 (l₂ := xs) (by
    intro x hx
    obtain ⟨i, hi, rfl⟩ := List.mem_map.1 hx
    rw [List.mem_range] at hi
    exact h _ (by simp) (by unfold pageSize at *; omega))
  rw [List.length_map, List.length_range] at h2
  unfold pageSize at *; omega

theorem places_length {ps : List Nat} {c : Nat} (h : ps ≠ []) : (places ps c).length = 15 * (ps.length - 1) + c := by
  induction ps with
  | nil => exact absurd rfl h
  | cons p r ih =>
    cases r with
    | nil => simp [places]
    | cons q r =>
      simp only [places, List.length_append, List.length_map, List.length_range', ih (by simp), List.length_cons]
      omega

/-- The size of an index file. -/
theorem IdxInv.space {data parse wd s fm ms c free ps cnt E P} (h : IdxInv True data parse wd s fm ms c free ps cnt E P)
    (hw : ∀ m ∈ ms, (wd m).toNat ≤ 2012) :
    s.file.bytes.length ≤ pageSize * (2 + ms.length / 15 + (ms.mapIdx fun k m => treePages (wd m) (c k).length).sum) := by
  have hlen := h.len
  have hi := h.slots.inv
  have hpl := places_length (c := cnt) hi.ne
  have hu := h.used trivial
  obtain ⟨rfl, hu⟩ := hu
  have hp : ∀ k m, ms[k]? = some m → (P k).length ≤ treePages (wd m) (c k).length := by
    intro k m hm
    have hk := (List.getElem?_eq_some_iff.1 hm).1
    obtain ⟨x, hx⟩ : ∃ x, (places ps cnt).tail[k]? = some x := ⟨_, List.getElem?_eq_getElem (by rw [List.length_tail]; omega)⟩
    obtain ⟨t1, _, t3⟩ := h.forest.tree k _ (idxTrees_of hx hm)
    have := t1.space (hw m (List.mem_of_getElem? hm))
    rw [t3.length_eq] at this
    exact this
  have h1 := file_pages (xs := 0 :: (ps ++ ((List.range ms.length).map P).flatten)) h.slots.valid.aligned (fun x hx1 hx2 => by
    by_cases h0 : x = 0
    · simp [h0]
    · rcases hu x ⟨hx1, by unfold pageSize at *; omega, hx2, by simp⟩ with hx | ⟨i, hi, hx⟩
      · simp [hx]
      · refine List.mem_cons_of_mem _ (List.mem_append_right _ (List.mem_flatten.2 ⟨P i, List.mem_map.2 ⟨i, by simpa using hi, rfl⟩, hx⟩)))
  refine Nat.le_trans h1 (Nat.mul_le_mul_left _ ?_)
  rw [List.length_cons, List.length_append, List.length_flatten, List.map_map]
  have h2 : ((List.range ms.length).map (List.length ∘ P)).sum ≤ (ms.mapIdx fun k m => treePages (wd m) (c k).length).sum := by
    clear h1 hpl hu hi hlen h
    suffices ∀ (l : List IndexMeta) (o : Nat), (∀ k m, l[k]? = some m → (P (o + k)).length ≤ treePages (wd m) (c (o + k)).length) →
        ((List.range l.length).map (fun k => (P (o + k)).length)).sum ≤ (l.mapIdx fun k m => treePages (wd m) (c (o + k)).length).sum by
      have := this ms 0 (by simpa using hp)
      simpa [Function.comp_def] using this
    intro l
    induction l with
    | nil => intro o _; simp
    | cons a l ih =>
      intro o ho
      have i1 := ho 0 a rfl
      have i2 := ih (o + 1) (fun k m hm => by have := ho (k + 1) m (by simpa using hm); rw [show o + 1 + k = o + (k + 1) by omega]; exact this)
      rw [List.length_cons, List.range_succ_eq_map, List.map_cons, List.sum_cons, List.mapIdx_cons, List.sum_cons, List.map_map]
      simp only [Function.comp_def, show ∀ k, o + 1 + k = o + (k + 1) from fun k => by omega, Nat.succ_eq_add_one] at i2 ⊢
      omega
  have h3 : ps.length ≤ 1 + ms.length / 15 := by
    have := hi.cpos
    omega
  omega

end Appendable
