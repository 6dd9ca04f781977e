import Verif.Lemmas.SlotList
/-! The invariant of the meta pages and what the slot operations do to it. -/
namespace Appendable
open Spec Tree

/-- The slot `x` holds the metadata `d`. -/
def MdAt (B : Bytes) (x : Nat × Nat) (d : Bytes) : Prop :=
  slice B (slotPos x.1 x.2 + 12) (d.length + 1) = UInt8.ofNat d.length :: d

/-- The meta pages `ps`, of which the last has `c` slots in use, hold the metadata `ds`. -/
structure MetaInv (B : Bytes) (ps : List Nat) (c : Nat) (ds : List Bytes) : Prop where
  pages : PagesIn B ps
  nodup : ps.Nodup
  first : ∃ r, ps = pageSize :: r
  cle : c ≤ 15
  cpos : 1 < ps.length → 1 ≤ c
  chain : ChainIs B ps c
  len : ds.length = (places ps c).length
  md : ∀ (k : Nat) (x : Nat × Nat) (d : Bytes), (places ps c)[k]? = some x → ds[k]? = some d → d.length ≤ 252 ∧ MdAt B x d
  zero : slice B (slotPos (lastPg ps) c) (4087 - 265 * c) = List.replicate (4087 - 265 * c) 0

theorem MetaInv.ne {B ps c ds} (h : MetaInv B ps c ds) : ps ≠ [] := by
  obtain ⟨r, hr⟩ := h.first; rw [hr]; simp

theorem slice_ext {B B' : Bytes} {p n : Nat} (h : ∀ i, i < n → B'[p + i]? = B[p + i]?) : slice B' p n = slice B p n := by
  apply List.ext_getElem?
  intro i
  simp only [slice_getElem?]
  by_cases hi : i < n
  · rw [if_pos hi, if_pos hi, h i hi]
  · rw [if_neg hi, if_neg hi]

/-- The meta pages do not depend on the root pointers in the slots in use, nor on other pages. -/
theorem MetaInv.frame {B B' ps c ds} (h : MetaInv B ps c ds) (hlen : B.length ≤ B'.length) (hsm : B'.length < 2 ^ 63)
    (hsame : ∀ p ∈ ps, ∀ j, j < pageSize → (∀ i, (p, i) ∈ places ps c → ¬ (slotPos p i ≤ p + j ∧ p + j < slotPos p i + 12)) →
      B'[p + j]? = B[p + j]?) : MetaInv B' ps c ds := by
  refine ⟨⟨fun p hp => ?_, hsm⟩, h.nodup, h.first, h.cle, h.cpos, ?_, h.len, ?_, ?_⟩
  · obtain ⟨h1, h2, h3⟩ := h.pages.page p hp; exact ⟨h1, h2, by omega⟩
  · refine h.chain.of_same (fun p hp => slice_ext (fun i hi => hsame p hp i (by unfold pageSize; omega) ?_))
    intro j _; unfold slotPos; omega
  · intro k x d hx hd
    obtain ⟨h1, h2⟩ := h.md k x d hx hd
    refine ⟨h1, ?_⟩
    unfold MdAt at *
    rw [← h2]
    obtain ⟨p, i⟩ := x
    have hm := List.mem_of_getElem? hx
    obtain ⟨m1, m2, _⟩ := places_mem hm h.cle
    refine slice_ext (fun j hj => ?_)
    have := hsame p m1 (9 + i * 265 + 12 + j) (by unfold pageSize; omega) (by
      intro i' hi'
      have := (places_mem hi' h.cle).2.1
      unfold slotPos; omega)
    unfold slotPos
    simp only
    rw [show p + 9 + i * 265 + 12 + j = p + (9 + i * 265 + 12 + j) by omega]
    exact this
  · rw [← h.zero]
    refine slice_ext (fun j hj => ?_)
    have := hsame (lastPg ps) (lastPg_mem h.ne) (9 + c * 265 + j) (by unfold pageSize; omega) (by
      intro i' hi'
      have := (places_mem hi' h.cle).2.2 h.nodup rfl
      unfold slotPos; omega)
    unfold slotPos
    rw [show lastPg ps + 9 + c * 265 + j = lastPg ps + (9 + c * 265 + j) by omega]
    exact this

theorem page_apart {p q : Nat} (hp : p % pageSize = 0) (hq : q % pageSize = 0) (h : p ≠ q) : p + 4096 ≤ q ∨ q + 4096 ≤ p := by
  have := page_ne_disjoint hp hq h
  unfold pageSize at *; omega

/-- `SetMetadata` of slot `k`. -/
theorem MetaInv.setMd {B ps c ds} (h : MetaInv B ps c ds) {k : Nat} {p i : Nat} (hk : (places ps c)[k]? = some (p, i)) {d : Bytes}
    (hd : d.length ≤ 252) :
    MetaInv (writeAt B (slotPos p i + 12) (UInt8.ofNat d.length :: d)) ps c (ds.set k d) := by
  have hm := List.mem_of_getElem? hk
  obtain ⟨m1, m2, m3⟩ := places_mem hm h.cle
  obtain ⟨g1, g2, g3⟩ := h.pages.page p m1
  have hcle := h.cle
  have hin : slotPos p i + 265 ≤ B.length := by unfold slotPos pageSize at *; omega
  have hlen : (writeAt B (slotPos p i + 12) (UInt8.ofNat d.length :: d)).length = B.length := by
    rw [writeAt_length (by omega)]; simp only [List.length_cons]; omega
  refine ⟨⟨fun q hq => by rw [hlen]; exact h.pages.page q hq, by rw [hlen]; exact h.pages.small⟩, h.nodup, h.first, h.cle, h.cpos,
    ?_, by rw [List.length_set]; exact h.len, ?_, ?_⟩
  · refine h.chain.of_same (fun q hq => ?_)
    obtain ⟨q1, q2, q3⟩ := h.pages.page q hq
    rw [slice_writeAt_disjoint (by omega)]
    by_cases hqp : q = p
    · subst hqp; left; unfold slotPos; omega
    · have := page_apart q1 g1 hqp
      unfold slotPos; simp only [List.length_cons]; omega
  · intro k' x d' hx hd'
    obtain ⟨q, j⟩ := x
    obtain ⟨n1, n2, n3⟩ := places_mem (List.mem_of_getElem? hx) h.cle
    obtain ⟨q1, q2, q3⟩ := h.pages.page q n1
    by_cases hkk : k' = k
    · subst hkk
      rw [hx] at hk
      obtain ⟨rfl, rfl⟩ := Prod.mk.inj (Option.some.inj hk)
      have hkl : k' < ds.length := by
        rw [h.len]; exact (List.getElem?_eq_some_iff.1 hx).1
      rw [List.getElem?_set, if_pos rfl, if_pos hkl] at hd'
      cases hd'
      refine ⟨hd, ?_⟩
      unfold MdAt
      simp only
      have := slice_writeAt_same (l := B) (off := slotPos q j + 12) (b := UInt8.ofNat d.length :: d) (by omega)
      rw [List.length_cons] at this
      exact this
    · rw [List.getElem?_set_ne (Ne.symm hkk)] at hd'
      obtain ⟨o1, o2⟩ := h.md k' _ d' hx hd'
      refine ⟨o1, ?_⟩
      unfold MdAt at *
      simp only at *
      rw [← o2]
      have hne : ¬ (q = p ∧ j = i) := by
        rintro ⟨rfl, rfl⟩
        obtain ⟨a1, a2⟩ := List.getElem?_eq_some_iff.1 hk
        obtain ⟨b1, b2⟩ := List.getElem?_eq_some_iff.1 hx
        exact hkk ((List.getElem_inj (places_nodup h.nodup h.cle)).1 (b2.trans a2.symm))
      rw [slice_writeAt_disjoint (by omega)]
      simp only [List.length_cons]
      by_cases hqp : q = p
      · subst hqp
        have : j ≠ i := fun hji => hne ⟨rfl, hji⟩
        unfold slotPos; omega
      · have := page_apart q1 g1 hqp
        unfold slotPos; omega
  · rw [← h.zero]
    obtain ⟨q1, q2, q3⟩ := h.pages.page _ (lastPg_mem h.ne)
    rw [slice_writeAt_disjoint (by omega)]
    simp only [List.length_cons]
    by_cases hqp : p = lastPg ps
    · have := m3 h.nodup hqp
      rw [← hqp]
      unfold slotPos; omega
    · have := page_apart g1 q1 hqp
      unfold slotPos; omega

theorem getElem?_snoc {α : Type} {l : List α} {a x : α} {k : Nat} (h : (l ++ [a])[k]? = some x) :
    l[k]? = some x ∨ (k = l.length ∧ x = a) := by
  rw [List.getElem?_append] at h
  split at h
  · exact .inl h
  · rename_i hk
    rw [List.getElem?_singleton] at h
    split at h
    · exact .inr ⟨by omega, by simpa using h.symm⟩
    · simp at h

/-- One more slot on the last page. -/
theorem MetaInv.bump {B ps c ds} (h : MetaInv B ps c ds) (hc : c < 15) :
    MetaInv (writeAt B (lastPg ps + 8) [UInt8.ofNat (c + 1)]) ps (c + 1) (ds ++ [[]]) := by
  have hlm := lastPg_mem h.ne
  obtain ⟨g1, g2, g3⟩ := h.pages.page _ hlm
  have hlen : (writeAt B (lastPg ps + 8) [UInt8.ofNat (c + 1)]).length = B.length := by
    rw [writeAt_length (by unfold pageSize at *; omega)]; simp only [List.length_cons, List.length_nil]; unfold pageSize at *; omega
  have hle : lastPg ps + 8 ≤ B.length := by unfold pageSize at *; omega
  have hdis : ∀ q ∈ ps, ∀ a n, 9 ≤ a → a + n ≤ 4096 → slice (writeAt B (lastPg ps + 8) [UInt8.ofNat (c + 1)]) (q + a) n = slice B (q + a) n := by
    intro q hq a n ha hn
    obtain ⟨q1, q2, q3⟩ := h.pages.page q hq
    rw [slice_writeAt_disjoint hle]
    simp only [List.length_cons, List.length_nil]
    by_cases hqp : q = lastPg ps
    · omega
    · have := page_apart q1 g1 hqp; omega
  refine ⟨⟨fun q hq => by rw [hlen]; exact h.pages.page q hq, by rw [hlen]; exact h.pages.small⟩, h.nodup, h.first, by omega,
    fun _ => by omega, ?_, ?_, ?_, ?_⟩
  · refine h.chain.set_last h.nodup ?_ ⟨?_, ?_⟩
    · intro q hq hne
      obtain ⟨q1, q2, q3⟩ := h.pages.page q hq
      have := page_apart q1 g1 hne
      rw [slice_writeAt_disjoint hle]
      simp only [List.length_cons, List.length_nil]; omega
    · rw [slice_writeAt_disjoint hle (by omega)]; exact h.chain.last.next
    · rw [writeAt_getElem? _ hle]; simp
  · rw [places_succ h.ne]; simp [h.len]
  · intro k x d hx hd
    rw [places_succ h.ne] at hx
    obtain ⟨q, j⟩ := x
    rcases getElem?_snoc hx with hx | ⟨rfl, hx2⟩
    · have hkl : k < ds.length := by rw [h.len]; exact (List.getElem?_eq_some_iff.1 hx).1
      rw [List.getElem?_append_left hkl] at hd
      obtain ⟨o1, o2⟩ := h.md k _ d hx hd
      refine ⟨o1, ?_⟩
      obtain ⟨n1, n2, n3⟩ := places_mem (List.mem_of_getElem? hx) h.cle
      unfold MdAt at *
      simp only at *
      rw [← o2]
      have := hdis q n1 (9 + j * 265 + 12) (d.length + 1) (by omega) (by omega)
      unfold slotPos
      rw [show q + 9 + j * 265 + 12 = q + (9 + j * 265 + 12) by omega]; exact this
    · obtain ⟨hx3, hx4⟩ := Prod.mk.inj hx2
      rw [hx3, hx4]
      rw [List.getElem?_append_right (by rw [h.len]; exact Nat.le_refl _), h.len, Nat.sub_self] at hd
      simp at hd
      rw [hd]
      refine ⟨by simp, ?_⟩
      unfold MdAt
      simp only [List.length_nil]
      have h0 := congrArg (fun x => slice x 12 1) h.zero
      rw [slice_slice (by omega)] at h0
      have := hdis _ hlm (9 + c * 265 + 12) 1 (by omega) (by omega)
      have e : slotPos (lastPg ps) c + 12 = lastPg ps + (9 + c * 265 + 12) := by unfold slotPos; omega
      rw [e, this, ← e, h0]
      unfold slice
      rw [List.drop_replicate, List.take_replicate, Nat.min_eq_left (by omega)]; rfl
  · have h0 := congrArg (fun x => slice x 265 (4087 - 265 * (c + 1))) h.zero
    rw [slice_slice (by omega)] at h0
    have := hdis _ hlm (9 + (c + 1) * 265) (4087 - 265 * (c + 1)) (by omega) (by omega)
    have e : slotPos (lastPg ps) (c + 1) = lastPg ps + (9 + (c + 1) * 265) := by unfold slotPos; omega
    have e2 : slotPos (lastPg ps) c + 265 = lastPg ps + (9 + (c + 1) * 265) := by unfold slotPos; omega
    rw [e, this, ← e2, h0]
    unfold slice
    rw [List.drop_replicate, List.take_replicate, Nat.min_eq_left (by omega)]

/-- The empty page of `reset`. -/
theorem emptyPage_length (c : UInt8) : (LP.emptyPage c).length = pageSize := by
  unfold LP.emptyPage; rw [List.length_append, List.length_append, List.length_replicate, List.length_replicate]; rfl

theorem emptyPage_hdr {B : Bytes} {q : Nat} {c : UInt8} (h : slice B q pageSize = LP.emptyPage c) : Hdr B q c 0xFFFFFFFFFFFFFFFF := by
  refine ⟨?_, ?_⟩
  · have := congrArg (fun x => slice x 0 8) h
    rw [slice_slice (by unfold pageSize; omega)] at this
    rw [Nat.add_zero] at this
    rw [this]
    unfold LP.emptyPage slice
    simp
    decide
  · have := congrArg (fun x => x[8]?) h
    rw [slice_getElem?, if_pos (by unfold pageSize; omega)] at this
    rw [this]
    unfold LP.emptyPage
    simp

theorem emptyPage_zero {B : Bytes} {q n a : Nat} {c : UInt8} (h : slice B q pageSize = LP.emptyPage c) (ha : 9 ≤ a) (hn : a + n ≤ 4096) :
    slice B (q + a) n = List.replicate n 0 := by
  have := congrArg (fun x => slice x a n) h
  rw [slice_slice (by unfold pageSize; omega)] at this
  rw [this]
  unfold LP.emptyPage slice
  have : List.replicate 8 (255 : UInt8) ++ [c] ++ List.replicate (pageSize - 9) 0 = (List.replicate 8 (255 : UInt8) ++ [c]) ++ List.replicate (pageSize - 9) 0 := rfl
  rw [this, List.drop_append]
  have e : (List.replicate 8 (255 : UInt8) ++ [c]).drop a = [] := List.drop_eq_nil_of_le (by simp; omega)
  rw [e, List.nil_append, List.drop_replicate, List.take_replicate]
  congr 1
  simp; unfold pageSize; omega

/-- A new page at the end of the chain. -/
theorem MetaInv.newPage {B B' ps ds q} (h : MetaInv B ps 15 ds) (hq : q ∉ ps) (hqa : q % pageSize = 0) (hqp : pageSize ≤ q)
    (hqi : q + pageSize ≤ B'.length) (hlen : B.length ≤ B'.length) (hsm : B'.length < 2 ^ 63)
    (hsame : ∀ p ∈ ps, ∀ j, j < pageSize → (p = lastPg ps → 8 ≤ j) → B'[p + j]? = B[p + j]?)
    (hnew : slice B' q pageSize = LP.emptyPage 1) (hptr : slice B' (lastPg ps) 8 = leBytes 8 q) :
    MetaInv B' (ps ++ [q]) 1 (ds ++ [[]]) := by
  have hlm := lastPg_mem h.ne
  have hqu : (UInt64.ofNat q).toNat = q := UInt64.toNat_ofNat_of_lt' (by show q < 2 ^ 64; unfold pageSize at *; omega)
  refine ⟨⟨?_, hsm⟩, ?_, ?_, by omega, fun _ => by omega, ?_, ?_, ?_, ?_⟩
  · intro p hp
    rcases List.mem_append.1 hp with hp | hp
    · obtain ⟨h1, h2, h3⟩ := h.pages.page p hp; exact ⟨h1, h2, by omega⟩
    · simp only [List.mem_singleton] at hp; subst hp; exact ⟨hqa, hqp, hqi⟩
  · refine List.nodup_append.2 ⟨h.nodup, by simp, ?_⟩
    intro a ha b hb hab; simp only [List.mem_singleton] at hb; subst hb; subst hab; exact hq ha
  · obtain ⟨r, hr⟩ := h.first; exact ⟨r ++ [q], by rw [hr]; rfl⟩
  · refine h.chain.snoc h.nodup ?_ ⟨?_, ?_⟩ (emptyPage_hdr hnew)
    · intro p hp hne
      refine slice_ext (fun i hi => hsame p hp i (by unfold pageSize; omega) (fun hc => absurd hc hne))
    · rw [hqu]; exact hptr
    · rw [hsame _ hlm 8 (by unfold pageSize; omega) (fun _ => by omega)]; exact h.chain.last.cnt
  · rw [places_snoc h.ne]; simp [h.len]
  · intro k x d hx hd
    rw [places_snoc h.ne] at hx
    obtain ⟨p, j⟩ := x
    rcases getElem?_snoc hx with hx | ⟨rfl, hx2⟩
    · have hkl : k < ds.length := by rw [h.len]; exact (List.getElem?_eq_some_iff.1 hx).1
      rw [List.getElem?_append_left hkl] at hd
      obtain ⟨o1, o2⟩ := h.md k _ d hx hd
      refine ⟨o1, ?_⟩
      obtain ⟨n1, n2, n3⟩ := places_mem (List.mem_of_getElem? hx) (by omega)
      unfold MdAt at *
      simp only at *
      rw [← o2]
      refine slice_ext (fun i hi => ?_)
      have := hsame p n1 (9 + j * 265 + 12 + i) (by unfold pageSize; omega) (fun _ => by omega)
      unfold slotPos
      rw [show p + 9 + j * 265 + 12 + i = p + (9 + j * 265 + 12 + i) by omega]; exact this
    · obtain ⟨hx3, hx4⟩ := Prod.mk.inj hx2
      rw [hx3, hx4]
      rw [List.getElem?_append_right (by rw [h.len]; exact Nat.le_refl _), h.len, Nat.sub_self] at hd
      simp at hd
      rw [hd]
      refine ⟨by simp, ?_⟩
      unfold MdAt
      simp only [List.length_nil]
      have := emptyPage_zero hnew (a := 9 + 12) (n := 1) (by omega) (by omega)
      have e : slotPos q 0 + 12 = q + (9 + 12) := by unfold slotPos; omega
      rw [e, this]; rfl
  · rw [lastPg_append]
    have := emptyPage_zero hnew (a := 9 + 1 * 265) (n := 4087 - 265 * 1) (by omega) (by omega)
    have e : slotPos q 1 = q + (9 + 1 * 265) := by unfold slotPos; omega
    rw [e, this]

/-- The first page after `reset`. -/
theorem MetaInv.fresh {B : Bytes} (hl : B.length = 2 * pageSize) (h : slice B pageSize pageSize = LP.emptyPage 0) :
    MetaInv B [pageSize] 0 [] := by
  refine ⟨⟨?_, by rw [hl]; unfold pageSize; omega⟩, by simp, ⟨[], rfl⟩, by omega, by simp, emptyPage_hdr h, rfl, by simp [places], ?_⟩
  · intro p hp; simp only [List.mem_singleton] at hp; subst hp; rw [hl]; unfold pageSize; omega
  · have := emptyPage_zero h (a := 9) (n := 4087) (by omega) (by omega)
    exact this

end Appendable
