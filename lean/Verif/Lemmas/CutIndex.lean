import Verif.Lemmas.CutFile
import Verif.Lemmas.IndexApi
/-! The meta pages in a file of which only the first pages are left. -/
namespace Appendable
open Spec Tree

theorem slice_get {B B' : Bytes} {p n i : Nat} (h : slice B' p n = slice B p n) (hi : i < n) : B'[p + i]? = B[p + i]? := by
  have := congrArg (fun x => x[i]?) h
  simpa only [slice_getElem?, if_pos hi] using this

/-- Any nine bytes are a header. -/
theorem hdr_of {B : Bytes} {p : Nat} (h : p + 9 ≤ B.length) : ∃ c nx, Hdr B p c nx := by
  have hl : (slice B p 8).length = 8 := slice_length (by omega)
  refine ⟨B[p + 8]'(by omega), UInt64.ofNat (leNat (slice B p 8)), ?_, List.getElem?_eq_getElem (by omega)⟩
  have hlt := leNat_lt (slice B p 8)
  rw [hl] at hlt
  rw [UInt64.toNat_ofNat_of_lt' (by simpa using hlt)]
  have := leBytes_leNat (slice B p 8)
  rw [hl] at this
  exact this.symm

theorem OnPage.cut {s s' : PF} {m : LP} {p : Nat} (h : CutOf s s') (ho : OnPage s.file.bytes m p) (hin : p + pageSize ≤ s'.file.bytes.length) :
    OnPage s'.file.bytes m p := ⟨ho.off, ho.aligned, hin, by have := h.le; have := ho.small; omega⟩

theorem AtSlot.cut {s s' : PF} {m : LP} {p i : Nat} (h : CutOf s s') (ho : AtSlot s.file.bytes m p i) (hin : p + pageSize ≤ s'.file.bytes.length) :
    AtSlot s'.file.bytes m p i := ⟨ho.off, ho.idx, ho.le, ho.aligned, hin, by have := h.le; have := ho.small; omega⟩

/-- The next slot, from a page that is left. -/
theorem lp_next_cut {s s' : PF} {m : LP} {p : Nat} (h : CutOf s s') (ho : OnPage s.file.bytes m p) (hin : p + pageSize ≤ s'.file.bytes.length) :
    ∃ q, m.next s' = ((m.next s).1, s'.upd s'.file.bytes q) := by
  have hp := ho.inside
  obtain ⟨c, nx, hh⟩ := hdr_of (B := s.file.bytes) (p := p) (by unfold pageSize at *; omega)
  have hh' : Hdr s'.file.bytes p c nx := hh.of_same (h.slice (by unfold pageSize at *; omega))
  obtain ⟨q, h1⟩ := lp_next_ok ho hh
  obtain ⟨q', h2⟩ := lp_next_ok (ho.cut h hin) hh'
  exact ⟨q', by rw [h1]; exact h2⟩

/-- The metadata of a slot on a page that is left. -/
theorem lp_metadata_cut {s s' : PF} {m : LP} {p i : Nat} (h : CutOf s s') (ho : AtSlot s.file.bytes m p i) (hin : p + pageSize ≤ s'.file.bytes.length) :
    ∃ q, m.metadata s' = ((m.metadata s).1, s'.upd s'.file.bytes q) := by
  obtain ⟨f1, _, _⟩ := ho.fit
  obtain ⟨g1, _, _⟩ := (ho.cut h hin).fit
  obtain ⟨n, hn⟩ : ∃ n, s.file.bytes[slotPos p i + 12]? = some n := ⟨_, List.getElem?_eq_getElem (by omega)⟩
  have hn' : s'.file.bytes[slotPos p i + 12]? = some n := by
    rw [← hn]; exact slice_get (h.slice (p := slotPos p i) (n := 272) (by omega)) (by omega)
  refine ⟨slotPos p i + 272, ?_⟩
  rw [lp_metadata_ok ho hn, lp_metadata_ok (ho.cut h hin) hn']
  by_cases h255 : n = 255
  · simp only [if_pos h255]
  · simp only [if_neg h255]
    have hnl : n.toNat < 255 := by
      have := n.toNat_lt
      have : n.toNat ≠ 255 := fun hc => h255 (UInt8.toNat_inj.1 hc)
      omega
    rw [h.slice (by omega)]

/-- The metadata of a slot on a page that is not left. -/
theorem lp_metadata_lost {s s' : PF} {m : LP} {p i : Nat} (h : CutOf s s') (ho : AtSlot s.file.bytes m p i) (hin : ¬ p + pageSize ≤ s'.file.bytes.length) :
    ∃ e q, m.metadata s' = (.err e, s'.upd s'.file.bytes q) := by
  have hw := h.whole
  obtain ⟨_, _, f3⟩ := ho.fit
  have hle : s'.file.bytes.length ≤ slotPos p i + 12 := by
    have := ho.aligned
    unfold slotPos pageSize at *; omega
  unfold LP.metadata
  rw [if_neg ho.ne255]
  unfold LP.seekU64
  have ho2 := ho.mdPos
  have hsm := ho.small
  have hins := ho.inside
  rw [ho2, int64OfU64_small (by have := ho.fit; omega)]
  rcases seek_cut h ((slotPos p i + 12 : Nat) : Int) with ⟨e, he⟩ | ⟨q, r, h1, h2, -, h4⟩
  · exact ⟨e, s'.file.pos, by rw [Act.bind_err he]; rfl⟩
  · have : q = s'.file.bytes.length := by
      apply Decidable.byContradiction
      intro hc
      have := h4 (by omega)
      omega
    subst this
    refine ⟨.eof, s'.file.bytes.length, ?_⟩
    rw [Act.bind_ok h2, Act.bind_ok (read_end (s := s'.upd s'.file.bytes s'.file.bytes.length) (n := 4 + slotSize) (by unfold slotSize; decide) rfl
      (by simp only [upd_pos]; unfold slotSize pageSize; omega))]
    rfl

theorem names_cut {s s' : PF} (h : CutOf s s') {x : Nat × Nat} {L : List (Nat × Nat)} {ms : List IndexMeta}
    (hl : LinkedFrom s.file.bytes (slotAt x) (L.map slotAt)) (hm : MetasAt s.file.bytes (L.map slotAt) ms)
    (hp : ∀ y ∈ x :: L, AtSlot s.file.bytes (slotAt y) y.1 y.2) (hin : x.1 + pageSize ≤ s'.file.bytes.length) (fuel : Nat)
    (hf : (L.filter (fun y => decide (y.1 + pageSize ≤ s'.file.bytes.length))).length < fuel) (names : List Bytes) :
    ∃ q, IndexFile.namesFrom fuel (slotAt x) names s' = (.ok (namesOf names ms), s'.upd s'.file.bytes q) ∨
      ∃ e, IndexFile.namesFrom fuel (slotAt x) names s' = (.err e, s'.upd s'.file.bytes q) := by
  induction L generalizing x s' fuel ms names with
  | nil =>
    obtain ⟨fuel, rfl⟩ : ∃ k, fuel = k + 1 := ⟨fuel - 1, by omega⟩
    obtain ⟨q, hq⟩ := hl s rfl
    obtain ⟨q', hq'⟩ := lp_next_cut h (hp x (by simp)).onPage hin
    rw [hq] at hq'
    have : ms = [] := by have := hm.1; simpa using this.symm
    subst this
    refine ⟨q', .inl ?_⟩
    unfold IndexFile.namesFrom
    rw [hq']; rfl
  | cons n L ih =>
    obtain ⟨fuel, rfl⟩ : ∃ k, fuel = k + 1 := ⟨fuel - 1, by omega⟩
    obtain ⟨q, hq⟩ := (hl.1 s rfl).1
    obtain ⟨q', hq'⟩ := lp_next_cut h (hp x (by simp)).onPage hin
    rw [hq] at hq'
    cases ms with
    | nil => have := hm.1; simp at this
    | cons m ms =>
      obtain ⟨hn, hmd⟩ := hm.2 0 (slotAt n) m rfl rfl
      obtain ⟨q1, hq1⟩ := hmd s rfl
      have han := hp n (by simp)
      have hcut' : CutOf s (s'.upd s'.file.bytes q') := h.right q'
      rw [IndexFile.namesFrom]
      simp only [hq']
      by_cases hnin : n.1 + pageSize ≤ s'.file.bytes.length
      · obtain ⟨q2, hq2⟩ := lp_metadata_cut hcut' han hnin
        rw [hq1] at hq2
        simp only [upd_bytes, upd_upd] at hq2
        have hu := IndexMeta.unmarshal_bytes m (by omega) []
        rw [List.append_nil] at hu
        rw [Act.bind_ok hq2, Act.bind_ok (a := m) (s' := s'.upd s'.file.bytes q2) (by rw [hu]; rfl)]
        obtain ⟨q3, h3⟩ := ih (h.right q2) hl.2 hm.tail (fun y hy => hp y (List.mem_cons_of_mem _ hy)) hnin fuel (by
          rw [List.filter_cons_of_pos (by simpa using hnin), List.length_cons] at hf
          exact Nat.lt_of_succ_lt_succ hf) (if m.fieldName ∈ names then names else names ++ [m.fieldName])
        exact ⟨q3, h3⟩
      · obtain ⟨e, q2, hq2⟩ := lp_metadata_lost hcut' han hnin
        refine ⟨q2, .inr ⟨e, ?_⟩⟩
        rw [Act.bind_err hq2]; rfl

theorem find_cut {s s' : PF} (h : CutOf s s') (name : Bytes) (ty : UInt8) {x : Nat × Nat} {L : List (Nat × Nat)} {ms : List IndexMeta}
    (hl : LinkedFrom s.file.bytes (slotAt x) (L.map slotAt)) (hm : MetasAt s.file.bytes (L.map slotAt) ms)
    (hp : ∀ y ∈ x :: L, AtSlot s.file.bytes (slotAt y) y.1 y.2) (hin : x.1 + pageSize ≤ s'.file.bytes.length) (fuel : Nat)
    (hf : (L.filter (fun y => decide (y.1 + pageSize ≤ s'.file.bytes.length))).length < fuel)
    (hex : ∃ m ∈ ms, m.fieldName = name ∧ m.fieldType = ty) :
    ∃ q, (∃ (k : Nat) (n : LP) (m : IndexMeta), (L.map slotAt)[k]? = some n ∧ ms[k]? = some m ∧ m.fieldName = name ∧ m.fieldType = ty ∧
      IndexFile.findFrom name ty fuel (slotAt x) s' = (.ok (n, m), s'.upd s'.file.bytes q)) ∨
      ∃ e, IndexFile.findFrom name ty fuel (slotAt x) s' = (.err e, s'.upd s'.file.bytes q) := by
  induction L generalizing x s' fuel ms with
  | nil =>
    have : ms = [] := by have := hm.1; simpa using this.symm
    subst this
    obtain ⟨m, hm', _⟩ := hex
    simp at hm'
  | cons n L ih =>
    obtain ⟨fuel, rfl⟩ : ∃ k, fuel = k + 1 := ⟨fuel - 1, by omega⟩
    obtain ⟨q, hq⟩ := (hl.1 s rfl).1
    obtain ⟨q', hq'⟩ := lp_next_cut h (hp x (by simp)).onPage hin
    rw [hq] at hq'
    cases ms with
    | nil => have := hm.1; simp at this
    | cons m ms =>
      obtain ⟨hn, hmd⟩ := hm.2 0 (slotAt n) m rfl rfl
      obtain ⟨q1, hq1⟩ := hmd s rfl
      have han := hp n (by simp)
      have hcut' : CutOf s (s'.upd s'.file.bytes q') := h.right q'
      rw [IndexFile.findFrom]
      simp only [hq']
      by_cases hnin : n.1 + pageSize ≤ s'.file.bytes.length
      · obtain ⟨q2, hq2⟩ := lp_metadata_cut hcut' han hnin
        rw [hq1] at hq2
        simp only [upd_bytes, upd_upd] at hq2
        have hu := IndexMeta.unmarshal_bytes m (by omega) []
        rw [List.append_nil] at hu
        rw [Act.bind_ok hq2, Act.bind_ok (a := m) (s' := s'.upd s'.file.bytes q2) (by rw [hu]; rfl)]
        by_cases hc : m.fieldName = name ∧ m.fieldType = ty
        · rw [if_pos hc]
          exact ⟨q2, .inl ⟨0, slotAt n, m, rfl, rfl, hc.1, hc.2, rfl⟩⟩
        · rw [if_neg hc]
          obtain ⟨q3, h3⟩ := ih (h.right q2) hl.2 hm.tail (fun y hy => hp y (List.mem_cons_of_mem _ hy)) hnin fuel (by
            rw [List.filter_cons_of_pos (by simpa using hnin), List.length_cons] at hf
            exact Nat.lt_of_succ_lt_succ hf) (by
            obtain ⟨m', h1, h2⟩ := hex
            rcases List.mem_cons.1 h1 with rfl | h1
            · exact absurd h2 hc
            · exact ⟨m', h1, h2⟩)
          rcases h3 with ⟨k, n', m', e1, e2, e3, e4, e5⟩ | h3
          · exact ⟨q3, .inl ⟨k + 1, n', m', by simpa using e1, by simpa using e2, e3, e4, e5⟩⟩
          · exact ⟨q3, .inr h3⟩
      · obtain ⟨e, q2, hq2⟩ := lp_metadata_lost hcut' han hnin
        refine ⟨q2, .inr ⟨e, ?_⟩⟩
        rw [Act.bind_err hq2]; rfl

/-- The slots on the pages that are left are fewer than the fuel. -/
theorem places_left_le {ps : List Nat} {c : Nat} (hn : ps.Nodup) (hc : c ≤ 15) (N : Nat) :
    ((places ps c).filter (fun y => decide (y.1 + pageSize ≤ N))).length ≤ 16 * N := by
  have hnd : ((places ps c).filter (fun y => decide (y.1 + pageSize ≤ N))).Nodup := (places_nodup hn hc).sublist List.filter_sublist
  have : (((places ps c).filter (fun y => decide (y.1 + pageSize ≤ N))).map (fun x => x.1 * 16 + x.2)).Nodup := by
    rw [List.Nodup, List.pairwise_map]
    refine List.Pairwise.imp_of_mem ?_ hnd
    intro a b ha hb hne he
    have ha2 := (places_mem (p := a.1) (i := a.2) (List.mem_filter.1 ha).1 hc).2.1
    have hb2 := (places_mem (p := b.1) (i := b.2) (List.mem_filter.1 hb).1 hc).2.1
    exact hne (Prod.ext (by omega) (by omega))
  have h2 := nodup_length_le (16 * N) _ this (by
    intro y hy
    obtain ⟨⟨p, i⟩, hx, rfl⟩ := List.mem_map.1 hy
    obtain ⟨hx1, hx2⟩ := List.mem_filter.1 hx
    obtain ⟨m1, m2, _⟩ := places_mem hx1 hc
    simp only [decide_eq_true_eq] at hx2
    unfold pageSize at *
    simp only
    omega)
  rwa [List.length_map] at h2

end Appendable
