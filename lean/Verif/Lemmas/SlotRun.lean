import Verif.Lemmas.SlotOps
import Verif.Lemmas.PageFile2
import Verif.Lemmas.Alloc
import Verif.Spec.Slots
/-! The invariant of `SlotRun`. -/
namespace Appendable
open Spec Tree

structure SlotRunInv (s : PF) (rs : List (LP × MemPtr × Bytes)) (ow free ps : List Nat) (c : Nat) : Prop where
  slots : SlotsIn s free ps c (rs.map (·.2.2))
  handles : rs.map (·.1) = (places ps c).map slotAt
  roots : ∀ (k : Nat) (x : Nat × Nat) (r : LP × MemPtr × Bytes), (places ps c)[k]? = some x → rs[k]? = some r →
    MemPtr.decode (slice s.file.bytes (slotPos x.1 x.2) 12) = r.2.1
  other : ∀ o ∈ ow, Live s free o ∧ o ∉ ps

theorem SlotRunInv.place {s rs ow free ps c} (h : SlotRunInv s rs ow free ps c) {k : Nat} {r : LP × MemPtr × Bytes}
    (hk : rs[k]? = some r) : ∃ x, (places ps c)[k]? = some x ∧ r.1 = slotAt x ∧ x.1 ∈ ps ∧ x.2 < 15 ∧
      AtSlot s.file.bytes r.1 x.1 x.2 := by
  have h1 : (rs.map (·.1))[k]? = some r.1 := by rw [List.getElem?_map, hk]; rfl
  rw [h.handles, List.getElem?_map] at h1
  obtain ⟨x, hx, he⟩ := Option.map_eq_some_iff.1 h1
  obtain ⟨p, i⟩ := x
  obtain ⟨m1, m2, _⟩ := places_mem (List.mem_of_getElem? hx) h.slots.inv.cle
  exact ⟨(p, i), hx, he.symm, m1, m2, by rw [← he]; exact h.slots.inv.pages.atSlot m1 m2⟩

theorem SlotRunInv.upd {s rs ow free ps c} (h : SlotRunInv s rs ow free ps c) (p : Nat) :
    SlotRunInv (s.upd s.file.bytes p) rs ow free ps c :=
  ⟨⟨(Frame.upd_pos h.slots.valid h.slots.budget p []).valid, h.slots.budget, h.slots.live, h.slots.inv⟩, h.handles, h.roots, h.other⟩

/-- Operations that leave the meta pages alone. -/
theorem SlotRunInv.keep {s s' rs ow ow' free free' ps c} (h : SlotRunInv s rs ow free ps c) (hv : s'.Valid free')
    (hb : s'.file.budget = none) (hlen : s.file.bytes.length ≤ s'.file.bytes.length)
    (hlive : ∀ p, Live s free p → Live s' free' p)
    (hsame : ∀ p ∈ ps, pageAt s'.file.bytes p = pageAt s.file.bytes p)
    (ho : ∀ o ∈ ow', Live s' free' o ∧ o ∉ ps) : SlotRunInv s' rs ow' free' ps c := by
  have hbyte : ∀ p ∈ ps, ∀ j, j < pageSize → s'.file.bytes[p + j]? = s.file.bytes[p + j]? := by
    intro p hp j hj
    have := congrArg (fun x => x[j]?) (hsame p hp)
    simpa [pageAt, slice_getElem?, hj] using this
  refine ⟨⟨hv, hb, fun p hp => hlive p (h.slots.live p hp), h.slots.inv.frame hlen hv.small (fun p hp j hj _ => hbyte p hp j hj)⟩,
    h.handles, ?_, ho⟩
  intro k x r hx hr
  rw [← h.roots k x r hx hr]
  obtain ⟨m1, m2, _⟩ := places_mem (List.mem_of_getElem? hx) h.slots.inv.cle
  congr 1
  refine slice_ext (fun j hj => ?_)
  have := hbyte x.1 m1 (9 + x.2 * 265 + j) (by unfold pageSize; omega)
  unfold slotPos
  rw [show x.1 + 9 + x.2 * 265 + j = x.1 + (9 + x.2 * 265 + j) by omega]; exact this

theorem seek_cases {s s' : PF} {o q : Int} (h : PF.seek o s = (.ok q, s')) : ∃ p, s' = s.upd s.file.bytes p := by
  obtain ⟨⟨kind, bytes, pos, bud⟩, ring, head, count, lastPage⟩ := s
  unfold PF.seek File.seekStart PF.onFile File.seekAbs at h
  cases kind with
  | buffer =>
    simp only [Prod.mk.injEq] at h
    exact ⟨_, h.2.symm⟩
  | mmap =>
    simp only at h
    split at h
    · simp at h
    · split at h
      · simp at h
      · simp only [Prod.mk.injEq] at h
        exact ⟨_, h.2.symm⟩

theorem set_same {α : Type} {l : List α} {i : Nat} {a : α} (h : l[i]? = some a) : l.set i a = l := by
  apply List.ext_getElem?
  intro j
  by_cases hj : i = j
  · subst hj
    rw [List.getElem?_set, if_pos rfl, if_pos (List.getElem?_eq_some_iff.1 h).1, h]
  · rw [List.getElem?_set_ne hj]

theorem slotRun_inv {s : PF} {rs : List (LP × MemPtr × Bytes)} {ow : List Nat} (h : SlotRun s rs ow) :
    ∃ free ps c, SlotRunInv s rs ow free ps c := by
  induction h with
  | @fresh f f' s s' hd hf hb h1 h2 =>
    obtain ⟨s1, g1, g2, g3, g4, g5, _⟩ := openFile_empty f hf hb
    rw [g1] at h1; cases h1
    obtain ⟨s2, e1, e2, _⟩ := newMulti_fresh g2 g5 (by rw [g3, List.length_replicate])
    rw [e1] at h2; cases h2
    exact ⟨[], [pageSize], 0, ⟨e2, rfl, by simp [places], by simp⟩⟩
  | @addNext s s' rs ow m new hr hm h ih =>
    obtain ⟨free, ps, c, hi⟩ := ih
    have hhead : listHead = headAt pageSize := by decide
    rw [hi.handles, hhead] at hm
    obtain ⟨l1, l2⟩ := last_handle hi.slots hm
    rcases addNext_last hi.slots l1 l2 with ⟨x, s1, free', ps', c', r1, r2⟩ | ⟨s1, r1, _⟩
    · rw [h] at r1; cases r1
      have hlen : rs.length = (places ps c).length := by
        have := congrArg List.length hi.handles; simpa using this
      refine ⟨free', ps', c', ⟨?_, ?_, ?_, ?_⟩⟩
      · have := r2.slots; simpa using this
      · rw [r2.places]; simp [hi.handles]
      · intro k y r hy hrk
        rw [r2.places] at hy
        rcases getElem?_snoc hy with hy' | ⟨hk, hy'⟩
        · have hkl : k < rs.length := by rw [hlen]; exact (List.getElem?_eq_some_iff.1 hy').1
          rw [List.getElem?_append_left hkl] at hrk
          rw [← hi.roots k y r hy' hrk]
          obtain ⟨m1, m2, _⟩ := places_mem (List.mem_of_getElem? hy') hi.slots.inv.cle
          congr 1
          refine slice_ext (fun j hj => ?_)
          have := r2.same y.1 (hi.slots.live _ m1) (9 + y.2 * 265 + j) (by unfold pageSize; omega) (fun _ => by omega)
          unfold slotPos
          rw [show y.1 + 9 + y.2 * 265 + j = y.1 + (9 + y.2 * 265 + j) by omega]; exact this
        · rw [List.getElem?_append_right (by omega), hk, hlen, Nat.sub_self] at hrk
          simp at hrk
          rw [← hrk, hy', r2.root]
          show MemPtr.decode _ = (⟨0, 0⟩ : MemPtr)
          decide
      · intro o ho
        obtain ⟨o1, o2⟩ := hi.other o ho
        refine ⟨r2.live o o1, fun hc => ?_⟩
        rcases r2.fresh o hc with hc | hc
        · exact o2 hc
        · exact hc o1
    · rw [h] at r1; simp at r1
  | @setRoot s s' rs ow i m p p' d hr hi h ih =>
    obtain ⟨free, ps, c, hv⟩ := ih
    obtain ⟨x, hx, he, m1, m2, hat⟩ := hv.place hi
    obtain ⟨q, hq⟩ := lp_setRoot_ok hat hv.slots.budget p'
    simp only at he
    rw [h] at hq; cases hq
    have hel := p'.encode_length
    obtain ⟨g1, g2, g3⟩ := hv.slots.inv.pages.page _ m1
    have hle : slotPos x.1 x.2 ≤ s.file.bytes.length := by unfold slotPos pageSize at *; omega
    have hf := Frame.write hv.slots.valid hv.slots.budget (hv.slots.live _ m1) (r := 9 + x.2 * 265) (b := p'.encode)
      (by rw [hel]; unfold pageSize; omega) q
    have e : x.1 + (9 + x.2 * 265) = slotPos x.1 x.2 := by unfold slotPos; omega
    rw [e] at hf
    have hkl : i < rs.length := (List.getElem?_eq_some_iff.1 hi).1
    refine ⟨free, ps, c, ⟨⟨hf.1.valid, hf.1.budget, fun y hy => hf.1.live y (hv.slots.live y hy), ?_⟩, ?_, ?_, ?_⟩⟩
    · have hds : (rs.set i (m, p', d)).map (·.2.2) = rs.map (·.2.2) := by
        rw [List.map_set]
        refine set_same ?_
        rw [List.getElem?_map, hi]; rfl
      rw [hds]
      refine hv.slots.inv.frame hf.1.len hf.1.valid.small ?_
      intro y hy j hj hn
      simp only [upd_bytes]
      refine writeAt_getElem?_out hle ?_
      rw [hel]
      by_cases hyx : y = x.1
      · subst hyx
        have := hn x.2 (List.mem_of_getElem? hx)
        omega
      · have := page_apart (hv.slots.inv.pages.page y hy).1 g1 hyx
        unfold slotPos pageSize at *; omega
    · rw [List.map_set]
      simp only
      have : (rs.map (·.1)).set i m = rs.map (·.1) := by
        refine set_same ?_
        rw [List.getElem?_map, hi]; rfl
      rw [this]; exact hv.handles
    · intro k y r hy hr'
      simp only [upd_bytes]
      by_cases hk : k = i
      · subst hk
        have hxy : x = y := Option.some.inj (hx.symm.trans hy)
        subst hxy
        rw [List.getElem?_set, if_pos rfl, if_pos hkl] at hr'
        cases hr'
        have := slice_writeAt_same (l := s.file.bytes) (off := slotPos x.1 x.2) (b := p'.encode) hle
        rw [hel] at this
        rw [this]; exact p'.decode_encode
      · rw [List.getElem?_set_ne (Ne.symm hk)] at hr'
        rw [← hv.roots k y r hy hr']
        congr 1
        rw [slice_writeAt_disjoint hle]
        rw [hel]
        obtain ⟨n1, n2, _⟩ := places_mem (List.mem_of_getElem? hy) hv.slots.inv.cle
        have hne : ¬ (y.1 = x.1 ∧ y.2 = x.2) := by
          rintro ⟨e1, e2⟩
          have : y = x := Prod.ext e1 e2
          subst this
          obtain ⟨a1, a2⟩ := List.getElem?_eq_some_iff.1 hx
          obtain ⟨b1, b2⟩ := List.getElem?_eq_some_iff.1 hy
          exact hk ((List.getElem_inj (places_nodup hv.slots.inv.nodup hv.slots.inv.cle)).1 (b2.trans a2.symm))
        by_cases hyx : y.1 = x.1
        · have : y.2 ≠ x.2 := fun h => hne ⟨hyx, h⟩
          rw [hyx]
          unfold slotPos; omega
        · have := page_apart (hv.slots.inv.pages.page _ n1).1 g1 hyx
          unfold slotPos; omega
    · intro o ho
      exact ⟨hf.1.live o (hv.other o ho).1, (hv.other o ho).2⟩
  | @setMetadata s s' rs ow i m p d d' hr hi hd h ih =>
    obtain ⟨free, ps, c, hv⟩ := ih
    obtain ⟨x, hx, he, m1, m2, hat⟩ := hv.place hi
    obtain ⟨q, hq⟩ := lp_setMetadata_ok hat hv.slots.budget (d := d') (by omega)
    rw [h] at hq; cases hq
    obtain ⟨g1, g2, g3⟩ := hv.slots.inv.pages.page _ m1
    have hle : slotPos x.1 x.2 + 12 ≤ s.file.bytes.length := by unfold slotPos pageSize at *; omega
    have hf := Frame.write hv.slots.valid hv.slots.budget (hv.slots.live _ m1) (r := 9 + x.2 * 265 + 12) (b := UInt8.ofNat d'.length :: d')
      (by simp only [List.length_cons]; unfold pageSize; omega) q
    have e : x.1 + (9 + x.2 * 265 + 12) = slotPos x.1 x.2 + 12 := by unfold slotPos; omega
    rw [e] at hf
    refine ⟨free, ps, c, ⟨⟨hf.1.valid, hf.1.budget, fun y hy => hf.1.live y (hv.slots.live y hy), ?_⟩, ?_, ?_, ?_⟩⟩
    · rw [List.map_set]
      exact hv.slots.inv.setMd hx hd
    · rw [List.map_set]
      simp only
      have : (rs.map (·.1)).set i m = rs.map (·.1) := by
        refine set_same ?_
        rw [List.getElem?_map, hi]; rfl
      rw [this]; exact hv.handles
    · intro k y r hy hr'
      simp only [upd_bytes]
      have hroot : ∃ r0, rs[k]? = some r0 ∧ r0.2.1 = r.2.1 := by
        by_cases hk : k = i
        · subst hk
          rw [List.getElem?_set, if_pos rfl, if_pos (List.getElem?_eq_some_iff.1 hi).1] at hr'
          cases hr'
          exact ⟨_, hi, rfl⟩
        · rw [List.getElem?_set_ne (Ne.symm hk)] at hr'
          exact ⟨r, hr', rfl⟩
      obtain ⟨r0, hr0, he0⟩ := hroot
      rw [← he0, ← hv.roots k y r0 hy hr0]
      congr 1
      rw [slice_writeAt_disjoint hle]
      simp only [List.length_cons]
      obtain ⟨n1, n2, _⟩ := places_mem (List.mem_of_getElem? hy) hv.slots.inv.cle
      by_cases hyx : y.1 = x.1
      · rw [hyx]
        unfold slotPos
        omega
      · have := page_apart (hv.slots.inv.pages.page _ n1).1 g1 hyx
        unfold slotPos; omega
    · intro o ho
      exact ⟨hf.1.live o (hv.other o ho).1, (hv.other o ho).2⟩
  | @alloc s s' rs ow buf off hr h ih =>
    obtain ⟨free, ps, c, hv⟩ := ih
    by_cases hl : (buf.getD []).length ≤ pageSize
    · rcases newPage_spec hv.slots.valid hv.slots.budget buf hl with ⟨o, s1, free', n1, n2, n3, n4, n5, n6, n7, n8, n9, n10, n11⟩ | ⟨s1, n1, _⟩
      · rw [h] at n1; cases n1
        refine ⟨free', ps, c, hv.keep n2 n3 n9 (fun p hp => (n7 p hp).1) (fun p hp => (n7 p (hv.slots.live p hp)).2) ?_⟩
        intro x hx
        rcases List.mem_cons.1 hx with rfl | hx
        · exact ⟨by simpa using n5, fun hc => n4 (by simpa using hv.slots.live _ hc)⟩
        · exact ⟨(n7 x (hv.other x hx).1).1, (hv.other x hx).2⟩
      · rw [h] at n1; simp at n1
    · rw [newPage_too_large s buf (by omega)] at h; simp at h
  | @write s s1 s' rs ow o r n b q hr ho hl h1 h2 ih =>
    obtain ⟨free, ps, c, hv⟩ := ih
    obtain ⟨o1, o2⟩ := hv.other o ho
    have hin := o1.inside hv.slots.valid
    have hsm := hv.slots.valid.small
    have hal := o1.1
    rw [seek_ok (by unfold pageSize at *; omega)] at h1
    cases h1
    obtain ⟨n', q', hw⟩ := write_ok (s := s.upd s.file.bytes (o + r)) (b := b) hv.slots.budget
      (by simp only [upd_pos, upd_bytes]; unfold pageSize at *; omega) (by simp only [upd_pos]; unfold pageSize at *; omega)
      (by
        simp only [upd_pos]
        unfold pageSize at *
        by_cases hr0 : r < 4096
        · omega
        · have : r = 4096 := by omega
          subst this; omega)
    rw [hw] at h2; cases h2
    have hf := Frame.write hv.slots.valid hv.slots.budget o1 (r := r) (b := b) (by unfold pageSize; omega) q'
    refine ⟨free, ps, c, hv.keep hf.1.valid hf.1.budget hf.1.len hf.1.live ?_ ?_⟩
    · intro p hp
      exact hf.1.same p (hv.slots.live p hp) (by simp; rintro rfl; exact o2 hp)
    · intro x hx; exact ⟨hf.1.live x (hv.other x hx).1, (hv.other x hx).2⟩
  | @seek s s' rs ow o q hr h ih =>
    obtain ⟨free, ps, c, hv⟩ := ih
    obtain ⟨p, rfl⟩ := seek_cases h
    exact ⟨free, ps, c, hv.upd p⟩
  | @reopen s s1 s' rs ow f f' hd hr hb hu h1 h2 ih =>
    obtain ⟨free, ps, c, hv⟩ := ih
    obtain ⟨s2, g1, g2, g3, _, g5, _, _⟩ := openFile_valid' hv.slots.valid f hb
    rw [g1] at h1; cases h1
    have hbb : s1.file.bytes = s.file.bytes := by rw [g3, hb]
    have hl : ∀ p, Live s free p → Live s1 free p := by
      intro p hp; unfold Live at *; rw [hbb]; exact hp
    have hv1 : SlotRunInv s1 rs ow free ps c := hv.keep g2 (by rw [g5, hu]) (by rw [hbb]; omega) hl (by rw [hbb]; simp)
      (fun o ho => ⟨hl o (hv.other o ho).1, (hv.other o ho).2⟩)
    obtain ⟨q, hq⟩ := newMulti_ok hv1.slots.inv
    rw [hq] at h2; cases h2
    exact ⟨free, ps, c, hv1.upd q⟩

theorem nodup_iff_inj {α : Type} {l : List α} : l.Nodup ↔ ∀ i j, i < j → j < l.length → l[i]? ≠ l[j]? := by
  constructor
  · intro h i j hij hj he
    have hi : i < l.length := by omega
    rw [List.getElem?_eq_getElem hi, List.getElem?_eq_getElem hj] at he
    have := (List.getElem_inj h).1 (Option.some.inj he)
    omega
  · intro h
    rw [List.nodup_iff_pairwise_ne, List.pairwise_iff_getElem]
    intro i j hi hj hij he
    exact h i j hij hj (by rw [List.getElem?_eq_getElem hi, List.getElem?_eq_getElem hj, he])

theorem places_length_le {B : Bytes} {ps : List Nat} {c : Nat} (h : PagesIn B ps) (hn : ps.Nodup) (hc : c ≤ 15) :
    (places ps c).length ≤ 16 * B.length := by
  have hnd := places_nodup hn hc
  have : ((places ps c).map (fun x => x.1 * 16 + x.2)).Nodup := by
    rw [nodup_iff_inj]
    intro i j hij hj
    rw [List.length_map] at hj
    have hi : i < (places ps c).length := by omega
    rw [List.getElem?_map, List.getElem?_map, List.getElem?_eq_getElem hi, List.getElem?_eq_getElem hj]
    simp only [Option.map_some, ne_eq, Option.some.injEq]
    intro he
    have hi2 := (places_mem (p := ((places ps c)[i]).1) (i := ((places ps c)[i]).2) (List.getElem_mem hi) hc).2.1
    have hj2 := (places_mem (p := ((places ps c)[j]).1) (i := ((places ps c)[j]).2) (List.getElem_mem hj) hc).2.1
    have := (List.getElem_inj hnd).1 (Prod.ext (by omega) (by omega) : (places ps c)[i] = (places ps c)[j])
    omega
  have h2 := nodup_length_le (16 * B.length) _ this (by
    intro y hy
    obtain ⟨⟨p, i⟩, hx, rfl⟩ := List.mem_map.1 hy
    obtain ⟨m1, m2, _⟩ := places_mem hx hc
    have := (h.page p m1).2.2
    unfold pageSize at *
    simp only
    omega)
  rwa [List.length_map] at h2

end Appendable
