import Verif.Lemmas.Iter2
import Verif.Lemmas.Alloc
import Verif.Spec.Tree
/-! Several trees in one page file. -/
namespace Appendable
open Spec Tree

/-- A tree depends on its pages and on its root slot only. -/
theorem TreeIs.keep {t s free es ps s' free'} (h : TreeIs t s free es ps) (hv : s'.Valid free')
    (hb : s'.file.budget = none) (hl : ∀ p, Live s free p → Live s' free' p)
    (hlen : s.file.bytes.length ≤ s'.file.bytes.length)
    (hsame : ∀ p ∈ ps, pageAt s'.file.bytes p = pageAt s.file.bytes p)
    (hslot : slice s'.file.bytes t.rootPos 12 = slice s.file.bytes t.rootPos 12) : TreeIs t s' free' es ps := by
  refine ⟨hv, hb, h.slot, hl _ h.slotLive, h.slotOut, h.nodup, fun p hp => hl p (h.live p hp), ?_⟩
  rw [hslot]
  rcases h.root with h0 | ⟨h0, k, hr, hbig, hden⟩
  · exact .inl h0
  · exact .inr ⟨h0, k, hr.frame hlen hsame, hbig, hr.denseBelow_frame hlen hsame hden⟩

theorem slotPage_mod (pos : Nat) : slotPage pos % pageSize = 0 := by
  unfold slotPage pageSize; omega

theorem slotPage_eq_div (pos : Nat) : slotPage pos = pos / pageSize * pageSize := by
  unfold slotPage pageSize; omega

/-- Two slots. -/
def SlotsApart (a b : Tree) : Prop := a.rootPos + 12 ≤ b.rootPos ∨ b.rootPos + 12 ≤ a.rootPos

/-- An insert into the tree `u` leaves the tree `t` alone. -/
theorem TreeIs.outside {t u s free es ps s' free' qs} (h : TreeIs t s free es ps) (ho : Outside u s free s' free' qs)
    (hv : s'.Valid free') (hb : s'.file.budget = none) (hsu : u.rootPos % pageSize + 12 ≤ pageSize)
    (hd : ∀ p ∈ ps, p ∉ qs) (hs : SlotsApart t u) (h1 : slotPage u.rootPos ∉ ps) (h2 : slotPage t.rootPos ∉ qs) :
    TreeIs t s' free' es ps := by
  refine h.keep hv hb ho.live ho.len ?_ ?_
  · intro p hp
    have hlp := h.live p hp
    apply List.ext_getElem?
    intro i
    simp only [pageAt, slice_getElem?]
    by_cases hi : i < pageSize
    · rw [if_pos hi, if_pos hi]
      refine ho.same p hlp (hd p hp) i hi ?_
      have hne : p ≠ slotPage u.rootPos := fun hc => h1 (hc ▸ hp)
      have := page_ne_disjoint hlp.1 (slotPage_mod u.rootPos) hne
      have := slotPage_add u.rootPos
      omega
    · rw [if_neg hi, if_neg hi]
  · apply List.ext_getElem?
    intro i
    simp only [slice_getElem?]
    by_cases hi : i < 12
    · rw [if_pos hi, if_pos hi]
      have := ho.same _ h.slotLive h2 (t.rootPos % pageSize + i) (by have := h.slot; omega)
        (by have := slotPage_add t.rootPos; unfold SlotsApart at hs; omega)
      rw [← Nat.add_assoc, slotPage_add] at this
      exact this
    · rw [if_neg hi, if_neg hi]

/-- The invariant of `ForestRun`. -/
structure ForestInv (ts : List Tree) (s : PF) (c : Nat → List Entry) (free : List Nat) (E : Nat → List Entry)
    (P : Nat → List Nat) : Prop where
  valid : s.Valid free
  budget : s.file.budget = none
  tree : ∀ i t, ts[i]? = some t → TreeIs t s free (E i) (P i) ∧ WidthOK t ∧ (E i).Perm (c i)
  apart : ∀ i j t u, i ≠ j → ts[i]? = some t → ts[j]? = some u →
    (∀ p ∈ P i, p ∉ P j) ∧ SlotsApart t u ∧ slotPage u.rootPos ∉ P i
  empty : ∀ i, ts.length ≤ i → c i = []

theorem ForestInv.upd {ts s c free E P} (h : ForestInv ts s c free E P) (p : Nat) :
    ForestInv ts (s.upd s.file.bytes p) c free E P :=
  ⟨(Frame.upd_pos h.valid h.budget p []).valid, h.budget,
    fun i t ht => ⟨(h.tree i t ht).1.upd_pos p, (h.tree i t ht).2⟩, h.apart, h.empty⟩

theorem Spec.WidthOK.vlen {t : Tree} (h : WidthOK t) : vlen t.cfg ≤ 2016 := by
  unfold WidthOK at h
  unfold Appendable.vlen
  split
  · omega
  · rename_i hw
    have : 0 < t.cfg.width.toNat := by
      rcases Nat.eq_zero_or_pos t.cfg.width.toNat with h0 | h0
      · exact absurd (UInt16.toNat.inj (by simpa using h0)) hw
      · exact h0
    rw [UInt16.toNat_sub_of_le _ _ (by rw [UInt16.le_iff_toNat_le]; exact this)]
    simp; omega

theorem setAt_same {α : Type} (c : Nat → α) (i : Nat) (a : α) : setAt c i a i = a := by simp [setAt]
theorem setAt_ne {α : Type} (c : Nat → α) {i j : Nat} (a : α) (h : j ≠ i) : setAt c i a j = c j := by simp [setAt, h]

theorem ForestInv.insert' {ts s c free E P i t k v s'} (h : ForestInv ts s c free E P) (ht : ts[i]? = some t)
    (hk : KeyOK t.cfg k) (hrun : t.insert k v s = (.ok (), s')) :
    ∃ free' es' ps', ForestInv ts s' (setAt c i ((k, v) :: c i)) free' (setAt E i es') (setAt P i ps') ∧
      InsRel (E i) k v es' ∧ Outside t s free s' free' (P i) ∧ (∀ e ∈ E i, e.1 ≠ k) ∧ (∀ x ∈ ps', x ∈ P i ∨ ¬ Live s free x) ∧
      (∀ x, Live s' free' x → Live s free x ∨ x ∈ ps') ∧ (∀ x ∈ P i, x ∈ ps') ∧ (free = [] → free' = []) := by
  obtain ⟨hti, hw, hperm⟩ := h.tree i t ht
  cases insert_out (value := v) hw.vlen hk hti with
  | dup p e he hk run => rw [hrun] at run; simp at run
  | full s1 new run big => rw [hrun] at run; simp at run
  | ok s1 free' es' ps' new run rel tree out fresh grow used keep nofree =>
    rw [hrun] at run
    cases run
    refine ⟨free', es', ps', ⟨tree.valid, tree.budget, ?_, ?_, ?_⟩, rel, out, new, fresh, used, keep, nofree⟩
    · intro j u hu
      by_cases hji : j = i
      · subst hji
        rw [hu] at ht
        cases ht
        rw [setAt_same, setAt_same, setAt_same]
        exact ⟨tree, hw, rel.perm.trans (hperm.cons _)⟩
      · rw [setAt_ne _ _ hji, setAt_ne _ _ hji, setAt_ne _ _ hji]
        obtain ⟨huj, hwu, hpu⟩ := h.tree j u hu
        obtain ⟨a1, a2, a3⟩ := h.apart j i u t hji hu ht
        obtain ⟨b1, b2, b3⟩ := h.apart i j t u (Ne.symm hji) ht hu
        exact ⟨huj.outside out tree.valid tree.budget hti.slot a1 a2 a3 b3, hwu, hpu⟩
    · intro j l u w hjl hu hw'
      obtain ⟨a1, a2, a3⟩ := h.apart j l u w hjl hu hw'
      refine ⟨?_, a2, ?_⟩
      · intro p hp hp2
        by_cases hji : j = i
        · subst hji
          rw [setAt_same] at hp
          rw [setAt_ne _ _ (Ne.symm hjl)] at hp2
          rcases fresh p hp with hp | hp
          · exact a1 p hp hp2
          · exact hp ((h.tree l w hw').1.live p hp2)
        · rw [setAt_ne _ _ hji] at hp
          by_cases hli : l = i
          · subst hli
            rw [setAt_same] at hp2
            rcases fresh p hp2 with hp2 | hp2
            · exact a1 p hp hp2
            · exact hp2 ((h.tree j u hu).1.live p hp)
          · rw [setAt_ne _ _ hli] at hp2
            exact a1 p hp hp2
      · intro hc
        by_cases hji : j = i
        · subst hji
          rw [setAt_same] at hc
          rcases fresh _ hc with hc | hc
          · exact a3 hc
          · exact hc (h.tree l w hw').1.slotLive
        · rw [setAt_ne _ _ hji] at hc
          exact a3 hc
    · intro j hj
      have : j ≠ i := by rintro rfl; rw [List.getElem?_eq_none hj] at ht; simp at ht
      rw [setAt_ne _ _ this]; exact h.empty j hj

theorem ForestInv.insert {ts s c free E P i t k v s'} (h : ForestInv ts s c free E P) (ht : ts[i]? = some t)
    (hk : KeyOK t.cfg k) (hrun : t.insert k v s = (.ok (), s')) :
    ∃ free' es' ps', ForestInv ts s' (setAt c i ((k, v) :: c i)) free' (setAt E i es') (setAt P i ps') ∧
      InsRel (E i) k v es' ∧ Outside t s free s' free' (P i) ∧ (∀ e ∈ E i, e.1 ≠ k) := by
  obtain ⟨free', es', ps', h1, h2, h3, h4, _⟩ := h.insert' ht hk hrun
  exact ⟨free', es', ps', h1, h2, h3, h4⟩

theorem insert_wrong {t : Tree} {k : RV} {v : MemPtr} {s : PF} (h0 : t.cfg.width ≠ 0)
    (h1 : UInt16.ofNat k.value.length ≠ t.cfg.width - 1) :
    t.insert k v s = (.err (.msg "key does not match with BPTree width"), s) := by
  unfold Tree.insert
  rw [if_pos ⟨h0, h1⟩]; rfl

/-- On a fixed-width tree a key is either storable, or rejected (unless its length is 65536 or more). -/
theorem wrong_or_ok {cfg : Cfg} {k : RV} (h0 : cfg.width ≠ 0) (hl : k.value.length < 65536) :
    KeyOK cfg k ∨ UInt16.ofNat k.value.length ≠ cfg.width - 1 := by
  by_cases h : UInt16.ofNat k.value.length = cfg.width - 1
  · left
    unfold KeyOK
    rw [if_neg h0, ← h, UInt16.toNat_ofNat_of_lt' (by show k.value.length < 2 ^ 16; omega)]
  · exact .inr h

theorem ForestInv.rejected {ts : List Tree} {s c free E P} {i : Nat} {t : Tree} {k v s' m} (h : ForestInv ts s c free E P) (ht : ts[i]? = some t)
    (hk : KeyOK t.cfg k ∨ t.cfg.width ≠ 0 ∧ k.value.length < 65536) (hrun : t.insert k v s = (.err (.msg m), s')) :
    ∃ p, s' = s.upd s.file.bytes p := by
  obtain ⟨hti, hw, hperm⟩ := h.tree i t ht
  have hcase : KeyOK t.cfg k ∨ (t.cfg.width ≠ 0 ∧ UInt16.ofNat k.value.length ≠ t.cfg.width - 1) := by
    rcases hk with hk | ⟨h0, hl⟩
    · exact .inl hk
    · rcases wrong_or_ok h0 hl with hk | hk
      · exact .inl hk
      · exact .inr ⟨h0, hk⟩
  rcases hcase with hk | ⟨h0, h1⟩
  · cases insert_out (value := v) hw.vlen hk hti with
    | dup p e he hk run => rw [hrun] at run; cases run; exact ⟨p, rfl⟩
    | full s1 new run big => rw [hrun] at run; simp at run
    | ok s1 free' es' ps' new run rel tree out fresh => rw [hrun] at run; simp at run
  · rw [insert_wrong h0 h1] at hrun
    cases hrun
    exact ⟨s.file.pos, rfl⟩

theorem ForestInv.find {ts : List Tree} {s c free E P} {i : Nat} {t : Tree} {k r s'} (h : ForestInv ts s c free E P) (ht : ts[i]? = some t)
    (hrun : t.find k s = (.ok r, s')) : ∃ p, s' = s.upd s.file.bytes p := by
  obtain ⟨p, on, _, _, h1⟩ := find_ok (h.tree i t ht).1 k
  rcases h1 with ⟨_, k', v', _, h2⟩ | ⟨_, h2⟩
  · rw [hrun] at h2; cases h2; exact ⟨p, rfl⟩
  · rw [hrun] at h2; cases h2; exact ⟨p, rfl⟩

theorem decode_zeros : (MemPtr.decode (List.replicate 12 0)) = ⟨0, 0⟩ := by decide

theorem ForestInv.plant {ts news s s' c free E P buf off} (h : ForestInv ts s c free E P)
    (hrun : PF.newPage buf s = (.ok off, s')) (hs : SlotsOK news) (hw : ∀ t ∈ news, WidthOK t)
    (hz : ∀ t ∈ news, ((t.rootPos / pageSize * pageSize : Nat) : Int) = off ∧
        slice s'.file.bytes t.rootPos 12 = List.replicate 12 0) :
    ∃ free' E' P', ForestInv (ts ++ news) s' c free' E' P' := by
  by_cases hl : (buf.getD []).length ≤ pageSize
  rotate_left
  · rw [newPage_too_large s buf (by omega)] at hrun; simp at hrun
  rcases newPage_spec h.valid h.budget buf hl with ⟨o, s1, free', n1, n2, n3, n4, n5, n6, n7, n8, n9, n10, n11⟩ | ⟨s1, n1, _⟩
  rotate_left
  · rw [hrun] at n1; simp at n1
  rw [hrun] at n1
  cases n1
  have hget : ∀ i t, (ts ++ news)[i]? = some t → (i < ts.length ∧ ts[i]? = some t) ∨ (ts.length ≤ i ∧ news[i - ts.length]? = some t) := by
    intro i t hit
    rw [List.getElem?_append] at hit
    split at hit
    · exact .inl ⟨by assumption, hit⟩
    · exact .inr ⟨by omega, hit⟩
  have hnew : ∀ i t, news[i - ts.length]? = some t → slotPage t.rootPos = o ∧ t.rootPos % pageSize + 12 ≤ pageSize ∧ WidthOK t ∧
      slice s'.file.bytes t.rootPos 12 = List.replicate 12 0 := by
    intro i t hit
    have hm := List.mem_of_getElem? hit
    obtain ⟨z1, z2⟩ := hz t hm
    exact ⟨by rw [slotPage_eq_div]; omega, hs.1 t hm, hw t hm, z2⟩
  refine ⟨free', fun i => if i < ts.length then E i else [], fun i => if i < ts.length then P i else [],
    ⟨n2, n3, ?_, ?_, ?_⟩⟩
  · intro i t hit
    rcases hget i t hit with ⟨hi, hit⟩ | ⟨hi, hit⟩
    · simp only [if_pos hi]
      obtain ⟨a1, a2, a3⟩ := h.tree i t hit
      refine ⟨a1.keep n2 n3 (fun p hp => (n7 p hp).1) n9 (fun p hp => (n7 p (a1.live p hp)).2) ?_, a2, a3⟩
      have := (n7 _ a1.slotLive).2
      have h2 := congrArg (fun x => slice x (t.rootPos % pageSize) 12) this
      simp only [pageAt] at h2
      rw [slice_slice (by have := a1.slot; omega), slice_slice (by have := a1.slot; omega), slotPage_add] at h2
      exact h2
    · simp only [if_neg (Nat.not_lt.2 hi)]
      obtain ⟨b1, b2, b3, b4⟩ := hnew i t hit
      refine ⟨⟨n2, n3, b2, by rw [b1]; exact n5, by simp, by simp, by simp, .inl ⟨?_, rfl, rfl⟩⟩, b3, ?_⟩
      · rw [b4, decode_zeros]
      · rw [h.empty i hi]
  · intro i j t u hij hit hju
    rcases hget i t hit with ⟨hi, hit⟩ | ⟨hi, hit⟩
    · simp only [if_pos hi]
      rcases hget j u hju with ⟨hj, hju⟩ | ⟨hj, hju⟩
      · simp only [if_pos hj]
        exact h.apart i j t u hij hit hju
      · simp only [if_neg (Nat.not_lt.2 hj)]
        obtain ⟨b1, b2, b3, b4⟩ := hnew j u hju
        obtain ⟨a1, a2, a3⟩ := h.tree i t hit
        refine ⟨by simp, ?_, ?_⟩
        · have hne : slotPage t.rootPos ≠ slotPage u.rootPos := fun hc => n4 (b1 ▸ hc ▸ a1.slotLive)
          have := page_ne_disjoint (slotPage_mod t.rootPos) (slotPage_mod u.rootPos) hne
          have h1 := slotPage_add t.rootPos
          have h2 := slotPage_add u.rootPos
          have h3 := a1.slot
          unfold SlotsApart; omega
        · rw [b1]; intro hc; exact n4 (a1.live _ hc)
    · simp only [if_neg (Nat.not_lt.2 hi)]
      obtain ⟨b1, b2, b3, b4⟩ := hnew i t hit
      refine ⟨by simp, ?_, by simp⟩
      rcases hget j u hju with ⟨hj, hju⟩ | ⟨hj, hju⟩
      · obtain ⟨a1, a2, a3⟩ := h.tree j u hju
        have hne : slotPage u.rootPos ≠ slotPage t.rootPos := fun hc => n4 (b1 ▸ hc ▸ a1.slotLive)
        have := page_ne_disjoint (slotPage_mod u.rootPos) (slotPage_mod t.rootPos) hne
        have h1 := slotPage_add t.rootPos
        have h2 := slotPage_add u.rootPos
        have h3 := a1.slot
        unfold SlotsApart; omega
      · have hp := List.pairwise_iff_getElem.1 hs.2
        obtain ⟨i1, i2⟩ := List.getElem?_eq_some_iff.1 hit
        obtain ⟨j1, j2⟩ := List.getElem?_eq_some_iff.1 hju
        unfold SlotsApart
        rcases Nat.lt_or_ge i j with hlt | hge
        · have := hp (i - ts.length) (j - ts.length) i1 j1 (by omega)
          rw [i2, j2] at this; exact this
        · have := hp (j - ts.length) (i - ts.length) j1 i1 (by omega)
          rw [i2, j2] at this; exact this.symm
  · intro i hi
    simp only [List.length_append] at hi
    exact h.empty i (by omega)

theorem TreeIs.grow {t s free es ps} (h : TreeIs t s free es ps) (more : Bytes) :
    TreeIs (growData more t) s free es ps := by
  refine ⟨h.valid, h.budget, h.slot, h.slotLive, h.slotOut, h.nodup, h.live, ?_⟩
  rcases h.root with h0 | ⟨h0, k, hr, hbig, hden⟩
  · exact .inl h0
  · exact .inr ⟨h0, k, hr.extend more, hbig, hr.denseBelow_map (fun _ _ _ hn _ => hn.extend more) hden⟩

theorem ForestInv.grow {ts s c free E P} (h : ForestInv ts s c free E P) (more : Bytes) :
    ForestInv (ts.map (growData more)) s c free E P := by
  refine ⟨h.valid, h.budget, ?_, ?_, ?_⟩
  · intro i t hit
    rw [List.getElem?_map] at hit
    obtain ⟨u, hu, rfl⟩ := Option.map_eq_some_iff.1 hit
    obtain ⟨a1, a2, a3⟩ := h.tree i u hu
    exact ⟨a1.grow more, a2, a3⟩
  · intro i j t u hij hit hju
    rw [List.getElem?_map] at hit hju
    obtain ⟨t', ht', rfl⟩ := Option.map_eq_some_iff.1 hit
    obtain ⟨u', hu', rfl⟩ := Option.map_eq_some_iff.1 hju
    exact h.apart i j t' u' hij ht' hu'
  · intro i hi; exact h.empty i (by simpa using hi)

theorem ForestInv.reopen {ts s s' c free E P f f'} (h : ForestInv ts s c free E P) (hb : f.bytes = s.file.bytes)
    (hu : f.budget = none) (hrun : PF.openFile f = (.ok s', f')) :
    ForestInv ts s' c free E P ∧ s'.file.bytes = s.file.bytes := by
  obtain ⟨s2, hr2, hv, hbytes, _, hbud, _, _⟩ := openFile_valid' h.valid f hb
  rw [hr2] at hrun
  cases hrun
  have hbb : s'.file.bytes = s.file.bytes := by rw [hbytes, hb]
  refine ⟨⟨hv, by rw [hbud, hu], ?_, h.apart, h.empty⟩, hbb⟩
  intro i t hit
  obtain ⟨a1, a2, a3⟩ := h.tree i t hit
  refine ⟨a1.keep hv (by rw [hbud, hu]) ?_ (by rw [hbb]; omega) (by rw [hbb]; simp) (by rw [hbb]), a2, a3⟩
  intro p hp; unfold Live at *; rw [hbb]; exact hp

theorem forestInv {ts : List Tree} {s : PF} {c : Nat → List (RV × MemPtr)} (h : ForestRun ts s c) :
    ∃ free E P, ForestInv ts s c free E P := by
  induction h with
  | @start ts s owned freed n ha hs hw hz =>
    have hi := allocRun_inv ha
    refine ⟨freed, fun _ => [], fun _ => [], ⟨hi.valid, hi.budget, ?_, ?_, fun _ _ => rfl⟩⟩
    · intro i t hit
      have hm := List.mem_of_getElem? hit
      obtain ⟨z1, z2⟩ := hz t hm
      refine ⟨⟨hi.valid, hi.budget, hs.1 t hm, ?_, by simp, by simp, by simp, .inl ⟨?_, rfl, rfl⟩⟩, hw t hm, .nil⟩
      · rw [slotPage_eq_div]; exact (hi.owned_iff _).1 z1
      · rw [z2, decode_zeros]
    · intro i j t u hij hit hju
      refine ⟨by simp, ?_, by simp⟩
      have hp := List.pairwise_iff_getElem.1 hs.2
      obtain ⟨i1, i2⟩ := List.getElem?_eq_some_iff.1 hit
      obtain ⟨j1, j2⟩ := List.getElem?_eq_some_iff.1 hju
      unfold SlotsApart
      rcases Nat.lt_or_ge i j with hlt | hge
      · have := hp i j i1 j1 hlt
        rw [i2, j2] at this; exact this
      · have := hp j i j1 i1 (by omega)
        rw [i2, j2] at this; exact this.symm
  | insert hf ht hk h ih =>
    obtain ⟨free, E, P, hi⟩ := ih
    obtain ⟨free', es', ps', h1, _⟩ := hi.insert ht hk h
    exact ⟨free', _, _, h1⟩
  | rejected hf ht hk h ih =>
    obtain ⟨free, E, P, hi⟩ := ih
    obtain ⟨p, rfl⟩ := hi.rejected ht hk h
    exact ⟨free, E, P, hi.upd p⟩
  | find hf ht h ih =>
    obtain ⟨free, E, P, hi⟩ := ih
    obtain ⟨p, rfl⟩ := hi.find ht h
    exact ⟨free, E, P, hi.upd p⟩
  | plant hf h hs hw hz ih =>
    obtain ⟨free, E, P, hi⟩ := ih
    exact hi.plant h hs hw hz
  | grow hf more ih =>
    obtain ⟨free, E, P, hi⟩ := ih
    exact ⟨free, E, P, hi.grow more⟩
  | reopen hf hb hu h ih =>
    obtain ⟨free, E, P, hi⟩ := ih
    exact ⟨free, E, P, (hi.reopen hb hu h).1⟩

end Appendable
