import Verif.Lemmas.MetaInv
/-! `AddNext`, `NewMultiBPTree` on page files in order. -/
namespace Appendable
open Spec Tree

theorem writeAt_getElem?_out {l : Bytes} {off : Nat} {b : Bytes} (h : off ≤ l.length) {i : Nat} (hi : i < off ∨ off + b.length ≤ i) :
    (writeAt l off b)[i]? = l[i]? := by
  have := slice_writeAt_disjoint (l := l) (b := b) (p := i) (n := 1) h (by omega)
  have h2 := congrArg (fun x => x[0]?) this
  simpa [slice_getElem?] using h2

theorem File.read_eof {f : File} {n : Nat} (hn : 0 < n) (h : f.pos = f.bytes.length) : File.read n f = (.ok ([], true), f) := by
  obtain ⟨kind, bytes, pos, bud⟩ := f
  simp only at h
  subst h
  unfold File.read
  cases kind with
  | buffer => simp
  | mmap => simp [hn]

/-- A page file in order whose meta pages `ps` (with `c` slots on the last one) hold the metadata `ds`. -/
structure SlotsIn (s : PF) (free ps : List Nat) (c : Nat) (ds : List Bytes) : Prop where
  valid : s.Valid free
  budget : s.file.budget = none
  live : ∀ p ∈ ps, Live s free p
  inv : MetaInv s.file.bytes ps c ds

/-- What `AddNext` at the end does. -/
structure AddedSlot (s : PF) (free ps : List Nat) (c : Nat) (ds : List Bytes) (x : Nat × Nat) (s' : PF) (free' ps' : List Nat) (c' : Nat) :
    Prop where
  slots : SlotsIn s' free' ps' c' (ds ++ [[]])
  places : places ps' c' = places ps c ++ [x]
  root : slice s'.file.bytes (slotPos x.1 x.2) 12 = List.replicate 12 0
  live : ∀ p, Live s free p → Live s' free' p
  same : ∀ p, Live s free p → ∀ j, j < pageSize → (p ∈ ps → 9 ≤ j) → s'.file.bytes[p + j]? = s.file.bytes[p + j]?
  fresh : ∀ p ∈ ps', p ∈ ps ∨ ¬ Live s free p
  len : s.file.bytes.length ≤ s'.file.bytes.length
  bound : s'.file.bytes.length ≤ s.file.bytes.length + pageSize
  used : ∀ p, Live s' free' p → Live s free p ∨ p ∈ ps'
  keep : ∀ p ∈ ps, p ∈ ps'
  nofree : free = [] → free' = []

theorem addNext_last {s : PF} {free ps : List Nat} {c : Nat} {ds : List Bytes} (h : SlotsIn s free ps c ds) {m : LP}
    (ho : m.offset = UInt64.ofNat (lastPg ps)) (hi : m.index + 1 = UInt8.ofNat c) :
    (∃ x s' free' ps' c', m.addNext s = (.ok (slotAt x), s') ∧ AddedSlot s free ps c ds x s' free' ps' c') ∨
    (∃ s', m.addNext s = (.err .io, s') ∧ 2 ^ 63 ≤ s.file.bytes.length + pageSize) := by
  have hne := h.inv.ne
  have hlm := lastPg_mem hne
  have hcle := h.inv.cle
  have hlv := h.live _ hlm
  have hon : OnPage s.file.bytes m (lastPg ps) := by
    obtain ⟨o, i⟩ := m
    simp only at ho; subst ho
    exact h.inv.pages.onPage hlm i
  have hin := hon.inside
  have hsm := hon.small
  have hhd := h.inv.chain.last
  have hlt : ¬ m.index + 1 < UInt8.ofNat c := by rw [hi, UInt8.lt_iff_toNat_lt]; omega
  by_cases hc : c < 15
  · left
    have hc15 : UInt8.ofNat c ≠ UInt8.ofNat numSlots := by
      intro hcc
      have := congrArg UInt8.toNat hcc
      rw [u8_small (by omega), u8_small (by unfold numSlots; omega)] at this
      unfold numSlots at this; omega
    have hoff8 : (m.offset + 8).toNat = lastPg ps + 8 := by
      rw [UInt64.toNat_add, hon.off]; simp; unfold pageSize at *; omega
    have hal := hon.aligned
    obtain ⟨n, q, hw⟩ := write_ok (s := s.upd s.file.bytes (lastPg ps + 8)) (b := [UInt8.ofNat c + 1]) h.budget
      (by simp only [upd_pos, upd_bytes]; unfold pageSize at *; omega)
      (by simp only [upd_pos, List.length_cons, List.length_nil]; unfold pageSize at *; omega)
      (by simp only [upd_pos, List.length_cons, List.length_nil]; unfold pageSize at *; omega)
    have hcc : UInt8.ofNat c + 1 = UInt8.ofNat (c + 1) := by simp
    rw [hcc] at hw
    have hfr := Frame.write h.valid h.budget hlv (r := 8) (b := [UInt8.ofNat (c + 1)]) (by simp; unfold pageSize; omega) q
    have hx : (⟨m.offset, m.index + 1⟩ : LP) = slotAt (lastPg ps, c) := by
      unfold slotAt; rw [ho, hi]
    refine ⟨(lastPg ps, c), s.upd (writeAt s.file.bytes (lastPg ps + 8) [UInt8.ofNat (c + 1)]) q, free, ps, c + 1, ?_, ?_⟩
    · unfold LP.addNext
      rw [Act.bind_ok (lp_count_ok hon hhd), if_neg hlt, if_pos hc15, Act.bind_ok (seekU64_ok hoff8 (by simp only [upd_bytes]; unfold pageSize at *; omega)
        (by unfold pageSize at *; omega))]
      rw [hcc]
      rw [show ((s.upd s.file.bytes (lastPg ps + 9)).upd (s.upd s.file.bytes (lastPg ps + 9)).file.bytes (lastPg ps + 8)) =
        s.upd s.file.bytes (lastPg ps + 8) from rfl, Act.bind_ok hw, ← hx]
      rfl
    · refine ⟨⟨hfr.1.valid, hfr.1.budget, fun p hp => hfr.1.live p (h.live p hp), h.inv.bump hc⟩, places_succ hne, ?_, hfr.1.live, ?_,
        fun p hp => .inl hp, hfr.1.len, by simp only [upd_bytes]; rw [hfr.2]; omega,
        fun p hp => .inl ⟨hp.1, hp.2.1, by have := hp.2.2.1; simp only [upd_bytes] at this; rw [hfr.2] at this; exact this, hp.2.2.2⟩, fun p hp => hp, id⟩
      · simp only [upd_bytes]
        rw [slice_writeAt_disjoint (by unfold pageSize at *; omega) (by unfold slotPos; simp)]
        have h0 := congrArg (fun x => slice x 0 12) h.inv.zero
        simp only [slice_slice (show 0 + 12 ≤ 4087 - 265 * c by omega), Nat.add_zero] at h0
        rw [h0]
        unfold slice
        rw [List.drop_replicate, List.take_replicate, Nat.min_eq_left (by omega)]
      · intro p hp j hj hpj
        simp only [upd_bytes]
        refine writeAt_getElem?_out (by unfold pageSize at *; omega) ?_
        simp only [List.length_cons, List.length_nil]
        by_cases hpl : p = lastPg ps
        · have := hpj (hpl ▸ hlm); omega
        · have := page_apart hp.1 hlv.1 hpl; unfold pageSize at *; omega
  · have hc15 : c = 15 := by omega
    subst hc15
    have hrun : m.addNext s = (do
        let offset ← PF.newPage none
        let next : LP := ⟨UInt64.ofNat (u64OfInt offset), 0⟩
        next.reset 1
        let _ ← LP.seekU64 m.offset
        let _ ← PF.write (leBytes 8 next.offset.toNat)
        return next) (s.upd s.file.bytes (lastPg ps + 8)) := by
      unfold LP.addNext
      rw [Act.bind_ok (lp_count_ok hon hhd), if_neg hlt, if_neg (by decide),
        Act.bind_ok (lp_nextPageOffset_ok (s := s.upd s.file.bytes (lastPg ps + 9)) hon hhd), if_neg (by simp)]
      rfl
    rw [hrun]
    have hf0 := Frame.upd_pos h.valid h.budget (lastPg ps + 8) []
    rcases newPage_spec' hf0.valid h.budget none (by simp) with
      ⟨o, s1, free1, n1, n2, n3, n4, n5, n6, n7, n8, n9, n10, n11, n12⟩ | ⟨s1, n1, n2⟩
    · left
      have hsm1 := n2.small
      have ho1 := n5.inside n2
      have hou : (UInt64.ofNat o).toNat = o := UInt64.toNat_ofNat_of_lt' (by show o < 2 ^ 64; omega)
      have hu64 : UInt64.ofNat (u64OfInt (o : Int)) = UInt64.ofNat o := by
        have := ofNat_u64OfInt (UInt64.ofNat o); rw [hou] at this; exact this
      have hlast1 : Live s1 free1 (lastPg ps) := (n7 _ hlv).1
      have hlast1i := hlast1.inside n2
      have hne : lastPg ps ≠ o := fun hc => n4 (hc ▸ hlv)
      -- reset
      obtain ⟨a2, p2, w2⟩ := write_ok (s := s1.upd s1.file.bytes o) (b := LP.emptyPage 1) n3
        (by simp only [upd_pos, upd_bytes]; omega) (by simp only [upd_pos]; rw [emptyPage_length]; omega)
        (by simp only [upd_pos]; rw [emptyPage_length, n5.1]; omega)
      have f2 := Frame.write n2 n3 n5 (r := 0) (b := LP.emptyPage 1) (by rw [emptyPage_length]; omega) p2
      rw [Nat.add_zero] at f2
      have hreset : (⟨UInt64.ofNat o, 0⟩ : LP).reset 1 s1 = (.ok (), s1.upd (writeAt s1.file.bytes o (LP.emptyPage 1)) p2) := by
        unfold LP.reset
        rw [Act.bind_ok (seekU64_ok hou (by omega) (by omega)), Act.bind_ok w2]; rfl
      have hlen2 := f2.2
      obtain ⟨f2, -⟩ := f2
      generalize hs2 : s1.upd (writeAt s1.file.bytes o (LP.emptyPage 1)) p2 = s2 at *
      have hb2 : s2.file.bytes = writeAt s1.file.bytes o (LP.emptyPage 1) := by rw [← hs2]; rfl
      have hl2 : s2.file.bytes.length = s1.file.bytes.length := by rw [hb2]; exact hlen2
      have hlast2 := f2.live _ hlast1
      -- next pointer
      have h8 : (leBytes 8 o).length = 8 := by simp
      obtain ⟨a3, p3, w3⟩ := write_ok (s := s2.upd s2.file.bytes (lastPg ps)) (b := leBytes 8 o) f2.budget
        (by simp only [upd_pos, upd_bytes]; omega) (by simp only [upd_pos]; rw [h8]; unfold pageSize at *; omega)
        (by simp only [upd_pos]; rw [h8, hlast2.1]; unfold pageSize; omega)
      have f3 := Frame.write f2.valid f2.budget hlast2 (r := 0) (b := leBytes 8 o) (by rw [h8]; unfold pageSize; omega) p3
      rw [Nat.add_zero] at f3
      have hle2 : lastPg ps ≤ s2.file.bytes.length := by omega
      have hx : (⟨UInt64.ofNat o, 0⟩ : LP) = slotAt (o, 0) := rfl
      have hap := page_apart hlv.1 n5.1 hne
      -- bytes
      have hsame : ∀ p, Live s free p → ∀ j, j < pageSize → (p = lastPg ps → 8 ≤ j) →
          (writeAt s2.file.bytes (lastPg ps) (leBytes 8 o))[p + j]? = s.file.bytes[p + j]? := by
        intro p hp j hj hpj
        have e1 : s1.file.bytes[p + j]? = s.file.bytes[p + j]? := by
          have := congrArg (fun x => x[j]?) (n7 p hp).2
          simpa [pageAt, slice_getElem?, hj] using this
        have hpo : p ≠ o := fun hc => n4 (hc ▸ hp)
        have hpa := page_apart hp.1 n5.1 hpo
        have e2 : s2.file.bytes[p + j]? = s1.file.bytes[p + j]? := by
          rw [hb2]
          exact writeAt_getElem?_out (by omega) (by rw [emptyPage_length]; unfold pageSize at *; omega)
        rw [← e1, ← e2]
        refine writeAt_getElem?_out hle2 ?_
        rw [h8]
        by_cases hpl : p = lastPg ps
        · have := hpj hpl; omega
        · have := page_apart hp.1 hlv.1 hpl; unfold pageSize at *; omega
      have hnew : slice (writeAt s2.file.bytes (lastPg ps) (leBytes 8 o)) o pageSize = LP.emptyPage 1 := by
        rw [slice_writeAt_disjoint hle2 (by rw [h8]; unfold pageSize at *; omega), hb2]
        have := slice_writeAt_same (l := s1.file.bytes) (off := o) (b := LP.emptyPage 1) (by omega)
        rw [emptyPage_length] at this; exact this
      have hptr : slice (writeAt s2.file.bytes (lastPg ps) (leBytes 8 o)) (lastPg ps) 8 = leBytes 8 o := by
        have := slice_writeAt_same (l := s2.file.bytes) (off := lastPg ps) (b := leBytes 8 o) hle2
        rw [h8] at this; exact this
      have hlen3 : (writeAt s2.file.bytes (lastPg ps) (leBytes 8 o)).length = s1.file.bytes.length := by rw [f3.2, hl2]
      have hnl : ∀ p, Live s free p → Live (s.upd s.file.bytes (lastPg ps + 8)) free p := fun p hp => hp
      have hlen1 : s.file.bytes.length ≤ s1.file.bytes.length := n9
      refine ⟨(o, 0), s2.upd (writeAt s2.file.bytes (lastPg ps) (leBytes 8 o)) p3, free1, ps ++ [o], 1, ?_, ?_⟩
      · rw [Act.bind_ok n1]
        simp only
        rw [hu64, Act.bind_ok hreset, Act.bind_ok (seekU64_ok hon.off (by omega) (by unfold pageSize at *; omega)), hou, Act.bind_ok w3]
        rfl
      · refine ⟨⟨f3.1.valid, f3.1.budget, ?_, ?_⟩, places_snoc h.inv.ne, ?_, ?_, ?_, ?_, ?_, ?_, ?_, fun p hp => by simp [hp], n12⟩
        · intro p hp
          rcases List.mem_append.1 hp with hp | hp
          · exact f3.1.live p (f2.live p (n7 p (h.live p hp)).1)
          · simp only [List.mem_singleton] at hp; subst hp; exact f3.1.live _ (f2.live _ n5)
        · refine h.inv.newPage (fun hc => n4 (h.live _ hc)) n5.1 n5.2.1 (by simp only [upd_bytes]; rw [hlen3]; exact ho1)
            (by simp only [upd_bytes]; rw [hlen3]; exact hlen1) (by simp only [upd_bytes]; rw [hlen3]; exact hsm1) ?_ hnew hptr
          intro p hp j hj hpj
          exact hsame p (h.live p hp) j hj hpj
        · have e : slotPos o 0 = o + 9 := by unfold slotPos; omega
          show slice _ (slotPos o 0) 12 = _
          rw [e]
          exact emptyPage_zero hnew (by omega) (by omega)
        · intro p hp; exact f3.1.live p (f2.live p (n7 p hp).1)
        · intro p hp j hj hpj
          exact hsame p hp j hj (fun hc => by have := hpj (hc ▸ hlm); omega)
        · intro p hp
          rcases List.mem_append.1 hp with hp | hp
          · exact .inl hp
          · simp only [List.mem_singleton] at hp; subst hp; exact .inr n4
        · simp only [upd_bytes]; rw [hlen3]; exact hlen1
        · simp only [upd_bytes]; rw [hlen3]; exact n10
        · intro p hp
          have h3 := hp.2.2.1
          simp only [upd_bytes] at h3
          rw [hlen3] at h3
          rcases n8 p ⟨hp.1, hp.2.1, h3, hp.2.2.2⟩ with rfl | h
          · exact .inr (by simp)
          · exact .inl h
    · right
      exact ⟨s1, by rw [Act.bind_err n1], n2⟩

/-- The last handle of the list. -/
theorem last_handle {s : PF} {free ps : List Nat} {c : Nat} {ds : List Bytes} (h : SlotsIn s free ps c ds) {m : LP}
    (hm : (headAt pageSize :: (places ps c).map slotAt).getLast? = some m) :
    m.offset = UInt64.ofNat (lastPg ps) ∧ m.index + 1 = UInt8.ofNat c := by
  cases c with
  | zero =>
    obtain ⟨r, hr⟩ := h.inv.first
    have hr2 : r = [] := by
      apply Classical.byContradiction
      intro hne
      have := h.inv.cpos (by rw [hr]; cases r with | nil => exact absurd rfl hne | cons a b => simp)
      omega
    subst hr2; subst hr
    have he : m = headAt pageSize := by
      have : places [pageSize] 0 = [] := rfl
      rw [this] at hm
      simpa using hm.symm
    rw [he]
    exact ⟨rfl, by decide⟩
  | succ c =>
    rw [places_succ h.inv.ne, List.map_append, List.map_cons, List.map_nil, ← List.cons_append, List.getLast?_append] at hm
    simp only [List.getLast?_singleton, Option.some_or, Option.some.injEq] at hm
    subst hm
    refine ⟨rfl, ?_⟩
    unfold slotAt
    simp

/-- `NewMultiBPTree` on an existing list. -/
theorem newMulti_ok {s : PF} {ps : List Nat} {c : Nat} {ds : List Bytes} (h : MetaInv s.file.bytes ps c ds) :
    ∃ q, LP.newMulti s = (.ok (headAt pageSize), s.upd s.file.bytes q) := by
  obtain ⟨r, hr⟩ := h.first
  obtain ⟨h1, h2, h3⟩ := h.pages.page pageSize (by rw [hr]; simp)
  unfold LP.newMulti
  have hp : PF.page 0 = .ok ((pageSize : Nat) : Int) := by decide
  rw [Act.bind_ok (a := ((pageSize : Nat) : Int)) (s' := s) (by rw [hp]; rfl)]
  simp only
  rw [Act.bind_ok (seek_ok (by omega)), Act.bind_ok (read_ok (s := s.upd s.file.bytes pageSize) (by unfold pageSize; omega) h3
    (by simp only [upd_pos]; rw [h1]; omega))]
  exact ⟨_, rfl⟩

/-- `NewMultiBPTree` on a page file without meta pages. -/
theorem newMulti_fresh {s : PF} (hv : s.Valid []) (hb : s.file.budget = none) (hl : s.file.bytes.length = pageSize) :
    ∃ s', LP.newMulti s = (.ok (headAt pageSize), s') ∧ SlotsIn s' [] [pageSize] 0 [] ∧ s'.lastPage = s.lastPage ∧
      s'.file.bytes.length = 2 * pageSize ∧ s'.file.kind = s.file.kind := by
  unfold LP.newMulti
  have hp : PF.page 0 = .ok ((pageSize : Nat) : Int) := by decide
  have h63 : pageSize < 2 ^ 62 := by decide
  have hread : PF.read pageSize (s.upd s.file.bytes pageSize) = (.ok ([], true), s.upd s.file.bytes pageSize) := by
    unfold PF.read
    rw [Act.bind_ok (onFile_run (File.seekCur_ok (by simp only [upd_pos, upd_bytes]; omega)))]
    rw [tmod_nat, if_neg (by simp only [upd_pos]; rw [Nat.mod_self]; omega)]
    exact onFile_run (File.read_eof (by unfold pageSize; omega) (by simp only [upd_pos, upd_bytes]; omega))
  obtain ⟨a2, p2, w2⟩ := write_ok (s := s.upd s.file.bytes pageSize) (b := LP.emptyPage 0) hb
    (by simp only [upd_pos, upd_bytes]; omega) (by simp only [upd_pos]; rw [emptyPage_length]; omega)
    (by simp only [upd_pos]; rw [emptyPage_length, Nat.mod_self]; omega)
  have hb2 : writeAt s.file.bytes pageSize (LP.emptyPage 0) = s.file.bytes ++ LP.emptyPage 0 := by
    have := writeAt_end s.file.bytes (LP.emptyPage 0); rw [hl] at this; exact this
  simp only [upd_bytes, upd_pos, upd_upd, hb2] at w2
  have hlen : (s.file.bytes ++ LP.emptyPage 0).length = 2 * pageSize := by rw [List.length_append, emptyPage_length]; omega
  refine ⟨s.upd (s.file.bytes ++ LP.emptyPage 0) p2, ?_, ?_, rfl, hlen, rfl⟩
  · rw [Act.bind_ok (a := ((pageSize : Nat) : Int)) (s' := s) (by rw [hp]; rfl)]
    simp only
    rw [Act.bind_ok (seek_ok (by omega)), Act.bind_ok hread]
    simp only [if_true]
    have hu : (UInt64.ofNat (u64OfInt ((pageSize : Nat) : Int))).toNat = pageSize := by decide
    rw [Act.bind_ok (a := ()) (s' := s.upd (s.file.bytes ++ LP.emptyPage 0) p2)]
    · rfl
    · unfold LP.reset
      rw [Act.bind_ok (seekU64_ok hu (by simp only [upd_bytes]; omega) (by omega))]
      simp only [upd_bytes, upd_upd]
      rw [Act.bind_ok w2]; rfl
  · refine ⟨⟨hv.ringOK.of_same rfl rfl rfl, ?_, ?_, ?_, ?_, hv.nodup, by simp⟩, hb, ?_, MetaInv.fresh hlen ?_⟩
    · simp only [upd_bytes]; rw [hlen]; unfold pageSize; omega
    · simp only [upd_bytes]; rw [hlen]; omega
    · simp only [upd_bytes]; rw [hlen]; omega
    · simp only [upd_bytes]
      unfold pageAt
      rw [slice_append_left (by omega)]; exact hv.page0
    · intro p hp
      simp only [List.mem_singleton] at hp
      subst hp
      exact ⟨Nat.mod_self _, Nat.le_refl _, by simp only [upd_bytes]; rw [hlen]; unfold pageSize; omega, by simp⟩
    · simp only [upd_bytes]
      have := slice_append_right s.file.bytes (LP.emptyPage 0)
      rw [hl, emptyPage_length] at this; exact this

end Appendable
