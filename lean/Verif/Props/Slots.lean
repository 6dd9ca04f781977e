import Verif.Lemmas.SlotRun
/-! Properties C25–C28: the slots of the meta pages. -/
namespace Appendable
open Spec Tree

theorem _root_.Appendable.Spec.SlotHandle.at {s : PF} {m : LP} (h : SlotHandle s m) :
    AtSlot s.file.bytes m m.offset.toNat m.index.toNat :=
  ⟨rfl, rfl, h.2.2.2, h.1, h.2.1, h.2.2.1⟩

theorem u8_len {n : Nat} (h : n ≤ 255) : (UInt8.ofNat n).toNat = n := UInt8.toNat_ofNat_of_lt' (by show n < 256; omega)

theorem root_upd {s : PF} {B : Bytes} {q : Nat} {m : LP} {p i : Nat} (h : AtSlot B m p i) :
    (m.root (s.upd B q)).1 = .ok (MemPtr.decode (slice B (slotPos p i) 12)) := by
  rw [lp_root_ok (s := s.upd B q) h]; rfl

theorem metadata_upd {s : PF} {B : Bytes} {q : Nat} {m : LP} {p i : Nat} {n : UInt8} (h : AtSlot B m p i) (hn : B[slotPos p i + 12]? = some n) :
    (m.metadata (s.upd B q)).1 = if n = 255 then .panic else .ok (slice B (slotPos p i + 13) n.toNat) := by
  rw [lp_metadata_ok (s := s.upd B q) h hn]; rfl

/-- C25 (violated): after opening an index on an empty file, the page count is 1 although the file has 2 pages. -/
theorem C25_index_page_count_violated {f f' : File} {s s' : PF} {m : LP} (hf : f.bytes = []) (hb : f.budget = none)
    (h1 : PF.openFile f = (.ok s, f')) (h2 : LP.newMulti s = (.ok m, s')) :
    s'.file.bytes.length = 2 * 4096 ∧ s'.pageCount = 1 := by
  obtain ⟨s1, g1, g2, g3, g4, g5, g6⟩ := openFile_empty f hf hb
  rw [g1] at h1; cases h1
  obtain ⟨s2, e1, e2, e3, e4, _⟩ := newMulti_fresh g2 g5 (by rw [g3, List.length_replicate])
  rw [e1] at h2; cases h2
  refine ⟨e4, ?_⟩
  unfold PF.pageCount
  rw [e3]; exact g6

/-- The hypotheses of `C25_index_page_count_violated` are met by every empty file. -/
example (f : File) (hf : f.bytes = []) (hb : f.budget = none) :
    ∃ s s' m, PF.openFile f = (.ok s, s.file) ∧ LP.newMulti s = (.ok m, s') := by
  obtain ⟨s1, g1, g2, g3, g4, g5, _⟩ := openFile_empty f hf hb
  obtain ⟨s2, e1, _⟩ := newMulti_fresh g2 g5 (by rw [g3, List.length_replicate])
  exact ⟨s1, s2, _, g1, e1⟩

/-- C26: `SetRoot` succeeds on every slot, and `Root` then returns the pointer set. -/
theorem C26_root_round_trip {s : PF} {m : LP} (hm : SlotHandle s m) (hb : s.file.budget = none) (p : MemPtr) :
    ∃ s', m.setRoot p s = (.ok (), s') ∧ (m.root s').1 = .ok p := by
  obtain ⟨q, hq⟩ := lp_setRoot_ok hm.at hb p
  have hel := p.encode_length
  obtain ⟨f1, f2, f3⟩ := hm.at.fit
  have hlen : (writeAt s.file.bytes (slotPos m.offset.toNat m.index.toNat) p.encode).length = s.file.bytes.length := by
    rw [writeAt_length (by omega), hel]; omega
  refine ⟨_, hq, ?_⟩
  rw [root_upd (hm.at.of_length hlen)]

  have := slice_writeAt_same (l := s.file.bytes) (off := slotPos m.offset.toNat m.index.toNat) (b := p.encode) (by omega)
  rw [hel] at this
  rw [this, p.decode_encode]

/-- C26 (partial): `SetMetadata` accepts every string of at most 254 bytes on every slot, and `Metadata` then returns
it.  Missing: a string of 255 bytes is accepted too but cannot be read back, see `C26_metadata_violated`. -/
theorem C26_metadata_round_trip_partial {s : PF} {m : LP} (hm : SlotHandle s m) (hb : s.file.budget = none) {d : Bytes}
    (hd : d.length ≤ 254) : ∃ s', m.setMetadata d s = (.ok (), s') ∧ (m.metadata s').1 = .ok d := by
  obtain ⟨q, hq⟩ := lp_setMetadata_ok hm.at hb (d := d) (by omega)
  obtain ⟨f1, f2, f3⟩ := hm.at.fit
  have hlen : (writeAt s.file.bytes (slotPos m.offset.toNat m.index.toNat + 12) (UInt8.ofNat d.length :: d)).length = s.file.bytes.length := by
    rw [writeAt_length (by omega), List.length_cons]; omega
  refine ⟨_, hq, ?_⟩
  have hs := slice_writeAt_same (l := s.file.bytes) (off := slotPos m.offset.toNat m.index.toNat + 12) (b := UInt8.ofNat d.length :: d) (by omega)
  have hn := congrArg (fun x => x[0]?) hs
  have hdd := congrArg (fun x => slice x 1 d.length) hs
  simp only [slice_getElem?, List.length_cons, if_pos (show 0 < d.length + 1 by omega), Nat.add_zero, List.getElem?_cons_zero] at hn
  simp only [List.length_cons] at hdd
  rw [slice_slice (by omega)] at hdd
  rw [metadata_upd (hm.at.of_length hlen) hn]
  have hne : UInt8.ofNat d.length ≠ 255 := by
    intro hc
    have := congrArg UInt8.toNat hc
    rw [u8_len (by omega)] at this
    have h255 : (255 : UInt8).toNat = 255 := rfl
    omega
  rw [if_neg hne, u8_len (by omega)]

  rw [hdd]
  unfold slice; simp

/-- C26 (violated): metadata of 255 bytes is accepted by every slot, and `Metadata` panics afterwards. -/
theorem C26_metadata_violated {s : PF} {m : LP} (hm : SlotHandle s m) (hb : s.file.budget = none) {d : Bytes}
    (hd : d.length = 255) : ∃ s', m.setMetadata d s = (.ok (), s') ∧ (m.metadata s').1 = .panic := by
  obtain ⟨q, hq⟩ := lp_setMetadata_ok hm.at hb (d := d) (by omega)
  obtain ⟨f1, f2, f3⟩ := hm.at.fit
  have hlen : (writeAt s.file.bytes (slotPos m.offset.toNat m.index.toNat + 12) (UInt8.ofNat d.length :: d)).length = s.file.bytes.length := by
    rw [writeAt_length (by omega), List.length_cons]; omega
  refine ⟨_, hq, ?_⟩
  have hs := slice_writeAt_same (l := s.file.bytes) (off := slotPos m.offset.toNat m.index.toNat + 12) (b := UInt8.ofNat d.length :: d) (by omega)
  have hn := congrArg (fun x => x[0]?) hs
  simp only [slice_getElem?, List.length_cons, if_pos (show 0 < d.length + 1 by omega), Nat.add_zero, List.getElem?_cons_zero] at hn
  rw [metadata_upd (hm.at.of_length hlen) hn, if_pos (by rw [hd]; rfl)]

/-- C26: metadata of more than 255 bytes is rejected without effect (on every slot). -/
theorem C26_metadata_reject {s : PF} {m : LP} (hm : SlotHandle s m) {d : Bytes} (hd : 255 < d.length) :
    ∃ e, m.setMetadata d s = (.err e, s) :=
  ⟨_, lp_setMetadata_big hm.at.ne255 hd⟩

/-- Two different slots do not overlap. -/
theorem slots_apart {s : PF} {m n : LP} (hm : SlotHandle s m) (hn : SlotHandle s n) (hne : m ≠ n) :
    slotPos m.offset.toNat m.index.toNat + 265 ≤ slotPos n.offset.toNat n.index.toNat ∨
    slotPos n.offset.toNat n.index.toNat + 265 ≤ slotPos m.offset.toNat m.index.toNat := by
  obtain ⟨mo, mi⟩ := m
  obtain ⟨no, ni⟩ := n
  have a1 := hm.1; have a2 := hm.2.2.2; have b1 := hn.1; have b2 := hn.2.2.2
  simp only at *
  by_cases ho : mo.toNat = no.toNat
  · have hi : mi.toNat ≠ ni.toNat := by
      intro hc
      exact hne (by rw [UInt64.toNat_inj.1 ho, UInt8.toNat_inj.1 hc])
    rw [ho]; unfold slotPos; omega
  · have := page_apart (p := mo.toNat) (q := no.toNat) a1 b1 ho
    unfold slotPos; omega

/-- C27 (partial), for roots: setting the root of one slot changes neither the root of any other slot nor its
metadata, if that has at most 252 bytes. -/
theorem C27_set_root_isolated_partial {s s' : PF} {m n : LP} {p : MemPtr} (hm : SlotHandle s m) (hn : SlotHandle s n) (hne : m ≠ n)
    (hb : s.file.budget = none) (h : m.setRoot p s = (.ok (), s')) :
    (n.root s').1 = (n.root s).1 ∧
    ∀ d : Bytes, (n.metadata s).1 = .ok d → d.length ≤ 252 → (n.metadata s').1 = .ok d := by
  obtain ⟨q, hq⟩ := lp_setRoot_ok hm.at hb p
  rw [hq] at h; cases h
  have hel := p.encode_length
  obtain ⟨f1, f2, f3⟩ := hm.at.fit
  obtain ⟨g1, g2, g3⟩ := hn.at.fit
  have hap := slots_apart hm hn hne
  have hlen : (writeAt s.file.bytes (slotPos m.offset.toNat m.index.toNat) p.encode).length = s.file.bytes.length := by
    rw [writeAt_length (by omega), hel]; omega
  have hn' := hn.at.of_length hlen
  have hbyte : s.file.bytes[slotPos n.offset.toNat n.index.toNat + 12]? = some s.file.bytes[slotPos n.offset.toNat n.index.toNat + 12] :=
    List.getElem?_eq_getElem (by omega)
  generalize s.file.bytes[slotPos n.offset.toNat n.index.toNat + 12]'(by omega) = k at hbyte
  constructor
  · rw [root_upd hn', lp_root_ok hn.at]
    simp only [upd_bytes]
    rw [slice_writeAt_disjoint (by omega) (by omega)]
  · intro d hd hl
    rw [lp_metadata_ok hn.at hbyte] at hd
    rw [metadata_upd hn' (by
      rw [writeAt_getElem?_out (by omega) (by omega)]; exact hbyte)]
    simp only [upd_bytes] at *
    split at hd
    · simp at hd
    · rename_i hk
      rw [if_neg hk]
      have hd' := Res.ok.inj hd
      have hkl : k.toNat ≤ 252 := by
        have : (slice s.file.bytes (slotPos n.offset.toNat n.index.toNat + 13) k.toNat).length = k.toNat :=
          slice_length (by have := k.toNat_lt; omega)
        rw [hd'] at this; omega
      rw [slice_writeAt_disjoint (by omega) (by omega), hd']

/-- C27 (partial), for metadata: setting metadata of at most 252 bytes on one slot changes neither the root nor the
metadata of any other slot.  Missing: longer accepted metadata, see `C27_isolation_violated`. -/
theorem C27_set_metadata_isolated_partial {s s' : PF} {m n : LP} {d : Bytes} (hm : SlotHandle s m) (hn : SlotHandle s n) (hne : m ≠ n)
    (hb : s.file.budget = none) (hd : d.length ≤ 252) (h : m.setMetadata d s = (.ok (), s')) :
    (n.root s').1 = (n.root s).1 ∧ (n.metadata s').1 = (n.metadata s).1 := by
  obtain ⟨q, hq⟩ := lp_setMetadata_ok hm.at hb (d := d) (by omega)
  rw [hq] at h; cases h
  obtain ⟨f1, f2, f3⟩ := hm.at.fit
  obtain ⟨g1, g2, g3⟩ := hn.at.fit
  have hap := slots_apart hm hn hne
  have hlen : (writeAt s.file.bytes (slotPos m.offset.toNat m.index.toNat + 12) (UInt8.ofNat d.length :: d)).length = s.file.bytes.length := by
    rw [writeAt_length (by omega), List.length_cons]; omega
  have hn' := hn.at.of_length hlen
  have hbyte : s.file.bytes[slotPos n.offset.toNat n.index.toNat + 12]? = some s.file.bytes[slotPos n.offset.toNat n.index.toNat + 12] :=
    List.getElem?_eq_getElem (by omega)
  generalize s.file.bytes[slotPos n.offset.toNat n.index.toNat + 12]'(by omega) = k at hbyte
  have hk := k.toNat_lt
  constructor
  · rw [root_upd hn', lp_root_ok hn.at]
    simp only [upd_bytes]
    rw [slice_writeAt_disjoint (by omega) (by rw [List.length_cons]; omega)]
  · rw [lp_metadata_ok hn.at hbyte, metadata_upd hn' (by
      rw [writeAt_getElem?_out (by omega) (by rw [List.length_cons]; omega)]; exact hbyte)]
    simp only [upd_bytes]
    by_cases h255 : k = 255
    · rw [if_pos h255, if_pos h255]
    · rw [if_neg h255, if_neg h255]
      have : k.toNat ≠ 255 := fun hc => h255 (UInt8.toNat_inj.1 hc)
      rw [slice_writeAt_disjoint (by omega) (by rw [List.length_cons]; omega)]

theorem MemPtr.encode_decode {b : Bytes} (h : b.length = 12) : (MemPtr.decode b).encode = b := by
  unfold MemPtr.encode MemPtr.decode
  have l1 : (b.take 8).length = 8 := by rw [List.length_take]; omega
  have l2 : ((b.drop 8).take 4).length = 4 := by rw [List.length_take, List.length_drop]; omega
  have h1 := leNat_lt (b.take 8)
  have h2 := leNat_lt ((b.drop 8).take 4)
  rw [l1] at h1; rw [l2] at h2
  have e1 := leBytes_leNat (b.take 8)
  have e2 := leBytes_leNat ((b.drop 8).take 4)
  rw [l1] at e1; rw [l2] at e2
  simp only
  rw [UInt64.toNat_ofNat_of_lt' (show _ < 2 ^ 64 from h1), UInt32.toNat_ofNat_of_lt' (show _ < 2 ^ 32 from h2), e1, e2,
    List.take_of_length_le (i := 4) (by rw [List.length_drop]; omega), List.take_append_drop]

theorem slotPos_step (p : Nat) : slotPos p 1 - (slotPos p 0 + 12) = 252 + 1 := by unfold slotPos; omega

theorem fit12 {n k : Nat} (h : n + 272 ≤ k) : n + 12 ≤ k := by omega

theorem decode_lowbyte {a b : Bytes} (ha : a.length = 12) (hb : b.length = 12) (h : MemPtr.decode a = MemPtr.decode b) : a = b := by
  rw [← MemPtr.encode_decode ha, h, MemPtr.encode_decode hb]

/-- C27 (violated): for any two adjacent slots of a page, whatever they hold, there is metadata of 253 bytes that the
first slot accepts and that changes the root pointer of the second one.  Conversely there is metadata of 253 bytes and
a pointer such that setting the metadata on the first slot and then the root of the second one changes the metadata
of the first. -/
theorem C27_isolation_violated {s : PF} {m n : LP} (hm : SlotHandle s m) (hn : SlotHandle s n) (ho : n.offset = m.offset)
    (hi : n.index = m.index + 1) (hb : s.file.budget = none) :
    (∃ (d : Bytes) (s' : PF), d.length = 253 ∧ m.setMetadata d s = (.ok (), s') ∧ (n.root s').1 ≠ (n.root s).1) ∧
    (∃ (d : Bytes) (p : MemPtr) (s1 s2 : PF), d.length = 253 ∧ m.setMetadata d s = (.ok (), s1) ∧ n.setRoot p s1 = (.ok (), s2) ∧
      (m.metadata s1).1 = .ok d ∧ (m.metadata s2).1 ≠ .ok d) := by
  have hpos : slotPos n.offset.toNat n.index.toNat = slotPos m.offset.toNat m.index.toNat + 265 := by
    have h1 := hm.2.2.2; have h2 := hn.2.2.2
    have : n.index.toNat = m.index.toNat + 1 := by
      rw [hi, UInt8.toNat_add]
      show (m.index.toNat + 1) % 256 = _
      omega
    rw [ho, this]; unfold slotPos; omega
  obtain ⟨f1, f2, f3⟩ := hm.at.fit
  obtain ⟨g1, g2, g3⟩ := hn.at.fit
  have hlen : ∀ d : Bytes, d.length = 253 →
      (writeAt s.file.bytes (slotPos m.offset.toNat m.index.toNat + 12) (UInt8.ofNat d.length :: d)).length = s.file.bytes.length := by
    intro d hd
    rw [writeAt_length (by omega), List.length_cons]; omega
  constructor
  · -- the byte of the root that will be overwritten
    have hbyte : s.file.bytes[slotPos m.offset.toNat m.index.toNat + 265]? = some s.file.bytes[slotPos m.offset.toNat m.index.toNat + 265] :=
      List.getElem?_eq_getElem (by omega)
    generalize s.file.bytes[slotPos m.offset.toNat m.index.toNat + 265]'(by omega) = k at hbyte
    have hd : (List.replicate 253 (k + 1)).length = 253 := List.length_replicate
    obtain ⟨q, hq⟩ := lp_setMetadata_ok hm.at hb (d := List.replicate 253 (k + 1)) (by omega)
    refine ⟨List.replicate 253 (k + 1), _, hd, hq, ?_⟩
    have hn' := hn.at.of_length (hlen _ hd)
    rw [root_upd hn', lp_root_ok hn.at]
    simp only [upd_bytes]
    intro hc
    have hc := decode_lowbyte (slice_length (by rw [hlen _ hd]; omega)) (slice_length (by omega)) (Res.ok.inj hc)
    have hc := congrArg (fun x => x[0]?) hc
    simp only [slice_getElem?, if_pos (show 0 < 12 by omega), Nat.add_zero] at hc
    rw [hpos, hbyte, writeAt_getElem? _ (by omega), if_neg (by omega), if_pos (by rw [List.length_cons, hd]; omega)] at hc
    have e : slotPos m.offset.toNat m.index.toNat + 265 - (slotPos m.offset.toNat m.index.toNat + 12) = 252 + 1 := by omega
    rw [e, List.getElem?_cons_succ, List.getElem?_replicate, if_pos (by omega)] at hc
    have hc := congrArg UInt8.toNat (Option.some.inj hc)
    rw [UInt8.toNat_add] at hc
    have hk := k.toNat_lt
    have h1 : (1 : UInt8).toNat = 1 := rfl
    omega
  · have hd : (List.replicate 253 (1 : UInt8)).length = 253 := List.length_replicate
    obtain ⟨q, hq⟩ := lp_setMetadata_ok hm.at hb (d := List.replicate 253 (1 : UInt8)) (by omega)
    obtain ⟨s1, e1, e2⟩ := C26_metadata_round_trip_partial hm hb (d := List.replicate 253 (1 : UInt8)) (by omega)
    rw [hq] at e1
    have hs1 := (Prod.mk.inj e1).2
    have hn1 : AtSlot s1.file.bytes n n.offset.toNat n.index.toNat := by
      rw [← hs1]; exact hn.at.of_length (hlen _ hd)
    have hm1 : AtSlot s1.file.bytes m m.offset.toNat m.index.toNat := by
      rw [← hs1]; exact hm.at.of_length (hlen _ hd)
    have hb1 : s1.file.budget = none := by rw [← hs1]; exact hb
    obtain ⟨q2, hq2⟩ := lp_setRoot_ok hn1 hb1 ⟨0, 0⟩
    refine ⟨List.replicate 253 1, ⟨0, 0⟩, s1, _, hd, hq.trans e1, hq2, e2, ?_⟩
    have hel := (⟨0, 0⟩ : MemPtr).encode_length
    obtain ⟨f1', f2', f3'⟩ := hm1.fit
    obtain ⟨g1', g2', g3'⟩ := hn1.fit
    have hl2 : (writeAt s1.file.bytes (slotPos n.offset.toNat n.index.toNat) (⟨0, 0⟩ : MemPtr).encode).length = s1.file.bytes.length := by
      rw [writeAt_length (by omega), hel]; omega
    have h253 : s1.file.bytes[slotPos m.offset.toNat m.index.toNat + 12]? = some 253 := by
      rw [← hs1]
      simp only [upd_bytes]
      rw [writeAt_getElem? _ (by omega), if_neg (by omega), if_pos (by rw [List.length_cons]; omega), Nat.sub_self, List.getElem?_cons_zero, hd]
      rfl
    rw [metadata_upd (hm1.of_length hl2) (n := 253) (by
      rw [writeAt_getElem?_out (by omega) (by omega)]; exact h253), if_neg (by decide)]

    intro hc
    have hc := congrArg (fun x => x[252]?) (Res.ok.inj hc)
    simp only [slice_getElem?, List.getElem?_replicate] at hc
    have h253n : (253 : UInt8).toNat = 253 := rfl
    rw [if_pos (by omega), if_pos (by omega), hpos, writeAt_getElem? _ (by omega), if_neg (by omega), if_pos (by omega)] at hc
    have e : slotPos m.offset.toNat m.index.toNat + 13 + 252 - (slotPos m.offset.toNat m.index.toNat + 265) = 0 := by omega
    rw [e] at hc
    revert hc
    decide

/-- Slot handles exist: any file of two pages has fifteen slots on its second page. -/
example (s : PF) (h : s.file.bytes.length = 8192) (i : UInt8) (hi : i.toNat < 15) : SlotHandle s ⟨4096, i⟩ := by
  have : (4096 : UInt64).toNat = 4096 := rfl
  exact ⟨by simp only; omega, by simp only; omega, by omega, hi⟩

/-! ### The list -/

/-- C28 (partial: histories in which metadata has at most 252 bytes): after every history, `Collect` from the head
returns exactly the slots appended so far, in order and without repetition, and each one has the root pointer and the
metadata last set on it.  `rs` is the list of slots with what was last set, see `SlotRun`. -/
theorem C28_collect_partial {s : PF} {rs : List (LP × MemPtr × Bytes)} {ow : List Nat} (h : SlotRun s rs ow) :
    (listHead.collect s).1 = .ok (rs.map (·.1)) ∧ (listHead.collect s).2.file.bytes = s.file.bytes ∧ (rs.map (·.1)).Nodup ∧
    ∀ (i : Nat) (m : LP) (p : MemPtr) (d : Bytes), rs[i]? = some (m, p, d) → SlotHandle s m ∧ (m.root s).1 = .ok p ∧ (m.metadata s).1 = .ok d := by
  obtain ⟨free, ps, c, hv⟩ := slotRun_inv h
  have hin := hv.slots.inv
  obtain ⟨r, hr⟩ := hin.first
  have hhead : listHead = headAt pageSize := by decide
  have hcol : ∃ q, listHead.collect s = (.ok (rs.map (·.1)), s.upd s.file.bytes q) := by
    have hl := chain_linked_head (B := s.file.bytes) (p := pageSize) (r := r) (c := c) (by rw [← hr]; exact hin.chain)
      (by rw [← hr]; exact hin.pages) hin.cle (by
        intro hne
        refine hin.cpos ?_
        rw [hr]
        cases r with | nil => exact absurd rfl hne | cons a b => simp)
    rw [← hr, ← hv.handles] at hl
    have hidx : ∀ n ∈ rs.map (·.1), n.index ≠ 255 := by
      intro n hn
      obtain ⟨x, hx, rfl⟩ := List.mem_map.1 hn
      obtain ⟨k, hk⟩ := List.mem_iff_getElem?.1 hx
      obtain ⟨_, _, _, _, _, ha⟩ := hv.place hk
      exact ha.ne255
    have hlenle := places_length_le hin.pages hin.nodup hin.cle
    have hlen : (rs.map (·.1)).length = (places ps c).length := by rw [hv.handles, List.length_map]
    obtain ⟨q, hq⟩ := collect_linked rfl hl hidx (LP.listFuel s) (by unfold LP.listFuel; omega)
    rw [hhead]
    unfold LP.collect
    rw [hq]
    exact ⟨q, rfl⟩
  obtain ⟨q, hq⟩ := hcol
  refine ⟨by rw [hq], by rw [hq]; rfl, ?_, ?_⟩
  · rw [hv.handles]
    have hnd := places_nodup hin.nodup hin.cle
    rw [nodup_iff_inj] at hnd ⊢
    intro i j hij hj
    rw [List.length_map] at hj
    have hi : i < (places ps c).length := by omega
    have hne := hnd i j hij hj
    rw [List.getElem?_eq_getElem hi, List.getElem?_eq_getElem hj] at hne
    rw [List.getElem?_map, List.getElem?_map, List.getElem?_eq_getElem hi, List.getElem?_eq_getElem hj]
    simp only [Option.map_some, ne_eq, Option.some.injEq]
    intro he
    obtain ⟨i1, i2, _⟩ := places_mem (p := ((places ps c)[i]).1) (i := ((places ps c)[i]).2) (List.getElem_mem hi) hin.cle
    obtain ⟨j1, j2, _⟩ := places_mem (p := ((places ps c)[j]).1) (i := ((places ps c)[j]).2) (List.getElem_mem hj) hin.cle
    refine hne (congrArg some (Prod.ext ?_ ?_))
    · have := congrArg (fun x => x.offset.toNat) he
      simp only [slotAt] at this
      rw [hin.pages.u64 i1, hin.pages.u64 j1] at this; exact this
    · have := congrArg (fun x => x.index.toNat) he
      simp only [slotAt] at this
      rw [u8_small (by omega), u8_small (by omega)] at this; exact this
  · intro i m p d hi
    obtain ⟨x, hx, he, m1, m2, hat⟩ := hv.place hi
    simp only at he hat
    have hsh : SlotHandle s m := ⟨by rw [hat.off]; exact hat.aligned, by rw [hat.off]; exact hat.inside, hat.small, by rw [hat.idx]; exact hat.le⟩
    refine ⟨hsh, ?_, ?_⟩
    · rw [lp_root_ok hat]
      simp only
      rw [hv.roots i x _ hx hi]
    · obtain ⟨d1, d2⟩ := hin.md i x d hx (by rw [List.getElem?_map, hi]; rfl)
      unfold MdAt at d2
      have hn := congrArg (fun y => y[0]?) d2
      have hdd := congrArg (fun y => slice y 1 d.length) d2
      simp only [slice_getElem?, if_pos (show 0 < d.length + 1 by omega), Nat.add_zero, List.getElem?_cons_zero] at hn
      simp only [slice_slice (show 1 + d.length ≤ d.length + 1 by omega)] at hdd
      rw [lp_metadata_ok hat hn]
      have hne : UInt8.ofNat d.length ≠ 255 := by
        intro hc
        have := congrArg UInt8.toNat hc
        rw [u8_len (by omega)] at this
        have h255 : (255 : UInt8).toNat = 255 := rfl
        omega
      rw [if_neg hne, u8_len (by omega)]
      simp only
      rw [hdd]
      unfold slice; simp

/-- C28 (partial, as above): `AddNext` on the last slot (or on the head of an empty list) appends one slot at the end
with a zero root pointer and empty metadata; it fails only if the file would reach 2^63 bytes. -/
theorem C28_add_next_partial {s : PF} {rs : List (LP × MemPtr × Bytes)} {ow : List Nat} {m : LP} (h : SlotRun s rs ow)
    (hm : (listHead :: rs.map (·.1)).getLast? = some m) (hl : s.file.bytes.length + 4096 < 2 ^ 63) :
    ∃ new s', m.addNext s = (.ok new, s') ∧ SlotRun s' (rs ++ [(new, ⟨0, 0⟩, [])]) ow ∧
      (listHead.collect s').1 = .ok (rs.map (·.1) ++ [new]) ∧ (new.root s').1 = .ok ⟨0, 0⟩ ∧ (new.metadata s').1 = .ok [] ∧
      (∀ n ∈ rs.map (·.1), (n.root s').1 = (n.root s).1 ∧ (n.metadata s').1 = (n.metadata s).1) ∧
      s'.file.bytes.length ≤ s.file.bytes.length + 4096 := by
  obtain ⟨free, ps, c, hv⟩ := slotRun_inv h
  have hhead : listHead = headAt pageSize := by decide
  have hm' := hm
  rw [hv.handles, hhead] at hm'
  obtain ⟨l1, l2⟩ := last_handle hv.slots hm'
  rcases addNext_last hv.slots l1 l2 with ⟨x, s1, free', ps', c', r1, r2⟩ | ⟨s1, r1, r2⟩
  · have hr' := SlotRun.addNext h hm r1
    have a := C28_collect_partial h
    have b := C28_collect_partial hr'
    refine ⟨_, _, r1, hr', by rw [b.1]; simp, ?_, ?_, ?_, r2.bound⟩
    · exact (b.2.2.2 rs.length (slotAt x) ⟨0, 0⟩ [] (by simp)).2.1
    · exact (b.2.2.2 rs.length (slotAt x) ⟨0, 0⟩ [] (by simp)).2.2
    · intro n hn
      obtain ⟨y, hy, rfl⟩ := List.mem_map.1 hn
      obtain ⟨k, hk⟩ := List.mem_iff_getElem?.1 hy
      obtain ⟨y1, y2, y3⟩ := y
      have hkl : k < rs.length := (List.getElem?_eq_some_iff.1 hk).1
      have ha := a.2.2.2 k y1 y2 y3 hk
      have hb := b.2.2.2 k y1 y2 y3 (by rw [List.getElem?_append_left hkl]; exact hk)
      exact ⟨hb.2.1.trans ha.2.1.symm, hb.2.2.trans ha.2.2.symm⟩
  · unfold pageSize at r2; omega

theorem linked_step {B : Bytes} : ∀ {m : LP} {ns : List LP} (_ : LinkedFrom B m ns) {j : Nat} {a b : LP},
    (m :: ns)[j]? = some a → (m :: ns)[j + 1]? = some b → StepIs B a b
  | m, [], _, j, a, b, _, h2 => by simp at h2
  | m, n :: ns, h, 0, a, b, h1, h2 => by
    simp at h1 h2; subst h1; subst h2; exact h.1
  | m, n :: ns, h, j + 1, a, b, h1, h2 => linked_step h.2 (j := j) (by simpa using h1) (by simpa using h2)

/-- C28 (partial, as above): `Next` on any slot but the last one (or on the head) gives the following slot, and
`AddNext` there is an error and changes no byte of the file. -/
theorem C28_add_inside_partial {s : PF} {rs : List (LP × MemPtr × Bytes)} {ow : List Nat} {j : Nat} {m n : LP} (h : SlotRun s rs ow)
    (hm : (listHead :: rs.map (·.1))[j]? = some m) (hn : (listHead :: rs.map (·.1))[j + 1]? = some n) :
    (m.next s).1 = .ok n ∧ (∃ e, (m.addNext s).1 = .err e) ∧ (m.addNext s).2.file.bytes = s.file.bytes := by
  obtain ⟨free, ps, c, hv⟩ := slotRun_inv h
  have hin := hv.slots.inv
  obtain ⟨r, hr⟩ := hin.first
  have hhead : listHead = headAt pageSize := by decide
  have hl := chain_linked_head (B := s.file.bytes) (p := pageSize) (r := r) (c := c) (by rw [← hr]; exact hin.chain)
    (by rw [← hr]; exact hin.pages) hin.cle (by
      intro hne
      refine hin.cpos ?_
      rw [hr]
      cases r with | nil => exact absurd rfl hne | cons a b => simp)
  rw [← hr, ← hv.handles, ← hhead] at hl
  obtain ⟨⟨q1, e1⟩, ⟨q2, e2⟩⟩ := linked_step hl hm hn s rfl
  exact ⟨by rw [e1], ⟨_, by rw [e2]⟩, by rw [e2]; rfl⟩

/-- C28 is about real lists: for every `n` (up to 2^40) there is a history with `n` slots. -/
theorem slotRun_exists (n : Nat) (hn : n ≤ 2 ^ 40) (k : Backend) :
    ∃ s rs, SlotRun s rs [] ∧ rs.length = n ∧ s.file.bytes.length ≤ 4096 * (n + 2) := by
  induction n with
  | zero =>
    obtain ⟨s1, g1, g2, g3, g4, g5, _⟩ := openFile_empty ⟨k, [], 0, none⟩ rfl rfl
    obtain ⟨s2, e1, e2, _, e4, _⟩ := newMulti_fresh g2 g5 (by rw [g3, List.length_replicate])
    exact ⟨s2, [], .fresh rfl rfl g1 e1, rfl, by rw [e4]; unfold pageSize; omega⟩
  | succ n ih =>
    obtain ⟨s, rs, h1, h2, h3⟩ := ih (by omega)
    obtain ⟨m, hm⟩ : ∃ m, (listHead :: rs.map (·.1)).getLast? = some m := by
      exact ⟨_, List.getLast?_cons⟩
    obtain ⟨new, s', e1, e2, _, _, _, _, e3⟩ := C28_add_next_partial h1 hm (by omega)
    exact ⟨s', _, e2, by simp [h2], by omega⟩

/-- Non-vacuity of `C28_*`: lists of 40 slots (three meta pages). -/
example : ∃ s rs, SlotRun s rs [] ∧ rs.length = 40 := by
  obtain ⟨s, rs, h1, h2, _⟩ := slotRun_exists 40 (by omega) .buffer
  exact ⟨s, rs, h1, h2⟩

/-- C28 (violated for longer metadata): with at least 253 bytes of metadata on the last slot, the slot appended next
need not be empty: its root pointer is not the zero pointer. -/
theorem C28_new_slot_violated : ∃ (s s1 s2 : PF) (m new : LP) (d : Bytes) (p : MemPtr),
    SlotRun s [(m, ⟨0, 0⟩, [])] [] ∧ d.length = 253 ∧ m.setMetadata d s = (.ok (), s1) ∧ m.addNext s1 = (.ok new, s2) ∧
    (new.root s2).1 = .ok p ∧ p ≠ ⟨0, 0⟩ := by
  obtain ⟨s0, rs0, h0, hl0, hb0⟩ := slotRun_exists 0 (by omega) .buffer
  have hrs0 : rs0 = [] := List.eq_nil_of_length_eq_zero hl0
  subst hrs0
  obtain ⟨m, s, a1, h1, _, _, _, _, _⟩ := C28_add_next_partial h0 (m := listHead) rfl (by omega)
  obtain ⟨free, ps, c, hv⟩ := slotRun_inv h1
  have hin := hv.slots.inv
  obtain ⟨r, hr⟩ := hin.first
  have hlen1 : (places ps c).length = 1 := by
    have := congrArg List.length hv.handles
    rw [List.length_map, List.length_map] at this; exact this.symm
  subst hr
  cases r with
  | cons a b =>
    simp only [places, List.length_append, List.length_map, List.length_range'] at hlen1; omega
  | nil =>
  simp only [places, List.length_map, List.length_range'] at hlen1
  subst hlen1
  have hm : m = slotAt (pageSize, 0) := by
    have := hv.handles
    simpa [places] using this
  have hpg := hin.pages.page pageSize (by simp)
  have hat : AtSlot s.file.bytes m pageSize 0 := by rw [hm]; exact hin.pages.atSlot (by simp) (by omega)
  have hd : (List.replicate 253 (1 : UInt8)).length = 253 := List.length_replicate
  obtain ⟨q, hq⟩ := lp_setMetadata_ok hat hv.slots.budget (d := List.replicate 253 (1 : UInt8)) (by omega)
  have hle : slotPos pageSize 0 + 12 ≤ s.file.bytes.length := by unfold slotPos pageSize at *; omega
  have hlen : (writeAt s.file.bytes (slotPos pageSize 0 + 12) (UInt8.ofNat (List.replicate 253 (1 : UInt8)).length :: List.replicate 253 1)).length =
      s.file.bytes.length := by
    rw [writeAt_length hle, List.length_cons, hd]; unfold slotPos pageSize at *; omega
  have hhd : Hdr (writeAt s.file.bytes (slotPos pageSize 0 + 12) (UInt8.ofNat (List.replicate 253 (1 : UInt8)).length :: List.replicate 253 1))
      pageSize 1 0xFFFFFFFFFFFFFFFF :=
    Hdr.of_same (B := s.file.bytes) hin.chain (slice_writeAt_disjoint hle (by unfold slotPos; omega))
  have hb1 : (writeAt s.file.bytes (slotPos pageSize 0 + 12) (UInt8.ofNat (List.replicate 253 (1 : UInt8)).length :: List.replicate 253 1))[slotPos pageSize 1]? = some 1 := by
    rw [writeAt_getElem? _ hle, if_neg (by unfold slotPos; omega), if_pos (by rw [List.length_cons, hd]; unfold slotPos; omega)]
    rw [slotPos_step, List.getElem?_cons_succ, List.getElem?_replicate,
      if_pos (by omega)]
  generalize writeAt s.file.bytes (slotPos pageSize 0 + 12) (UInt8.ofNat (List.replicate 253 (1 : UInt8)).length :: List.replicate 253 1) = B at *
  have hat1 := hat.of_length hlen
  have hsm := hat.small
  have hoff8 : (m.offset + 8).toNat = pageSize + 8 := by rw [hm]; rfl
  obtain ⟨n, q2, hw⟩ := write_ok (s := (s.upd B q).upd B (pageSize + 8)) (b := [2]) hv.slots.budget
    (by simp only [upd_pos, upd_bytes]; unfold pageSize at *; omega)
    (by simp only [upd_pos, List.length_cons, List.length_nil]; unfold pageSize at *; omega)
    (by simp only [upd_pos, List.length_cons, List.length_nil]; unfold pageSize at *; omega)
  have hadd : m.addNext (s.upd B q) = (.ok ⟨m.offset, m.index + 1⟩, ((s.upd B q).upd B (pageSize + 8)).upd (writeAt B (pageSize + 8) [2]) q2) := by
    unfold LP.addNext
    rw [Act.bind_ok (lp_count_ok (s := s.upd B q) hat1.onPage hhd), if_neg (by rw [hm]; decide), if_pos (by decide)]
    rw [Act.bind_ok (seekU64_ok hoff8 (by simp only [upd_bytes]; unfold pageSize at *; omega) (by unfold pageSize at *; omega))]
    rw [show ((s.upd B q).upd (s.upd B q).file.bytes (pageSize + 9)).upd
      ((s.upd B q).upd (s.upd B q).file.bytes (pageSize + 9)).file.bytes (pageSize + 8) = (s.upd B q).upd B (pageSize + 8) from rfl,
      show (1 : UInt8) + 1 = 2 from rfl, Act.bind_ok hw]
    rfl
  have hlenB : (writeAt B (pageSize + 8) [2]).length = B.length := by
    rw [writeAt_length (by unfold pageSize at *; omega)]; simp only [List.length_cons, List.length_nil]; unfold pageSize at *; omega
  have hat2 : AtSlot (writeAt B (pageSize + 8) [2]) ⟨m.offset, m.index + 1⟩ pageSize 1 :=
    ⟨by rw [hm]; decide, by rw [hm]; decide, by omega, by decide, by rw [hlenB, hlen]; exact hpg.2.2, by rw [hlenB, hlen]; exact hsm⟩
  refine ⟨s, _, _, m, _, _, _, h1, hd, hq, hadd, root_upd (s := (s.upd B q).upd B (pageSize + 8)) hat2, ?_⟩
  intro hc
  have hz : (⟨0, 0⟩ : MemPtr) = MemPtr.decode (List.replicate 12 0) := by decide
  rw [hz] at hc
  have hc := decode_lowbyte (slice_length (fit12 hat2.fit.1)) List.length_replicate hc
  have hc := congrArg (fun x => x[0]?) hc
  simp only [slice_getElem?, if_pos (show 0 < 12 by omega), Nat.add_zero] at hc
  rw [writeAt_getElem?_out (by unfold pageSize at *; omega) (by unfold slotPos; simp only [List.length_cons, List.length_nil]; omega), hb1] at hc
  revert hc
  decide

end Appendable
