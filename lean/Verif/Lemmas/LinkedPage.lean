import Verif.Model.LinkedPage
import Verif.Lemmas.TreeTop
/-! Byte-level effects of the slot operations. -/
namespace Appendable
open Spec

/-- Position of slot `i` of the meta page at `p`. -/
def slotPos (p i : Nat) : Nat := p + 9 + i * 265

/-- The slot handle `m` designates slot `i` of an existing page at `p`. -/
structure AtSlot (B : Bytes) (m : LP) (p i : Nat) : Prop where
  off : m.offset.toNat = p
  idx : m.index.toNat = i
  le : i < 15
  aligned : p % pageSize = 0
  inside : p + pageSize ≤ B.length
  small : B.length < 2 ^ 63

/-- The handle `m` (a slot, or the head with index 255) lies on the existing page at `p`. -/
structure OnPage (B : Bytes) (m : LP) (p : Nat) : Prop where
  off : m.offset.toNat = p
  aligned : p % pageSize = 0
  inside : p + pageSize ≤ B.length
  small : B.length < 2 ^ 63

theorem AtSlot.onPage {B m p i} (h : AtSlot B m p i) : OnPage B m p := ⟨h.off, h.aligned, h.inside, h.small⟩

theorem AtSlot.of_length {B B' m p i} (h : AtSlot B m p i) (hl : B'.length = B.length) : AtSlot B' m p i :=
  ⟨h.off, h.idx, h.le, h.aligned, by rw [hl]; exact h.inside, by rw [hl]; exact h.small⟩

theorem AtSlot.rootPos {B m p i} (h : AtSlot B m p i) : m.rootPos.toNat = slotPos p i := by
  have h1 := h.off; have h2 := h.idx; have h3 := h.le; have h4 := h.inside; have h5 := h.small
  have h6 := m.index.toNat_lt
  unfold LP.rootPos slotPos slotSize
  simp only [UInt64.toNat_add, UInt64.toNat_mul, UInt64.toNat_ofNat']
  rw [h1, h2]
  simp
  unfold pageSize at *
  omega

theorem AtSlot.mdPos {B m p i} (h : AtSlot B m p i) : (m.rootPos + 8 + 4).toNat = slotPos p i + 12 := by
  have h1 := h.rootPos; have h3 := h.le; have h4 := h.inside; have h5 := h.small
  simp only [UInt64.toNat_add]
  rw [h1]
  unfold slotPos pageSize at *
  simp
  omega

theorem AtSlot.ne255 {B m p i} (h : AtSlot B m p i) : m.index ≠ 255 := by
  intro hc; have := h.idx; have := h.le; rw [hc] at *; simp at *; omega

theorem AtSlot.fit {B m p i} (h : AtSlot B m p i) : slotPos p i + 272 ≤ B.length ∧ slotPos p i % pageSize + 272 ≤ pageSize ∧
    slotPos p i < 2 ^ 63 := by
  have h3 := h.le; have h4 := h.inside; have h5 := h.small; have h6 := h.aligned
  have hm : slotPos p i % pageSize = 9 + i * 265 := by
    unfold slotPos pageSize at *
    rw [show p + 9 + i * 265 = (9 + i * 265) + 4096 * (p / 4096) by omega, Nat.add_mul_mod_self_left]
    omega
  rw [hm]
  unfold slotPos pageSize at *
  omega

theorem seekU64_ok {s : PF} {x : UInt64} {n : Nat} (hx : x.toNat = n) (h : n ≤ s.file.bytes.length) (hs : n < 2 ^ 63) :
    LP.seekU64 x s = (.ok (n : Int), s.upd s.file.bytes n) := by
  unfold LP.seekU64
  rw [hx, int64OfU64_small hs, seek_ok h]

theorem lp_root_ok {s : PF} {m : LP} {p i : Nat} (h : AtSlot s.file.bytes m p i) :
    m.root s = (.ok (MemPtr.decode (slice s.file.bytes (slotPos p i) 12)), s.upd s.file.bytes (slotPos p i + 12)) := by
  obtain ⟨f1, f2, f3⟩ := h.fit
  unfold LP.root
  rw [if_neg h.ne255, Act.bind_ok (seekU64_ok h.rootPos (by omega) f3),
    Act.bind_ok (readFull_ok (s := s.upd s.file.bytes (slotPos p i)) (by omega) (by simp only [upd_pos, upd_bytes]; omega)
      (by simp only [upd_pos]; omega))]
  rfl

theorem lp_setRoot_ok {s : PF} {m : LP} {p i : Nat} (h : AtSlot s.file.bytes m p i) (hb : s.file.budget = none) (mp : MemPtr) :
    ∃ q, m.setRoot mp s = (.ok (), s.upd (writeAt s.file.bytes (slotPos p i) mp.encode) q) := by
  obtain ⟨f1, f2, f3⟩ := h.fit
  have hsm := h.small
  have hl := mp.encode_length
  obtain ⟨n, q, hw⟩ := write_ok (s := s.upd s.file.bytes (slotPos p i)) (b := mp.encode) hb
    (by simp only [upd_pos, upd_bytes]; omega) (by simp only [upd_pos]; omega) (by simp only [upd_pos]; omega)
  refine ⟨q, ?_⟩
  unfold LP.setRoot
  rw [if_neg h.ne255, Act.bind_ok (seekU64_ok h.rootPos (by omega) f3), Act.bind_ok hw]; rfl

/-- What `Metadata` returns for the length byte `n`. -/
theorem lp_metadata_ok {s : PF} {m : LP} {p i : Nat} {n : UInt8} (h : AtSlot s.file.bytes m p i)
    (hn : s.file.bytes[slotPos p i + 12]? = some n) :
    m.metadata s = (if n = 255 then .panic else .ok (slice s.file.bytes (slotPos p i + 13) n.toNat),
      s.upd s.file.bytes (slotPos p i + 272)) := by
  obtain ⟨f1, f2, f3⟩ := h.fit
  unfold LP.metadata
  rw [if_neg h.ne255, Act.bind_ok (seekU64_ok h.mdPos (by omega) (by unfold pageSize at *; omega)),
    Act.bind_ok (read_ok (s := s.upd s.file.bytes (slotPos p i + 12)) (n := 4 + slotSize) (by omega)
      (by simp only [upd_pos, upd_bytes]; unfold slotSize; omega) (by simp only [upd_pos]; unfold slotSize pageSize at *; omega))]
  simp only [Bool.false_eq_true, if_false, upd_bytes, upd_pos, upd_upd]
  have hlen : (slice s.file.bytes (slotPos p i + 12) (4 + slotSize)).length = 4 + slotSize :=
    slice_length (by unfold slotSize; omega)
  rw [hlen, Nat.sub_self, List.replicate_zero, List.append_nil]
  have hd : s.file.bytes.drop (slotPos p i + 12) = n :: s.file.bytes.drop (slotPos p i + 13) := by
    obtain ⟨hlt, he⟩ := List.getElem?_eq_some_iff.1 hn
    rw [List.drop_eq_getElem_cons hlt, he]
  have hsl : slice s.file.bytes (slotPos p i + 12) (4 + slotSize) = n :: slice s.file.bytes (slotPos p i + 13) 259 := by
    unfold slice; rw [hd]; rfl
  rw [hsl]
  simp only
  by_cases h255 : n = 255
  · subst h255
    simp only [if_true]
    rw [if_pos (by decide)]; rfl
  · have hn' : n.toNat ≠ 255 := fun hc => h255 (UInt8.toNat.inj hc)
    have hlt := n.toNat_lt
    have ht : (1 + n).toNat = 1 + n.toNat := by
      rw [UInt8.toNat_add]; simp; omega
    rw [if_neg h255, if_neg (by rw [UInt8.lt_iff_toNat_lt, ht]; simp), ht]
    show (Res.ok _, _) = _
    congr 2
    unfold slice
    rw [List.take_take]; congr 1; omega

theorem lp_setMetadata_ok {s : PF} {m : LP} {p i : Nat} (h : AtSlot s.file.bytes m p i) (hb : s.file.budget = none) {d : Bytes}
    (hd : d.length ≤ 255) :
    ∃ q, m.setMetadata d s = (.ok (), s.upd (writeAt s.file.bytes (slotPos p i + 12) (UInt8.ofNat d.length :: d)) q) := by
  obtain ⟨f1, f2, f3⟩ := h.fit
  have hsm := h.small
  obtain ⟨n, q, hw⟩ := write_ok (s := s.upd s.file.bytes (slotPos p i + 12)) (b := UInt8.ofNat d.length :: d) hb
    (by simp only [upd_pos, upd_bytes]; omega) (by simp only [upd_pos, List.length_cons]; omega)
    (by simp only [upd_pos, List.length_cons]; unfold pageSize at *; omega)
  refine ⟨q, ?_⟩
  unfold LP.setMetadata
  rw [if_neg h.ne255, if_neg (by unfold slotSize; omega), Act.bind_ok (seekU64_ok h.mdPos (by omega) (by unfold pageSize at *; omega)),
    Act.bind_ok hw]; rfl

theorem lp_setMetadata_big {s : PF} {m : LP} {d : Bytes} (h : m.index ≠ 255) (hd : 255 < d.length) :
    m.setMetadata d s = (.err (.msg "metadata too large"), s) := by
  unfold LP.setMetadata
  rw [if_neg h, if_pos (.inr hd)]; rfl

theorem slice_one {B : Bytes} {p : Nat} {c : UInt8} (h : B[p]? = some c) : slice B p 1 = [c] := by
  obtain ⟨hlt, he⟩ := List.getElem?_eq_some_iff.1 h
  unfold slice
  rw [List.drop_eq_getElem_cons hlt, he]; rfl

/-- The meta page at `p` has `c` slots in use and the next page `nx`. -/
structure Hdr (B : Bytes) (p : Nat) (c : UInt8) (nx : UInt64) : Prop where
  next : slice B p 8 = leBytes 8 nx.toNat
  cnt : B[p + 8]? = some c

theorem Hdr.of_same {B B' p c nx} (h : Hdr B p c nx) (hs : slice B' p 9 = slice B p 9) : Hdr B' p c nx := by
  refine ⟨?_, ?_⟩
  · have := congrArg (fun x => slice x 0 8) hs
    simp only [slice_slice (show 0 + 8 ≤ 9 by omega)] at this
    rw [← h.next]; exact this
  · have := congrArg (fun x => x[8]?) hs
    simp only [slice_getElem?, if_pos (show 8 < 9 by omega)] at this
    rw [this]; exact h.cnt

theorem lp_count_ok {s : PF} {m : LP} {p : Nat} {c : UInt8} {nx : UInt64} (h : OnPage s.file.bytes m p)
    (hh : Hdr s.file.bytes p c nx) : m.count s = (.ok c, s.upd s.file.bytes (p + 9)) := by
  have h1 := h.inside; have h2 := h.small; have h3 := h.aligned
  unfold LP.count
  have hint : int64OfU64 m.offset.toNat + 8 = ((p + 8 : Nat) : Int) := by
    rw [h.off, int64OfU64_small (by unfold pageSize at *; omega)]; rfl
  rw [hint, Act.bind_ok (seek_ok (by unfold pageSize at *; omega)),
    Act.bind_ok (readFull_ok (s := s.upd s.file.bytes (p + 8)) (by omega)
      (by simp only [upd_pos, upd_bytes]; unfold pageSize at *; omega) (by simp only [upd_pos]; unfold pageSize at *; omega))]
  simp only [upd_bytes, upd_pos, upd_upd, slice_one hh.cnt]
  show (Res.ok _, _) = _
  congr 2
  simp [leNat]

theorem lp_nextPageOffset_ok {s : PF} {m : LP} {p : Nat} {c : UInt8} {nx : UInt64} (h : OnPage s.file.bytes m p)
    (hh : Hdr s.file.bytes p c nx) : m.nextPageOffset s = (.ok nx, s.upd s.file.bytes (p + 8)) := by
  have h1 := h.inside; have h2 := h.small; have h3 := h.aligned
  unfold LP.nextPageOffset
  rw [Act.bind_ok (seekU64_ok h.off (by unfold pageSize at *; omega) (by unfold pageSize at *; omega)),
    Act.bind_ok (readFull_ok (s := s.upd s.file.bytes p) (by omega)
      (by simp only [upd_pos, upd_bytes]; unfold pageSize at *; omega) (by simp only [upd_pos]; unfold pageSize at *; omega))]
  simp only [upd_bytes, upd_pos, upd_upd, hh.next]
  show (Res.ok _, _) = _
  congr 2
  rw [leNat_leBytes _ _ (by simpa using nx.toNat_lt)]
  exact UInt64.toNat.inj (by simp)

/-- `Next`, from the header of the page. -/
theorem lp_next_ok {s : PF} {m : LP} {p : Nat} {c : UInt8} {nx : UInt64} (h : OnPage s.file.bytes m p)
    (hh : Hdr s.file.bytes p c nx) :
    ∃ q, m.next s = (if m.index + 1 < c then .ok ⟨m.offset, m.index + 1⟩
      else if nx = 0xFFFFFFFFFFFFFFFF then .err .eof else .ok ⟨nx, 0⟩, s.upd s.file.bytes q) := by
  unfold LP.next
  rw [Act.bind_ok (lp_count_ok h hh)]
  by_cases h1 : m.index + 1 < c
  · rw [if_pos h1, if_pos h1]; exact ⟨_, rfl⟩
  · rw [if_neg h1, if_neg h1, Act.bind_ok (lp_nextPageOffset_ok (s := s.upd s.file.bytes (p + 9)) h hh)]
    by_cases h2 : nx = 0xFFFFFFFFFFFFFFFF
    · rw [if_pos h2, if_pos h2]; exact ⟨_, rfl⟩
    · rw [if_neg h2, if_neg h2]; exact ⟨_, rfl⟩

end Appendable
