import Verif.Lemmas.VecNode
import Verif.Lemmas.VecIO
import Verif.Lemmas.Alloc
import Verif.Lemmas.PageFile2
/-! C54: the vectors of the vector B-tree. -/
namespace Appendable
open Spec

namespace Spec

/-- The vector `v`, stored in a tree node, is read back unchanged: whatever node it is a part of, if the node can be
written, then reading the bytes written yields a node with the same vectors. -/
def VectorsKept (n : VNode) : Prop := ∀ b rest, n.marshal = .ok b → ∃ m, VNode.unmarshal (b ++ rest) = .ok m ∧ m.vectors = n.vectors

end Spec

/-- No pattern below 2^24 is kept. -/
theorem f32_small (y e : Nat) (he : e ≤ 23) (hle : 2 ^ e ≤ y) (hgt : y < 2 ^ (e + 1))
   (hn : ((126 + e) * 2 ^ 23 + y * 2 ^ (23 - e)) % 2 ^ 32 = y) : False := by
  have h1 : y < 2 ^ 24 := Nat.lt_of_lt_of_le hgt (Nat.pow_le_pow_right (by decide) (by omega))
  have h2 : y * 2 ^ (23 - e) < 2 ^ 24 := by
    calc y * 2 ^ (23 - e) < 2 ^ (e + 1) * 2 ^ (23 - e) := Nat.mul_lt_mul_of_pos_right hgt (Nat.two_pow_pos _)
    _ = 2 ^ 24 := by rw [← Nat.pow_add]; congr 1; omega
  generalize y * 2 ^ (23 - e) = z at *
  omega
/-- Of the others, only one. -/
theorem f32_large (y e : Nat) (he : 23 < e) (he2 : e < 32) (hle : 2 ^ e ≤ y) (hgt : y < 2 ^ (e + 1))
   (hn : ((126 + e) * 2 ^ 23 + roundShift y (e - 23)) % 2 ^ 32 = y) : y = 1318926965 := by
  have hq : roundShift y (e - 23) ≤ y / 2 ^ (e - 23) + 1 ∧ y / 2 ^ (e - 23) ≤ roundShift y (e - 23) := by
    unfold roundShift; simp only; split <;> omega
  have hlow : y / 2 ^ (e - 23) < 2 ^ 24 := by
    rw [Nat.div_lt_iff_lt_mul (Nat.two_pow_pos _), ← Nat.pow_add]
    exact Nat.lt_of_lt_of_le hgt (Nat.pow_le_pow_right (by decide) (by omega))
  have hr : roundShift y (e - 23) ≤ 2 ^ 24 := by omega
  have h30 : e = 30 := by
    have : e = 24 ∨ e = 25 ∨ e = 26 ∨ e = 27 ∨ e = 28 ∨ e = 29 ∨ e = 30 ∨ e = 31 := by omega
    generalize roundShift y (e - 23) = z at *
    rcases this with h | h | h | h | h | h | h | h <;> subst h <;> first | rfl | (exfalso; clear hq hlow; simp at hle hgt; omega)
  subst h30
  unfold roundShift at hn
  simp only [Nat.reduceSub, Nat.reducePow] at hn hlow
  clear hq hr
  have hd := Nat.div_add_mod y 128
  have hm := Nat.mod_lt y (show 128 > 0 by decide)
  generalize y / 128 = a at *
  generalize y % 128 = r at *
  split at hn
  · rw [Nat.mod_eq_of_lt (by omega)] at hn; omega
  · rw [Nat.mod_eq_of_lt (by omega)] at hn; omega

/-- The bit patterns that Go's `float32(uint32)` leaves alone: `0` and `0x4e9d3a75` (about 1.3e9) only. -/
theorem f32OfU32_fixed (x : UInt32) : f32OfU32 x = x ↔ x = 0 ∨ x = 0x4e9d3a75 := by
  constructor
  · intro h
    by_cases h0 : x = 0
    · exact .inl h0
    · right
      unfold f32OfU32 at h
      rw [if_neg h0] at h
      have hx0 : x.toNat ≠ 0 := fun hc => h0 (UInt32.toNat_inj.1 (by simpa using hc))
      have hlt := x.toNat_lt
      have hle : 2 ^ Nat.log2 x.toNat ≤ x.toNat := Nat.log2_self_le hx0
      have hgt : x.toNat < 2 ^ (Nat.log2 x.toNat + 1) := Nat.lt_log2_self
      have he : Nat.log2 x.toNat < 32 := (Nat.log2_lt hx0).2 hlt
      have hn := congrArg UInt32.toNat h
      simp only [UInt32.toNat_ofNat'] at hn
      apply UInt32.toNat_inj.1
      generalize hL : Nat.log2 x.toNat = e at *
      generalize x.toNat = y at *
      clear hL h h0
      show y = 1318926965
      by_cases h23 : e ≤ 23
      · rw [if_pos h23] at hn
        exact (f32_small y e h23 hle hgt hn).elim
      · rw [if_neg h23] at hn
        exact f32_large y e (by omega) he hle hgt hn
  · rintro (rfl | rfl) <;> decide

/-- C54 as far as the code goes: a node that can be written is read back with the same ids, data pointers, children and
dimension; the vectors come back with every component replaced by the conversion of its bit pattern. -/
theorem C54_node_partial (n : VNode) (h : n.Ok) (rest : Bytes) : ∃ b, n.marshal = .ok b ∧ b.length = n.size ∧
    VNode.unmarshal (b ++ rest) = .ok ⟨n.ids, n.vectors.map (·.map f32OfU32), n.offsets, n.dim⟩ :=
  ⟨n.content, VNode.marshal_ok h, VNode.content_length h.dims, VNode.unmarshal_content h rest⟩

theorem map_eq_self {α : Type} {f : α → α} {l : List α} : l.map f = l ↔ ∀ x ∈ l, f x = x := by
  induction l with
  | nil => simp
  | cons a l ih => simp [ih]

/-- C54: exactly the vectors made of the components `0` and `0x4e9d3a75` survive. -/
theorem C54_kept_iff_partial (n : VNode) (h : n.Ok) :
    VectorsKept n ↔ ∀ v ∈ n.vectors, ∀ x ∈ v, x = 0 ∨ x = 0x4e9d3a75 := by
  have key : n.vectors.map (·.map f32OfU32) = n.vectors ↔ ∀ v ∈ n.vectors, ∀ x ∈ v, x = 0 ∨ x = 0x4e9d3a75 := by
    constructor
    · intro he v hv x hx
      rw [← f32OfU32_fixed]
      have h1 := map_eq_self.1 he v hv
      exact map_eq_self.1 h1 x hx
    · intro hk
      exact map_eq_self.2 fun v hv => map_eq_self.2 fun x hx => (f32OfU32_fixed x).2 (hk v hv x hx)
  rw [← key]
  constructor
  · intro hk
    obtain ⟨m, hm, hv⟩ := hk _ [] (VNode.marshal_ok h)
    rw [VNode.unmarshal_content h] at hm
    cases hm
    exact hv
  · intro he b rest hb
    rw [VNode.marshal_ok h] at hb
    cases hb
    exact ⟨_, VNode.unmarshal_content h rest, he⟩

/-- C54 in a tree: storing the first vector of a tree succeeds, and looking it up finds the converted vector. -/
theorem C54_first_partial {t : VTree} {s : PF} {owned freed : List Nat} {n : Nat} {k : RefId} {v : Vec}
    (hr : AllocRun s owned freed n) (ho : t.rootPos ∈ owned) (hz : slice s.file.bytes t.rootPos 12 = List.replicate 12 0)
    (hd : t.dim ≠ 0) (hv : v.length = t.dim.toNat) (hsz : 4 * v.length ≤ 4000)
    (hroom : s.file.bytes.length + pageSize < 2 ^ 63) :
    ∃ s1 s2, t.insert k v s = (.ok (), s1) ∧ t.find k s1 = (.ok (some (k, v.map f32OfU32)), s2) := by
  have hi := allocRun_inv hr
  have hl := (hi.owned_iff _).1 ho
  have hin := hl.inside hi.valid
  have hal := hl.1
  have hps : pageSize = 4096 := rfl
  have hroot := VTree.vroot_none (t := t) (s := s) (by omega) (by omega) (by rw [hz]; decide)
  have hok : (⟨[k], [v], [], t.dim⟩ : VNode).Ok := ⟨by simp, by simp, hd, ⟨rfl, by simpa using hv⟩, .inl rfl⟩
  have hs1 : (⟨[k], [v], [], t.dim⟩ : VNode).size ≤ pageSize := by
    unfold VNode.size VNode.idSize
    have h1 := sizeVarint_le k.dp.offset
    have h2 := sizeVarint_le k.dp.length.toUInt64
    have h3 := sizeVarint_le k.value
    have h4 := sizeVarint_le t.dim
    simp only [List.map_cons, List.map_nil, List.sum_cons, List.sum_nil, List.length_cons, List.length_nil]
    omega
  have hv1 := (Frame.upd_pos hi.valid hi.budget (t.rootPos + 12) []).valid
  rcases VTree.vnewPage_node hv1 hi.budget hok hs1 with ⟨off, s1, free1, n1, n2, n3, n4, n5, n6⟩ | ⟨s1, n1, n2⟩
  rotate_left
  · simp only [upd_bytes] at n2; omega
  have hlen := n2.len
  simp only [upd_bytes] at hlen
  have hcl := VNode.content_length hok.dims
  have hge : 4 ≤ (⟨[k], [v], [], t.dim⟩ : VNode).size := by unfold VNode.size; omega
  obtain ⟨p, w1⟩ := setRootAt_ok (s := s1) (pos := t.rootPos) n2.budget (by omega) n2.valid.small (by omega)
    ⟨off, UInt32.ofNat (⟨[k], [v], [], t.dim⟩ : VNode).content.length⟩
  have hins : t.insert k v s = (.ok (), s1.upd (writeAt s1.file.bytes t.rootPos
      (MemPtr.mk off (UInt32.ofNat (⟨[k], [v], [], t.dim⟩ : VNode).content.length)).encode) p) := by
    unfold VTree.insert
    rw [Act.bind_ok hroot]
    simp only
    rw [Act.bind_ok (by rw [VNode.marshal_ok hok]; rfl), Act.bind_ok n1, ofNat_u64OfInt, w1]
  have hfind : ∃ s2, t.find k (s1.upd (writeAt s1.file.bytes t.rootPos
      (MemPtr.mk off (UInt32.ofNat (⟨[k], [v], [], t.dim⟩ : VNode).content.length)).encode) p) =
      (.ok (some (k, v.map f32OfU32)), s2) := by
    obtain ⟨mp, hmp⟩ : ∃ mp : MemPtr, mp = ⟨off, UInt32.ofNat (⟨[k], [v], [], t.dim⟩ : VNode).content.length⟩ := ⟨_, rfl⟩
    rw [← hmp]
    clear hins w1
    have hel := mp.encode_length
    have hlive : Live s1 free1 t.rootPos := n2.live _ hl
    have hf := Frame.write n2.valid n2.budget hlive (r := 0) (b := mp.encode) (by omega) p
    rw [Nat.add_zero] at hf
    have hslot : MemPtr.decode (slice (writeAt s1.file.bytes t.rootPos mp.encode) t.rootPos 12) = mp := by
      rw [← hel, slice_writeAt_same (by omega), MemPtr.decode_encode]
    have hne : off.toNat ∉ [t.rootPos] := by
      simp only [List.mem_singleton]
      intro hc
      exact n3 (hc ▸ hl)
    have hn' := VTree.VNodeAt.framed n6 hf.1 n4 hne
    have hmo : mp.offset = off := by rw [hmp]
    obtain ⟨p2, hroot2⟩ := VTree.vroot_some (t := t) (s := s1.upd (writeAt s1.file.bytes t.rootPos mp.encode) p)
      (by simp only [upd_bytes]; omega) (by omega)
      (by
        simp only [upd_bytes]; rw [hslot, hmp]
        have h32 : (⟨[k], [v], [], t.dim⟩ : VNode).content.length < 2 ^ 32 := by omega
        intro hc
        have := congrArg UInt32.toNat hc
        rw [UInt32.toNat_ofNat_of_lt' h32, show (0 : UInt32).toNat = 0 from rfl] at this
        omega)
      (n := ⟨[k], [v], [], t.dim⟩) (by simp only [upd_bytes]; rw [hslot, hmo]; exact hn')
    unfold VTree.find
    rw [Act.bind_ok hroot2]
    simp only
    rw [Act.bind_ok (Act.get_run _)]
    unfold Tree.fuel VTree.traverse VNode.leaf VNode.reread
    simp [bsearch, bsearchLoop, compareRefId, Act.bind_def, VTree.entryAt]
  obtain ⟨s2, hfind⟩ := hfind
  exact ⟨_, s2, hins, hfind⟩

/-- A new file with one page allocated. -/
theorem fresh_page : ∃ (s : PF) (owned : List Nat) (n : Nat), AllocRun s owned [] n ∧ 4096 ∈ owned ∧
    slice s.file.bytes 4096 12 = List.replicate 12 0 ∧ s.file.bytes.length = 8192 := by
  obtain ⟨s0, h0, _, h5, _⟩ := openFile_empty ⟨.buffer, [], 0, none⟩ rfl rfl
  have hr : AllocRun s0 [] [] 0 := .opened (f := ⟨.buffer, [], 0, none⟩) rfl rfl h0
  have hi := allocRun_inv hr
  have hlen : s0.file.bytes.length = 4096 := by rw [h5]; exact List.length_replicate
  obtain ⟨s1, h1, _, h2, _⟩ := newPage_append hi.valid hi.budget none (by simp [pageSize]) (by rw [hlen]; decide)
  refine ⟨s1, _, _, .new hr h1, ?_, ?_, ?_⟩
  · rw [hlen]; simp
  · rw [h2, ← hlen]
    unfold slice padPage
    rw [List.drop_left]
    simp only [Option.getD_none, List.nil_append, List.take_replicate]
    rfl
  · rw [h2, List.length_append, hlen, padPage_length (by simp)]
    rfl

/-- C54 violated: storing the vector (1.0, 0.0) in an empty tree succeeds, and looking it up finds (1065353216.0, 0.0). -/
theorem C54_violated : ∃ (t : VTree) (s s1 : PF) (owned : List Nat) (n : Nat) (k : RefId) (v w : Vec),
    AllocRun s owned [] n ∧ t.rootPos ∈ owned ∧ slice s.file.bytes t.rootPos 12 = List.replicate 12 0 ∧
    v.length = t.dim.toNat ∧ t.insert k v s = (.ok (), s1) ∧ (t.find k s1).1 = .ok (some (k, w)) ∧ v ≠ w := by
  obtain ⟨s, owned, n, h1, h2, h3, h4⟩ := fresh_page
  obtain ⟨s1, s2, e1, e2⟩ := C54_first_partial (t := ⟨4096, 2⟩) (k := ⟨⟨3, 4⟩, 7⟩) (v := [0x3f800000, 0]) h1 h2 h3
    (by decide) rfl (by decide) (by rw [h4]; decide)
  exact ⟨⟨4096, 2⟩, s, s1, owned, n, ⟨⟨3, 4⟩, 7⟩, [0x3f800000, 0], [0x4e7e0000, 0], h1, h2, h3, rfl, e1, by rw [e2]; rfl, by decide⟩

/-- A node with two ids meets the hypotheses of the theorems above. -/
example : (⟨[⟨⟨1, 2⟩, 3⟩, ⟨⟨4, 5⟩, 600⟩], [[0x3f800000, 0], [0, 0]], [], 2⟩ : VNode).Ok :=
  ⟨by decide, by decide, by decide, ⟨by decide, by decide⟩, .inl rfl⟩

end Appendable
