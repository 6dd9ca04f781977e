import Verif.Lemmas.VecNode
import Verif.Lemmas.TreeTop
/-! Page-level effects of the vector tree: reading, writing and allocating nodes. -/
namespace Appendable
open Spec

/-- The page at `off` holds the bytes of the node `n`; reading it yields `n.reread`. -/
structure VNodeAt (B : Bytes) (off : UInt64) (n : VNode) : Prop where
  aligned : off.toNat % pageSize = 0
  past : pageSize ≤ off.toNat
  inside : off.toNat + pageSize ≤ B.length
  small : off.toNat < 2 ^ 63
  ok : n.Ok
  bytes : ∃ rest, pageAt B off.toNat = n.content ++ rest

namespace VTree

theorem vreadNode_ok {s : PF} {off : UInt64} {n : VNode} (h : VNodeAt s.file.bytes off n) :
    readNode off s = (.ok n.reread, s.upd s.file.bytes (off.toNat + pageSize)) := by
  unfold readNode
  have hin := h.inside
  rw [int64OfU64_small h.small, Act.bind_ok (seek_ok (by omega))]
  rw [Act.bind_ok (read_ok (s := s.upd s.file.bytes off.toNat) (by unfold pageSize; omega) hin
    (by simp only [PF.upd]; rw [h.aligned]; omega))]
  simp only [Bool.false_eq_true, if_false, Act.lift_run, upd_bytes, upd_pos, upd_upd]
  have hlen : (slice s.file.bytes off.toNat pageSize).length = pageSize := slice_length hin
  rw [hlen, Nat.sub_self, List.replicate_zero, List.append_nil]
  obtain ⟨rest, hr⟩ := h.bytes
  unfold pageAt at hr
  rw [hr, VNode.unmarshal_content h.ok]

theorem vwriteNode_ok {s : PF} {free : List Nat} {off : UInt64} {n : VNode} (hv : s.Valid free)
    (hb : s.file.budget = none) (hl : Live s free off.toNat) (hok : n.Ok) (hsz : n.size ≤ pageSize) :
    ∃ s', writeNode off n s = (.ok (), s') ∧ Frame s free s' free [off.toNat] ∧
      s'.file.bytes.length = s.file.bytes.length ∧ VNodeAt s'.file.bytes off n := by
  have hin := hl.inside hv
  have hsm := hv.small
  have hcl := VNode.content_length hok.dims
  obtain ⟨c, p, hw⟩ := write_ok (s := s.upd s.file.bytes off.toNat) (b := n.content) hb
    (by simp only [upd_pos, upd_bytes]; omega) (by simp only [upd_pos]; omega)
    (by simp only [upd_pos]; rw [hl.1]; omega)
  have hf := Frame.write hv hb hl (r := 0) (b := n.content) (by omega) p
  refine ⟨s.upd (writeAt s.file.bytes off.toNat n.content) p, ?_, hf.1, hf.2, ?_⟩
  · unfold writeNode
    rw [int64OfU64_small (by omega), Act.bind_ok (seek_ok (by omega)), Act.bind_ok (by rw [VNode.marshal_ok hok]; rfl)]
    rw [Act.bind_ok hw]; rfl
  · refine ⟨hl.1, hl.2.1, ?_, by omega, hok, ?_⟩
    · simp only [upd_bytes]; have := hf.2; rw [Nat.add_zero] at this; omega
    · refine ⟨(pageAt s.file.bytes off.toNat).drop n.size, ?_⟩
      simp only [upd_bytes]
      unfold pageAt
      rw [slice_writeAt_inside (by omega) (Nat.le_refl _) (by omega) (by omega), Nat.sub_self,
        writeAt_zero _ _ (by rw [slice_length hin]; omega), hcl]

/-- Allocating a page for a node. -/
theorem vnewPage_node {s : PF} {free : List Nat} {n : VNode} (hv : s.Valid free)
    (hb : s.file.budget = none) (hok : n.Ok) (hsz : n.size ≤ pageSize) :
    (∃ (off : UInt64) (s' : PF) (free' : List Nat),
      PF.newPage (some n.content) s = (.ok (off.toNat : Int), s') ∧
      Frame s free s' free' [] ∧ ¬ Live s free off.toNat ∧ Live s' free' off.toNat ∧
      s'.file.bytes.length ≤ s.file.bytes.length + pageSize ∧ VNodeAt s'.file.bytes off n) ∨
    (∃ s', PF.newPage (some n.content) s = (.err .io, s') ∧ 2 ^ 63 ≤ s.file.bytes.length + pageSize) := by
  have hcl := VNode.content_length hok.dims
  rcases newPage_spec hv hb (some n.content) (by simp only [Option.getD_some]; omega) with
    ⟨o, s', free', h1, h2, h3, h4, h5, h6, h7, h8, h9, h10, h11⟩ | ⟨s', h1, h2⟩
  · left
    have hin := h5.inside h2
    have ho : (UInt64.ofNat o).toNat = o := UInt64.toNat_ofNat_of_lt' (by show o < 2 ^ 64; omega)
    refine ⟨UInt64.ofNat o, s', free', by rw [ho]; exact h1, ⟨h2, h3, fun p hp => (h7 p hp).1,
      fun p hp _ => (h7 p hp).2, h9⟩, by rw [ho]; exact h4, by rw [ho]; exact h5, h10, ?_⟩
    refine ⟨by rw [ho]; exact h5.1, by rw [ho]; exact h5.2.1, by rw [ho]; exact hin, by rw [ho]; exact h11, hok, ?_⟩
    rw [ho, h6]
    exact ⟨_, rfl⟩
  · right; exact ⟨s', h1, h2⟩

/-- The page of a node survives operations on other pages. -/
theorem VNodeAt.framed {s s' : PF} {free free' P : List Nat} {off : UInt64} {n : VNode} (h : VNodeAt s.file.bytes off n)
    (hf : Frame s free s' free' P) (hl : Live s free off.toNat) (hd : off.toNat ∉ P) : VNodeAt s'.file.bytes off n :=
  ⟨h.aligned, h.past, Nat.le_trans h.inside hf.len, h.small, h.ok, by rw [hf.same _ hl hd]; exact h.bytes⟩

theorem vroot_none {t : VTree} {s : PF} (h : t.rootPos + 12 ≤ s.file.bytes.length) (hc : t.rootPos % pageSize + 12 ≤ pageSize)
    (h0 : (MemPtr.decode (slice s.file.bytes t.rootPos 12)).length = 0) :
    t.root s = (.ok none, s.upd s.file.bytes (t.rootPos + 12)) := by
  unfold VTree.root
  rw [Act.bind_ok (rootAt_ok h hc), if_pos h0]
  rfl

theorem vroot_some {t : VTree} {s : PF} (h : t.rootPos + 12 ≤ s.file.bytes.length) (hc : t.rootPos % pageSize + 12 ≤ pageSize)
    (h0 : (MemPtr.decode (slice s.file.bytes t.rootPos 12)).length ≠ 0) {n : VNode}
    (hn : VNodeAt s.file.bytes (MemPtr.decode (slice s.file.bytes t.rootPos 12)).offset n) :
    ∃ p, t.root s = (.ok (some (n.reread, MemPtr.decode (slice s.file.bytes t.rootPos 12))), s.upd s.file.bytes p) := by
  unfold VTree.root
  rw [Act.bind_ok (rootAt_ok h hc), if_neg h0]
  rw [Act.bind_ok (vreadNode_ok (s := s.upd s.file.bytes (t.rootPos + 12)) hn)]
  exact ⟨_, rfl⟩

end VTree
end Appendable
