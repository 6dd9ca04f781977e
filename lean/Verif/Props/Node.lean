import Verif.Lemmas.Node
/-! Properties C03 and C04: node serialization. -/
namespace Appendable
open Spec

/-- C03: a node with at least one key (and fewer than 2^32) is serialized without error or panic, into
exactly `Size()` bytes. No well-formedness is needed. -/
theorem C03_marshal_size (width : UInt16) (n : Node) (h0 : 0 < n.keys.length) (h1 : n.keys.length < 2 ^ 32) :
    ∃ b, n.marshal width = .ok b ∧ b.length = n.size width := by
  refine ⟨n.content width, marshal_ok ?_, content_length width n⟩
  rw [Nat.mod_eq_of_lt h1]; omega

example : (⟨[⟨3, 4⟩], [], [⟨⟨300, 1⟩, [1, 2]⟩]⟩ : Node).marshal 3
    = .ok [255, 255, 255, 255, 172, 2, 1, 1, 2, 3, 4] := by decide +kernel

/-- C03: the size is made up of the sizes of the varints of its parts (independent formula). -/
theorem C03_size_formula (n : Node) (width : UInt16) :
    n.size width = 4
      + (n.keys.map fun k => (putUvarint k.dp.offset).length + (putUvarint k.dp.length.toUInt64).length
            + (if width = 0 then 0 else k.value.length)).sum
      + (n.leafPtrs.map fun p => (putUvarint p.offset).length + (putUvarint p.length.toUInt64).length).sum
      + (n.intPtrs.map fun p => (putUvarint p).length).sum := by
  unfold Node.size keySize leafPtrSize intPtrSize
  simp only [sizeVarint_eq_length, ne_eq, ite_not]
  congr 3
  congr 2
  funext k
  omega

/-- C04: a well-formed node written at the start of a page is read back identically, whatever follows it in
the page, for every width and data file. -/
theorem C04_node_round_trip (cfg : Cfg) (n : Node) (h : NodeOK cfg n) (rest : Bytes) :
    ∃ b, n.marshal cfg.width = .ok b ∧ Node.unmarshal cfg (b ++ rest) = .ok n := by
  refine ⟨n.content cfg.width, marshal_ok ?_, unmarshal_content cfg n h rest⟩
  have h1 := h.1
  have h2 := h.2.1
  rw [Nat.mod_eq_of_lt (by omega)]; omega

/-- an inline leaf, a referenced internal node: both meet the hypothesis -/
example : NodeOK ⟨[], id, 3⟩ ⟨[⟨3, 4⟩, ⟨9, 1⟩], [], [⟨⟨300, 1⟩, [1, 2]⟩, ⟨⟨1, 1⟩, [2, 2]⟩]⟩ := by decide
example : NodeOK ⟨[10, 11, 12, 13], List.reverse, 0⟩ ⟨[], [4096, 8192], [⟨⟨1, 3⟩, [13, 12, 11]⟩]⟩ := by decide

/-- C04: the decoded node is a leaf exactly when the stored one was. -/
theorem C04_leaf_flag (cfg : Cfg) (n m : Node) (h : NodeOK cfg n) (rest b : Bytes)
    (hb : n.marshal cfg.width = .ok b) (hm : Node.unmarshal cfg (b ++ rest) = .ok m) :
    m.leaf = n.leaf ∧ (n.leaf = true ↔ n.intPtrs = []) := by
  obtain ⟨b', hb', hu⟩ := C04_node_round_trip cfg n h rest
  rw [hb] at hb'
  cases hb'
  rw [hu] at hm
  cases hm
  refine ⟨rfl, ?_⟩
  have hp := h.1
  unfold Node.leaf
  rcases h.2.2.1 with ⟨h1, h2⟩ | ⟨h1, h2⟩
  · simp [h2]; omega
  · rw [h2]; simp; intro he; rw [he] at h1; simp at h1

end Appendable
