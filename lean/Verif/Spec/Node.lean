import Verif.Model.Node
/-! What a well-formed node is. -/
namespace Appendable.Spec

/-- A key that can be stored under a configuration: on a fixed-width index its value has exactly the width,
on a referenced index its data pointer designates bytes of the data file that parse to its value. -/
def KeyOK (cfg : Cfg) (k : RV) : Prop :=
  if cfg.width = 0 then
    k.dp.offset.toNat + k.dp.length.toNat ≤ cfg.data.length ∧
    k.value = cfg.parse ((cfg.data.drop k.dp.offset.toNat).take k.dp.length.toNat)
  else k.value.length = (cfg.width - 1).toNat

instance (cfg : Cfg) (k : RV) : Decidable (KeyOK cfg k) := by unfold KeyOK; infer_instance

/-- A leaf: one record pointer per key. -/
def LeafShape (n : Node) : Prop := n.leafPtrs.length = n.keys.length ∧ n.intPtrs = []

/-- An internal node: one more child pointer than keys. -/
def InternalShape (n : Node) : Prop := n.intPtrs.length = n.keys.length + 1 ∧ n.leafPtrs = []

/-- Size in bytes of a leaf with exactly these entries: 4 bytes, and for each entry its key and its record pointer. -/
def leafBytes (width : UInt16) (es : List (RV × MemPtr)) : Nat :=
  4 + (es.map (fun e => (encKey width e.1).length + (encLeafPtr e.2).length)).sum

/-- A well-formed node: at least one key (and an int32 number of them), leaf or internal shape, storable
keys. -/
def NodeOK (cfg : Cfg) (n : Node) : Prop :=
  0 < n.keys.length ∧ n.keys.length < 2 ^ 31 ∧ (LeafShape n ∨ InternalShape n) ∧ ∀ k ∈ n.keys, KeyOK cfg k

instance (cfg : Cfg) (n : Node) : Decidable (NodeOK cfg n) := by
  unfold NodeOK LeafShape InternalShape; infer_instance

end Appendable.Spec
