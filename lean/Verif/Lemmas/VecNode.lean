import Verif.Model.VecTree
import Verif.Lemmas.Node
/-! Serialization of the nodes of the vector B-tree. -/
namespace Appendable
open Spec

theorem readMany_map {α β : Type} {read : Bytes → Int → Res (β × Int)} {enc : α → Bytes} {f : α → β} {P : α → Prop}
    (hr : ∀ (buf : Bytes) (m : Nat) (a : α) (s : Bytes), P a → At buf m (enc a ++ s) →
      read buf m = .ok (f a, ((m + (enc a).length : Nat) : Int)))
    (as : List α) {buf : Bytes} {m : Nat} {s : Bytes} (hp : ∀ a ∈ as, P a)
    (h : At buf m ((as.map enc).flatten ++ s)) :
    readMany read buf as.length m = .ok (as.map f, ((m + (as.map enc).flatten.length : Nat) : Int)) := by
  induction as generalizing m with
  | nil => simp [readMany]
  | cons a as ih =>
    simp only [List.map_cons, List.flatten_cons, List.append_assoc] at h
    simp only [List.length_cons, readMany]
    rw [hr _ _ a _ (hp a (by simp)) h]
    simp only [Res.bind_ok]
    rw [ih (fun b hb => hp b (by simp [hb])) h.advance]
    simp only [Res.bind_ok, Res.pure_eq, List.map_cons, List.flatten_cons, List.length_append, Nat.add_assoc]

namespace VNode

theorem readId_at {buf s : Bytes} {m : Nat} {k : RefId} (h : At buf m (encId k ++ s)) :
    readId buf m = .ok (k, ((m + (encId k).length : Nat) : Int)) := by
  have he : encId k = encLeafPtr k.dp ++ putUvarint k.value := rfl
  rw [he, List.append_assoc] at h
  unfold readId
  rw [readMemPtr_at h]
  simp only [Res.bind]
  rw [readUvarint_at h.advance]
  simp only [he, List.length_append, Nat.add_assoc]

theorem encF32_length (x : F32) : (encF32 x).length = 4 := by simp [encF32]

theorem readF32_at {buf s : Bytes} {m : Nat} {x : F32} (h : At buf m (encF32 x ++ s)) :
    readF32 buf m = .ok (f32OfU32 x, ((m + (encF32 x).length : Nat) : Int)) := by
  unfold readF32
  have := sliceRes_at h
  rw [encF32_length] at this
  rw [this]
  have hx : UInt32.ofNat (leNat (encF32 x)) = x := by
    unfold encF32
    rw [leNat_leBytes _ _ (by have := x.toNat_lt; omega)]
    simp
  simp only [Res.bind, hx, encF32_length]
  rfl

theorem encVec_length (v : Vec) : (encVec v).length = 4 * v.length := by
  unfold encVec
  rw [flatten_map_length encF32 (fun _ => 4) encF32_length]
  induction v with
  | nil => rfl
  | cons x v ih => simp only [List.map_cons, List.sum_cons, ih, List.length_cons]; omega

/-- Reading one vector of the right length. -/
theorem readVec_at {buf s : Bytes} {m : Nat} {v : Vec} (h : At buf m (encVec v ++ s)) :
    readMany readF32 buf v.length m = .ok (v.map f32OfU32, ((m + (encVec v).length : Nat) : Int)) :=
  readMany_map (P := fun _ => True) (fun _ _ _ _ _ => readF32_at) v (fun _ _ => trivial) h

theorem encId_length (k : RefId) : (encId k).length = idSize k := by
  unfold encId idSize
  simp only [sizeVarint_eq_length, List.length_append]

/-- Every vector has the dimension of the node. -/
def Dims (n : VNode) : Prop := n.vectors.length = n.ids.length ∧ ∀ v ∈ n.vectors, v.length = n.dim.toNat

theorem vectors_length {l : List Vec} {d : Nat} (h : ∀ v ∈ l, v.length = d) :
    (l.map encVec).flatten.length = l.length * (4 * d) := by
  induction l with
  | nil => simp
  | cons v l ih =>
    simp only [List.map_cons, List.flatten_cons, List.length_append, List.length_cons, encVec_length]
    rw [ih (fun w hw => h w (by simp [hw])), h v (by simp), Nat.add_mul]; omega

theorem content_length {n : VNode} (h : n.Dims) : n.content.length = n.size := by
  unfold content size encHeader
  simp only [List.length_append, leBytes_length]
  rw [flatten_map_length _ _ encId_length, flatten_map_length putUvarint sizeVarint (fun v => (sizeVarint_eq_length v).symm),
    vectors_length h.2, sizeVarint_eq_length]

/-- Well-formed: at least one id, vectors of the right number and dimension, and either a leaf or one offset more. -/
structure Ok (n : VNode) : Prop where
  ne : 0 < n.ids.length
  lt : n.ids.length < 2 ^ 31
  dim : n.dim ≠ 0
  dims : n.Dims
  shape : n.offsets = [] ∨ n.offsets.length = n.ids.length + 1

theorem marshal_ok {n : VNode} (h : n.Ok) : n.marshal = .ok n.content := by
  have h1 := h.ne
  have h2 := h.lt
  unfold marshal
  rw [if_neg (by rw [Nat.mod_eq_of_lt (by omega)]; omega), if_neg h.dim, if_neg (by simpa using content_length h.dims)]

/-- What a node looks like after it was written and read: its vectors have been converted. -/
def reread (n : VNode) : VNode := { n with vectors := n.vectors.map (·.map f32OfU32) }

theorem readRest_at {n : VNode} (h : n.Ok) (rest : Bytes) :
    readRest (n.content ++ rest) n.ids.length n.offsets.length = .ok n.reread := by
  have hAt : At (n.content ++ rest) 4
      ((n.ids.map encId).flatten ++ ((n.offsets.map putUvarint).flatten ++ (putUvarint n.dim ++ ((n.vectors.map encVec).flatten ++ rest)))) := by
    have := At.start (n.content ++ rest)
    conv at this => rhs; unfold content
    simp only [List.append_assoc] at this
    have := this.advance
    simpa [encHeader] using this
  unfold readRest
  rw [show ((4:Int)) = ((4:Nat):Int) from rfl,
    readMany_at (P := fun _ => True) (fun _ _ _ _ _ => readId_at) n.ids (fun _ _ => trivial) hAt]
  simp only [Res.bind]
  have h2 := hAt.advance
  rw [readMany_at (P := fun _ => True) (fun _ _ _ _ _ => readUvarint_at) n.offsets (fun _ _ => trivial) h2]
  simp only [Res.bind]
  have h3 := h2.advance
  rw [readUvarint_at h3]
  simp only [Res.bind]
  rw [← h.dims.1, readMany_map (P := fun v => v.length = n.dim.toNat) (enc := encVec) (f := fun v => v.map f32OfU32)
    (fun buf m v s hv ha => by rw [← hv]; exact readVec_at ha) n.vectors h.dims.2 h3.advance]
  rfl

/-- Reading back a node followed by arbitrary bytes. -/
theorem unmarshal_content {n : VNode} (h : n.Ok) (rest : Bytes) : unmarshal (n.content ++ rest) = .ok n.reread := by
  have h0 := h.ne
  have h1 := h.lt
  have hlen := content_length h.dims
  have hsz : 4 ≤ n.size := by unfold size; omega
  unfold unmarshal
  rw [if_neg (by simp only [List.length_append]; omega)]
  have htake : (n.content ++ rest).take 4 = encHeader n := by
    unfold content
    simp only [List.append_assoc]
    exact List.take_left' (by simp [encHeader])
  simp only [htake]
  have hmod : n.ids.length % 2 ^ 32 = n.ids.length := Nat.mod_eq_of_lt (by omega)
  rcases h.shape with hs | hs
  · have hleaf : n.leaf = true := by unfold leaf; simp [hs]
    have hh : leNat (encHeader n) = 2 ^ 32 - n.ids.length := by
      unfold encHeader
      rw [leNat_leBytes _ _ (by split <;> omega), if_pos hleaf, hmod]; omega
    rw [hh, if_neg (by omega), if_neg (by omega)]
    have hsub : 2 ^ 32 - (2 ^ 32 - n.ids.length) = n.ids.length := by omega
    rw [hsub]
    have := readRest_at h rest
    rw [hs] at this
    exact this
  · have hleaf : n.leaf = false := by unfold leaf; simp; intro he; rw [he] at hs; simp at hs
    have hh : leNat (encHeader n) = n.ids.length := by
      unfold encHeader
      rw [leNat_leBytes _ _ (by split <;> omega), if_neg (by simp [hleaf]), hmod]
    rw [hh, if_neg (by omega), if_pos (by omega), ← hs]
    exact readRest_at h rest

end VNode
end Appendable
