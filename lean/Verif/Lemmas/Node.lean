import Verif.Spec.Node
import Verif.Lemmas.Encoding
namespace Appendable
open Spec

/-- The bytes of `buf` from position `m` on are `s`. -/
def At (buf : Bytes) (m : Nat) (s : Bytes) : Prop := buf.drop m = s ∧ m ≤ buf.length

theorem At.start (buf : Bytes) : At buf 0 buf := ⟨rfl, Nat.zero_le _⟩

theorem At.advance {buf a s : Bytes} {m : Nat} (h : At buf m (a ++ s)) : At buf (m + a.length) s := by
  obtain ⟨h1, h2⟩ := h
  refine ⟨by rw [← List.drop_drop, h1]; simp, ?_⟩
  have := congrArg List.length h1
  simp at this; omega

theorem At.len {buf s : Bytes} {m : Nat} (h : At buf m s) : m + s.length = buf.length := by
  have := congrArg List.length h.1
  have := h.2
  simp at *; omega

theorem readUvarint_at {buf s : Bytes} {m : Nat} {v : UInt64} (h : At buf m (putUvarint v ++ s)) :
    readUvarint buf m = .ok (v, ((m + (putUvarint v).length : Nat) : Int)) := by
  have h2 := h.2
  unfold readUvarint
  rw [if_pos ⟨by omega, by omega⟩]
  simp only [Int.toNat_natCast, h.1, uvarint_putUvarint]
  congr 2

theorem sliceRes_at {buf a s : Bytes} {m : Nat} (h : At buf m (a ++ s)) :
    sliceRes buf m a.length = .ok a := by
  have h2 := h.len
  simp only [List.length_append] at h2
  unfold sliceRes
  rw [if_pos ⟨by omega, by omega⟩]
  simp only [Int.toNat_natCast, h.1, List.take_left']

theorem toUInt64_toUInt32 (x : UInt32) : x.toUInt64.toUInt32 = x := by simp

theorem readMemPtr_at {buf s : Bytes} {m : Nat} {p : MemPtr} (h : At buf m (encLeafPtr p ++ s)) :
    readMemPtr buf m = .ok (p, ((m + (encLeafPtr p).length : Nat) : Int)) := by
  unfold encLeafPtr at h
  rw [List.append_assoc] at h
  unfold readMemPtr
  rw [readUvarint_at h]
  simp only [Res.bind_ok]
  rw [readUvarint_at h.advance]
  simp only [Res.bind_ok, toUInt64_toUInt32, encLeafPtr, List.length_append, Res.pure_eq, Nat.add_assoc]

theorem readMany_at {α : Type} {read : Bytes → Int → Res (α × Int)} {enc : α → Bytes} {P : α → Prop}
    (hr : ∀ (buf : Bytes) (m : Nat) (a : α) (s : Bytes), P a → At buf m (enc a ++ s) →
      read buf m = .ok (a, ((m + (enc a).length : Nat) : Int)))
    (as : List α) {buf : Bytes} {m : Nat} {s : Bytes} (hp : ∀ a ∈ as, P a)
    (h : At buf m ((as.map enc).flatten ++ s)) :
    readMany read buf as.length m = .ok (as, ((m + (as.map enc).flatten.length : Nat) : Int)) := by
  induction as generalizing m with
  | nil => simp [readMany]
  | cons a as ih =>
    simp only [List.map_cons, List.flatten_cons, List.append_assoc] at h
    simp only [List.length_cons, readMany]
    rw [hr _ _ a _ (hp a (by simp)) h]
    simp only [Res.bind_ok]
    rw [ih (fun b hb => hp b (by simp [hb])) h.advance]
    simp only [Res.bind_ok, Res.pure_eq, List.map_cons, List.flatten_cons, List.length_append, Nat.add_assoc]

theorem readKey_at (cfg : Cfg) (buf : Bytes) (m : Nat) (k : RV) (s : Bytes) (hk : KeyOK cfg k)
    (h : At buf m (encKey cfg.width k ++ s)) :
    readKey cfg buf m = .ok (k, ((m + (encKey cfg.width k).length : Nat) : Int)) := by
  have he : encKey cfg.width k = encLeafPtr k.dp ++ (if cfg.width ≠ 0 then k.value else []) := rfl
  rw [he, List.append_assoc] at h
  unfold readKey
  rw [readMemPtr_at h]
  simp only [Res.bind_ok]
  unfold KeyOK at hk
  by_cases hw : cfg.width = 0
  · have he' : (encKey cfg.width k).length = (encLeafPtr k.dp).length := by rw [he]; simp [hw]
    rw [he']
    simp only [hw, if_true] at hk ⊢
    have h3 : sliceRes cfg.data k.dp.offset.toNat k.dp.length.toNat
        = .ok ((cfg.data.drop k.dp.offset.toNat).take k.dp.length.toNat) := by
      unfold sliceRes; rw [if_pos ⟨by omega, by omega⟩]; simp
    rw [h3]
    simp only [Res.bind_ok, Res.pure_eq, ← hk.2]
  · simp only [hw, if_false] at hk
    have ha := h.advance
    simp only [ne_eq, hw, not_false_iff, if_true] at ha
    simp only [hw, if_false, ← hk]
    rw [sliceRes_at ha]
    simp only [Res.bind_ok, Res.pure_eq, he, ne_eq, hw, not_false_iff, if_true, List.length_append,
      Nat.add_assoc]
    rw [← Nat.add_assoc]; rfl

theorem encKey_length (width : UInt16) (k : RV) : (encKey width k).length = keySize width k := by
  unfold encKey keySize
  rw [sizeVarint_eq_length, sizeVarint_eq_length]
  split <;> simp <;> omega

theorem encLeafPtr_length (p : MemPtr) : (encLeafPtr p).length = leafPtrSize p := by
  unfold encLeafPtr leafPtrSize
  rw [sizeVarint_eq_length, sizeVarint_eq_length]; simp

theorem flatten_map_length {α : Type} (f : α → Bytes) (g : α → Nat) (h : ∀ a, (f a).length = g a) (l : List α) :
    (l.map f).flatten.length = (l.map g).sum := by
  induction l with
  | nil => rfl
  | cons a l ih => simp only [List.map_cons, List.flatten_cons, List.length_append, List.sum_cons, ih, h]

theorem content_length (width : UInt16) (n : Node) : (n.content width).length = n.size width := by
  unfold Node.content Node.size encHeader
  simp only [List.length_append, leBytes_length]
  rw [flatten_map_length _ _ (encKey_length width), flatten_map_length _ _ encLeafPtr_length,
    flatten_map_length putUvarint intPtrSize (fun _ => rfl)]

theorem marshal_ok {width : UInt16} {n : Node} (h : n.keys.length % 2 ^ 32 ≠ 0) :
    n.marshal width = .ok (n.content width) := by
  unfold Node.marshal
  rw [if_neg h, if_neg (by simpa using content_length width n)]

theorem size_ge (width : UInt16) (n : Node) : 4 ≤ n.size width := by unfold Node.size; omega

/-- Reading back a node followed by arbitrary bytes. -/
theorem unmarshal_content (cfg : Cfg) (n : Node) (h : NodeOK cfg n) (rest : Bytes) :
    Node.unmarshal cfg (n.content cfg.width ++ rest) = .ok n := by
  obtain ⟨hk0, hk1, hshape, hkeys⟩ := h
  have hlen := content_length cfg.width n
  have hsz := size_ge cfg.width n
  unfold Node.unmarshal
  rw [if_neg (by simp only [List.length_append]; omega)]
  have htake : (n.content cfg.width ++ rest).take 4 = encHeader n := by
    unfold Node.content
    simp only [List.append_assoc]
    exact List.take_left' (by simp [encHeader])
  have hAt : At (n.content cfg.width ++ rest) 4
      ((n.keys.map (encKey cfg.width)).flatten ++ ((n.leafPtrs.map encLeafPtr).flatten
    ++ ((n.intPtrs.map putUvarint).flatten ++ rest))) := by
    have := At.start (n.content cfg.width ++ rest)
    conv at this => rhs; unfold Node.content
    simp only [List.append_assoc] at this
    have := this.advance
    simpa [encHeader] using this
  simp only [htake]
  have hmod : n.keys.length % 2 ^ 32 = n.keys.length := Nat.mod_eq_of_lt (by omega)
  rcases hshape with ⟨hs1, hs2⟩ | ⟨hs1, hs2⟩
  · have hleaf : n.leaf = true := by unfold Node.leaf; simp; omega
    have hh : leNat (encHeader n) = 2 ^ 32 - n.keys.length := by
      unfold encHeader
      rw [leNat_leBytes _ _ (by split <;> omega), if_pos hleaf, hmod]; omega
    rw [hh, if_neg (by omega), if_neg (by omega)]
    have hsub : 2 ^ 32 - (2 ^ 32 - n.keys.length) = n.keys.length := by omega
    simp only [hsub]
    have := readMany_at (readKey_at cfg) n.keys hkeys hAt
    rw [show ((4:Int)) = ((4:Nat):Int) from rfl, this]
    simp only [Res.bind_ok]
    rw [← hs1, readMany_at (P := fun _ => True) (fun _ _ _ _ _ => readMemPtr_at) n.leafPtrs (fun _ _ => trivial)
      hAt.advance]
    simp only [Res.bind_ok, Res.pure_eq]
    cases n; simp_all
  · have hleaf : n.leaf = false := by unfold Node.leaf; simp [hs2]
    have hh : leNat (encHeader n) = n.keys.length := by
      unfold encHeader
      rw [leNat_leBytes _ _ (by split <;> omega), if_neg (by simp [hleaf]), hmod]
    rw [hh, if_neg (by omega), if_pos (by omega)]
    have := readMany_at (readKey_at cfg) n.keys hkeys hAt
    rw [show ((4:Int)) = ((4:Nat):Int) from rfl, this]
    simp only [Res.bind_ok]
    have h3 := hAt.advance
    rw [hs2] at h3
    simp only [List.map_nil, List.flatten_nil, List.nil_append] at h3
    rw [← hs1, readMany_at (P := fun _ => True) (fun _ _ _ _ _ => readUvarint_at) n.intPtrs (fun _ _ => trivial)
      h3]
    simp only [Res.bind_ok, Res.pure_eq]
    cases n; simp_all

end Appendable
