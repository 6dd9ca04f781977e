import Verif.Model.Meta
import Verif.Lemmas.Encoding
namespace Appendable

theorem determineTypeByte_code (t : FieldType) : determineTypeByte t.code = determineType t := by
  cases t <;> decide

def FileMeta.bytes (m : FileMeta) : Bytes :=
  [m.version, m.format.toByte] ++ leBytes 8 m.readOffset.toNat ++ putUvarint m.entries

theorem FileMeta.marshal_eq (m : FileMeta) : m.marshal = .ok m.bytes := by
  unfold FileMeta.marshal FileMeta.bytes
  have := sizeVarint_eq_length m.entries
  simp [this]

theorem FileMeta.bytes_length (m : FileMeta) : m.bytes.length = 10 + (putUvarint m.entries).length := by
  simp [FileMeta.bytes]; omega

theorem FileMeta.unmarshal_bytes (m : FileMeta) (rest : Bytes) :
    FileMeta.unmarshal (m.bytes ++ rest) = .ok m := by
  have hl := m.bytes_length
  unfold FileMeta.unmarshal
  rw [if_neg (by simp only [List.length_append]; omega)]
  have h1 : ((m.bytes ++ rest).drop 2).take 8 = leBytes 8 m.readOffset.toNat := by
    simp only [FileMeta.bytes, List.cons_append, List.nil_append, List.append_assoc, List.drop_succ_cons,
      List.drop_zero]
    exact List.take_left' (by simp)
  have h2 : (m.bytes ++ rest).drop 10 = putUvarint m.entries ++ rest := by
    have : m.bytes ++ rest = ([m.version, m.format.toByte] ++ leBytes 8 m.readOffset.toNat)
      ++ (putUvarint m.entries ++ rest) := by simp [FileMeta.bytes]
    rw [this]; exact List.drop_left' (by simp)
  simp only [h1, h2, uvarint_putUvarint]
  rw [leNat_leBytes _ _ (Nat.lt_of_lt_of_le m.readOffset.toNat_lt (by decide))]
  have h3 : UInt64.ofNat m.readOffset.toNat = m.readOffset := by simp
  rw [h3]
  obtain ⟨v, f, r, e⟩ := m
  cases f <;> simp [FileMeta.bytes, Format.toByte]

def IndexMeta.bytes (m : IndexMeta) : Bytes :=
  leBytes 2 m.fieldType.toNat ++ leBytes 2 m.width.toNat ++ leBytes 2 (m.fieldName.length % 2 ^ 16)
      ++ m.fieldName ++ putUvarint m.totalLen

theorem IndexMeta.marshal_eq (m : IndexMeta) : m.marshal = .ok m.bytes := by
  unfold IndexMeta.marshal IndexMeta.bytes
  have := sizeVarint_eq_length m.totalLen
  simp [this]

theorem IndexMeta.bytes_length (m : IndexMeta) :
    m.bytes.length = 6 + m.fieldName.length + (putUvarint m.totalLen).length := by
  simp [IndexMeta.bytes]; omega

theorem IndexMeta.unmarshal_bytes (m : IndexMeta) (hn : m.fieldName.length < 65530) (rest : Bytes) :
    IndexMeta.unmarshal (m.bytes ++ rest) = .ok m := by
  have hl := m.bytes_length
  have hlr : (m.bytes ++ rest).length = 6 + m.fieldName.length + (putUvarint m.totalLen).length + rest.length := by
    simp only [List.length_append]; omega
  unfold IndexMeta.unmarshal
  rw [if_neg (by omega), if_neg (by omega)]
  have e0 : m.bytes ++ rest = leBytes 2 m.fieldType.toNat ++ (leBytes 2 m.width.toNat ++
      (leBytes 2 (m.fieldName.length % 2 ^ 16) ++ (m.fieldName ++ (putUvarint m.totalLen ++ rest)))) := by
    simp [IndexMeta.bytes]
  have h1 : (m.bytes ++ rest).take 2 = leBytes 2 m.fieldType.toNat := by
    rw [e0]; exact List.take_left' (by simp)
  have d2 : (m.bytes ++ rest).drop 2 = leBytes 2 m.width.toNat ++
      (leBytes 2 (m.fieldName.length % 2 ^ 16) ++ (m.fieldName ++ (putUvarint m.totalLen ++ rest))) := by
    rw [e0]; exact List.drop_left' (by simp)
  have d4 : (m.bytes ++ rest).drop 4 =
      leBytes 2 (m.fieldName.length % 2 ^ 16) ++ (m.fieldName ++ (putUvarint m.totalLen ++ rest)) := by
    rw [show 4 = 2 + 2 from rfl, ← List.drop_drop, d2]; exact List.drop_left' (by simp)
  have d6 : (m.bytes ++ rest).drop 6 = m.fieldName ++ (putUvarint m.totalLen ++ rest) := by
    rw [show 6 = 4 + 2 from rfl, ← List.drop_drop, d4]; exact List.drop_left' (by simp)
  have h2 : ((m.bytes ++ rest).drop 2).take 2 = leBytes 2 m.width.toNat := by
    rw [d2]; exact List.take_left' (by simp)
  have h3 : ((m.bytes ++ rest).drop 4).take 2 = leBytes 2 (m.fieldName.length % 2 ^ 16) := by
    rw [d4]; exact List.take_left' (by simp)
  have hmod : m.fieldName.length % 2 ^ 16 = m.fieldName.length := Nat.mod_eq_of_lt (by omega)
  have hw := m.width.toNat_lt
  have hf := m.fieldType.toNat_lt
  simp only [h1, h2, h3]
  rw [leNat_leBytes _ _ (by omega), leNat_leBytes _ _ (by omega), leNat_leBytes _ _ (by omega), hmod]
  have hm : (6 + m.fieldName.length) % 2 ^ 16 = 6 + m.fieldName.length := Nat.mod_eq_of_lt (by omega)
  rw [if_neg (by omega), hm, if_neg (by omega), d6, ← List.drop_drop, d6]
  rw [List.take_left' rfl, List.drop_left' rfl, uvarint_putUvarint]
  have hf2 : m.fieldType.toNat % 256 = m.fieldType.toNat := Nat.mod_eq_of_lt (by omega)
  rw [hf2]
  obtain ⟨n, f, w, t⟩ := m
  simp

end Appendable
