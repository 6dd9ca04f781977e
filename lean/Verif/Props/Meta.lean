import Verif.Lemmas.Meta
/-! Properties C05 and C06: file and index metadata. -/
namespace Appendable

/-- C05: file metadata of both formats round-trips, whatever bytes follow. -/
theorem C05_file_meta_round_trip (m : FileMeta) (rest : Bytes) :
    ∃ b, m.marshal = .ok b ∧ FileMeta.unmarshal (b ++ rest) = .ok m :=
  ⟨m.bytes, m.marshal_eq, m.unmarshal_bytes rest⟩

/-- C05: short buffers and unknown formats are rejected with an error, and decoding never panics. -/
theorem C05_file_meta_rejects (buf : Bytes) :
    (buf.length < 10 → ∃ e, FileMeta.unmarshal buf = .err e) ∧
    (∀ v f rest, buf = v :: f :: rest → f ≠ 0 → f ≠ 1 → ∃ e, FileMeta.unmarshal buf = .err e) ∧
    FileMeta.unmarshal buf ≠ .panic := by
  refine ⟨?_, ?_, ?_⟩
  · intro h; exact ⟨_, by unfold FileMeta.unmarshal; rw [if_pos h]⟩
  · rintro v f rest rfl h0 h1
    unfold FileMeta.unmarshal
    by_cases hl : (v :: f :: rest).length < 10
    · rw [if_pos hl]; exact ⟨_, rfl⟩
    · rw [if_neg hl]; simp [h0, h1]
  · unfold FileMeta.unmarshal
    split
    · simp
    · rename_i hl
      match buf with
      | [] => simp at hl
      | [_] => simp at hl
      | v :: f :: _ => simp only []; split <;> (try split) <;> simp

example : FileMeta.unmarshal [1, 7, 0, 0, 0, 0, 0, 0, 0, 0, 0] = .err (.msg "unrecognized file format") := by decide
example : FileMeta.unmarshal [1, 1, 2, 1, 0, 0, 0, 0, 0, 0, 5] = .ok ⟨1, .csv, 258, 5⟩ := by decide +kernel

/-- C06: index metadata with a name shorter than 65530 bytes round-trips, whatever bytes follow.  (A slot
holds at most 255 bytes of metadata, so longer names cannot be stored anyway.) -/
theorem C06_index_meta_round_trip (m : IndexMeta) (hn : m.fieldName.length < 65530) (rest : Bytes) :
    ∃ b, m.marshal = .ok b ∧ IndexMeta.unmarshal (b ++ rest) = .ok m :=
  ⟨m.bytes, m.marshal_eq, m.unmarshal_bytes hn rest⟩

example : (⟨[97, 98], 6, 2, 300⟩ : IndexMeta).fieldName.length < 65530 := by decide

/-- C06, no-panic half: decoding panics exactly on the buffers of 4 or 5 bytes, and on those whose name
length passes the check (`4 + nameLength`) but not the slice (`6 + nameLength`). -/
theorem C06_unmarshal_panics_iff (buf : Bytes) :
    IndexMeta.unmarshal buf = .panic ↔
      4 ≤ buf.length ∧ (buf.length < 6 ∨
        (4 + leNat ((buf.drop 4).take 2) ≤ buf.length ∧
          (buf.length < 6 + leNat ((buf.drop 4).take 2) ∨ 65530 ≤ leNat ((buf.drop 4).take 2)))) := by
  have hnl : leNat ((buf.drop 4).take 2) < 2 ^ 16 := by
    have h1 := leNat_lt ((buf.drop 4).take 2)
    have h2 : ((buf.drop 4).take 2).length ≤ 2 := by simp; omega
    have : (256 : Nat) ^ ((buf.drop 4).take 2).length ≤ 256 ^ 2 := Nat.pow_le_pow_right (by decide) h2
    omega
  unfold IndexMeta.unmarshal
  generalize leNat ((buf.drop 4).take 2) = nl at *
  split
  · simp; omega
  · split
    · simp; omega
    · simp only []
      split
      · simp; omega
      · split
        · rename_i h; simp
          by_cases h3 : 6 + nl < 2 ^ 16
          · rw [Nat.mod_eq_of_lt h3] at h; omega
          · omega
        · rename_i h
          simp only [reduceCtorEq, false_iff]
          by_cases h3 : 6 + nl < 2 ^ 16
          · rw [Nat.mod_eq_of_lt h3] at h; omega
          · omega

/-- C06, violated: there is a buffer on which decoding panics (also one that a corrupted slot can hold). -/
theorem C06_unmarshal_can_panic_violated :
    IndexMeta.unmarshal [0, 0, 0, 0] = .panic ∧ IndexMeta.unmarshal [0, 0, 0, 0, 1, 0] = .panic := by decide

/-- C06, the part of the no-panic half that holds: no buffer that starts with an encoded index metadata makes
decoding panic. -/
theorem C06_no_panic_partial (m : IndexMeta) (hn : m.fieldName.length < 65530) (b rest : Bytes)
    (hb : m.marshal = .ok b) : IndexMeta.unmarshal (b ++ rest) ≠ .panic := by
  rw [m.marshal_eq] at hb
  cases hb
  rw [m.unmarshal_bytes hn]; simp

example : (⟨[97], 6, 2, 3⟩ : IndexMeta).marshal = .ok [6, 0, 2, 0, 1, 0, 97, 3] := by decide +kernel

end Appendable
