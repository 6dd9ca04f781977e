import Verif.Lemmas.Encoding
import Verif.Spec.Varint
/-! Properties C01 and C02: varints. -/
namespace Appendable

/-- C01: the size predictor is the exact number of bytes the writer emits, between 1 and 10, for every
uint64. -/
theorem C01_sizeVarint_exact (v : UInt64) :
    sizeVarint v = (putUvarint v).length ∧ 1 ≤ sizeVarint v ∧ sizeVarint v ≤ 10 := by
  have h := sizeVarint_eq_length v
  have h1 := putUvarint_length_pos v
  have h2 := putUvarint_length_le v
  omega

/-- the bounds 1 and 10 are both attained -/
example : sizeVarint 0 = 1 ∧ sizeVarint 127 = 1 ∧ sizeVarint 128 = 2 ∧ sizeVarint (2 ^ 63) = 10 := by
  decide +kernel

theorem varint_spec_loop (f x : Nat) (h : x < 128 ^ (f + 1)) :
    Spec.varintValue (uvarintLoop f x) = x ∧ Spec.varintShape (uvarintLoop f x) = true := by
  induction f generalizing x with
  | zero =>
    have h0 : x < 128 := by simpa using h
    have : (UInt8.ofNat x).toNat = x := u8_toNat_ofNat_lt (by omega)
    simp only [uvarintLoop, Spec.varintValue, Spec.varintShape, this, decide_eq_true_eq]
    omega
  | succ f ih =>
    by_cases hx : x < 128
    · have : (UInt8.ofNat x).toNat = x := u8_toNat_ofNat_lt (by omega)
      simp only [uvarintLoop, hx, if_true, Spec.varintValue, Spec.varintShape, this, decide_true, and_true]
      omega
    · have h2 : x / 128 < 128 ^ (f + 1) := by
        rw [Nat.div_lt_iff_lt_mul (by decide)]; rw [Nat.pow_succ] at h; exact h
      obtain ⟨i1, i2⟩ := ih _ h2
      have hb : (UInt8.ofNat (x % 128 + 128)).toNat = x % 128 + 128 := u8_toNat_ofNat_lt (by omega)
      simp only [uvarintLoop, hx, if_false, Spec.varintValue, hb, i1]
      refine ⟨by omega, ?_⟩
      have hp := uvarintLoop_length_pos f (x / 128)
      cases hl : uvarintLoop f (x / 128) with
      | nil => rw [hl] at hp; simp at hp
      | cons c cs => rw [hl] at i2; simp only [Spec.varintShape, hb, i2]; simp

/-- C01 (format): what the writer emits is a well-shaped base-128 varint denoting the value. -/
theorem C01_putUvarint_denotes (v : UInt64) :
    Spec.varintValue (putUvarint v) = v.toNat ∧ Spec.varintShape (putUvarint v) = true :=
  varint_spec_loop 9 _ (Nat.lt_of_lt_of_le v.toNat_lt (by decide))

/-- C02: decoding the encoding of any uint64, followed by any bytes, returns the value and the number of
bytes that were written. -/
theorem C02_uvarint_round_trip (v : UInt64) (rest : Bytes) :
    uvarint (putUvarint v ++ rest) = (v, ((putUvarint v).length : Int)) :=
  uvarint_putUvarint v rest

example : uvarint (putUvarint 300 ++ [7, 200]) = (300, 2) := by decide

/-- C02: two different values never have the same encoding, not even when followed by other bytes. -/
theorem C02_uvarint_prefix_free (v w : UInt64) (r s : Bytes) (h : putUvarint v ++ r = putUvarint w ++ s) :
    v = w ∧ r = s := by
  have h1 := uvarint_putUvarint v r
  rw [h, uvarint_putUvarint w s] at h1
  have hv : w = v := congrArg Prod.fst h1
  subst hv
  exact ⟨rfl, List.append_cancel_left h⟩

theorem uvarintGo_accepts : ∀ (pre rest : Bytes) (i x : Nat), Spec.varintShape pre = true → i + pre.length ≤ 10 →
    x + 2 ^ (7 * i) * Spec.varintValue pre < 2 ^ 64 →
    uvarintGo (pre ++ rest) i (7 * i) x =
      (UInt64.ofNat (x + 2 ^ (7 * i) * Spec.varintValue pre), ((i + pre.length : Nat) : Int)) := by
  intro pre
  induction pre with
  | nil => intro rest i x h; simp [Spec.varintShape] at h
  | cons b bs ih =>
    intro rest i x hs hl hv
    rw [List.length_cons] at hl
    rw [List.cons_append, uvarintGo, if_neg (by omega)]
    cases bs with
    | nil =>
      simp only [Spec.varintShape, decide_eq_true_eq] at hs
      simp only [Spec.varintValue, Nat.mul_zero, Nat.add_zero, Nat.mod_eq_of_lt hs] at hv ⊢
      rw [if_pos hs, if_neg, Nat.mul_comm (2 ^ (7 * i))]
      · simp
      · rintro ⟨rfl, hb⟩
        omega
    | cons c cs =>
      have hs' : 128 ≤ b.toNat ∧ Spec.varintShape (c :: cs) = true := by simpa [Spec.varintShape] using hs
      have hb := b.toNat_lt
      have hm : b.toNat % 128 = b.toNat - 128 := by omega
      have e7 : 7 * i + 7 = 7 * (i + 1) := by omega
      have hx : x + 2 ^ (7 * i) * Spec.varintValue (b :: c :: cs) =
          x + (b.toNat - 128) * 2 ^ (7 * i) + 2 ^ (7 * (i + 1)) * Spec.varintValue (c :: cs) := by
        rw [Spec.varintValue, hm, ← e7, Nat.pow_add]
        generalize 2 ^ (7 * i) = A
        generalize Spec.varintValue (c :: cs) = V
        generalize b.toNat - 128 = B
        rw [Nat.mul_add, ← Nat.mul_assoc, Nat.mul_comm A B, show (2 : Nat) ^ 7 = 128 from rfl]
        omega
      rw [if_neg (by omega), e7, ih rest (i + 1) _ hs'.2 (by omega) (by rw [← hx]; exact hv), ← hx]
      simp only [List.length_cons, Prod.mk.injEq, true_and]
      omega

theorem uvarintGo_sound : ∀ (buf : Bytes) (i x : Nat), i ≤ 10 → x < 2 ^ (7 * i) → 0 < (uvarintGo buf i (7 * i) x).2 →
    ∃ pre rest, buf = pre ++ rest ∧ Spec.varintShape pre = true ∧ i + pre.length ≤ 10 ∧
      (uvarintGo buf i (7 * i) x).1.toNat = x + 2 ^ (7 * i) * Spec.varintValue pre ∧
      (uvarintGo buf i (7 * i) x).2 = ((i + pre.length : Nat) : Int) := by
  intro buf
  induction buf with
  | nil => intro i x _ _ h; simp [uvarintGo] at h
  | cons b bs ih =>
    intro i x hi hx h
    unfold uvarintGo at h ⊢
    by_cases h10 : i = 10
    · rw [if_pos h10] at h; simp only at h; omega
    rw [if_neg h10] at h ⊢
    by_cases hb : b.toNat < 128
    · rw [if_pos hb] at h ⊢
      by_cases ho : i = 9 ∧ b.toNat > 1
      · rw [if_pos ho] at h; simp only at h; omega
      · rw [if_neg ho]
        refine ⟨[b], bs, rfl, by simp [Spec.varintShape, hb], by simp; omega, ?_, by simp⟩
        have hlt : x + b.toNat * 2 ^ (7 * i) < 2 ^ 64 := by
          by_cases h9 : i = 9
          · subst h9
            have : b.toNat ≤ 1 := by omega
            have : b.toNat * 2 ^ (7 * 9) ≤ 1 * 2 ^ (7 * 9) := Nat.mul_le_mul_right _ this
            omega
          · have h1 : (b.toNat + 1) * 2 ^ (7 * i) ≤ 128 * 2 ^ (7 * i) := Nat.mul_le_mul_right _ (by omega)
            have h2 : 128 * 2 ^ (7 * i) = 2 ^ (7 * i + 7) := by rw [Nat.pow_add]; omega
            have h3 : 2 ^ (7 * i + 7) ≤ 2 ^ 63 := Nat.pow_le_pow_right (by omega) (by omega)
            rw [Nat.add_mul, Nat.one_mul] at h1
            have : (2 : Nat) ^ 63 < 2 ^ 64 := by decide
            omega
        rw [UInt64.toNat_ofNat_of_lt' (by simpa [UInt64.size] using hlt)]
        simp [Spec.varintValue, Nat.mod_eq_of_lt hb, Nat.mul_comm]
    · rw [if_neg hb] at h ⊢
      have hbl := b.toNat_lt
      have e7 : 7 * i + 7 = 7 * (i + 1) := by omega
      rw [e7] at h ⊢
      have hx' : x + (b.toNat - 128) * 2 ^ (7 * i) < 2 ^ (7 * (i + 1)) := by
        have h1 : (b.toNat - 128 + 1) * 2 ^ (7 * i) ≤ 128 * 2 ^ (7 * i) := Nat.mul_le_mul_right _ (by omega)
        have h2 : 128 * 2 ^ (7 * i) = 2 ^ (7 * i + 7) := by rw [Nat.pow_add]; omega
        rw [Nat.add_mul, Nat.one_mul] at h1
        rw [← e7]; omega
      obtain ⟨pre, rest, e1, e2, e3, e4, e5⟩ := ih (i + 1) _ (by omega) hx' h
      refine ⟨b :: pre, rest, by rw [e1]; rfl, ?_, by simp only [List.length_cons]; omega, ?_, by rw [e5, List.length_cons]; omega⟩
      · cases pre with
        | nil => simp [Spec.varintShape] at e2
        | cons c cs => simp only [Spec.varintShape, e2, Bool.and_true, decide_eq_true_eq]; omega
      · rw [e4, Spec.varintValue, ← e7, Nat.pow_add, show b.toNat % 128 = b.toNat - 128 by omega]
        generalize 2 ^ (7 * i) = A
        generalize Spec.varintValue pre = V
        generalize b.toNat - 128 = B
        rw [Nat.mul_add, ← Nat.mul_assoc, Nat.mul_comm A B, show (2 : Nat) ^ 7 = 128 from rfl]
        omega

/-- C02: the decoder accepts exactly the varints of at most ten bytes that denote a number below 2^64 (whatever
follows them), returning this number and their length; every other buffer is reported by a count that is not
positive. -/
theorem C02_uvarint_exact (buf : Bytes) :
    (∀ pre rest, buf = pre ++ rest → Spec.varintShape pre = true → pre.length ≤ 10 → Spec.varintValue pre < 2 ^ 64 →
      (uvarint buf).1.toNat = Spec.varintValue pre ∧ (uvarint buf).2 = (pre.length : Int)) ∧
    (0 < (uvarint buf).2 → ∃ pre rest, buf = pre ++ rest ∧ Spec.varintShape pre = true ∧ pre.length ≤ 10 ∧
      Spec.varintValue pre < 2 ^ 64) := by
  refine ⟨?_, fun h => ?_⟩
  · rintro pre rest rfl hs hl hv
    have := uvarintGo_accepts pre rest 0 0 hs (by omega) (by simpa using hv)
    unfold uvarint
    simp only [Nat.mul_zero, Nat.zero_add, Nat.pow_zero, Nat.one_mul] at this
    rw [this]
    exact ⟨UInt64.toNat_ofNat_of_lt' (by simpa [UInt64.size] using hv), rfl⟩
  · obtain ⟨pre, rest, e1, e2, e3, e4, _⟩ := uvarintGo_sound buf 0 0 (by omega) (by simp) h
    refine ⟨pre, rest, e1, e2, by omega, ?_⟩
    simp only [Nat.mul_zero, Nat.pow_zero, Nat.one_mul, Nat.zero_add] at e4
    rw [← e4]
    exact UInt64.toNat_lt _

/-- The greatest number, one that is too great, an unfinished one, and a padded one. -/
example : uvarint (List.replicate 9 255 ++ [1, 7]) = (18446744073709551615, 10) ∧ uvarint (List.replicate 9 255 ++ [2, 7]) = (0, -10) ∧
    uvarint [255, 255] = (0, 0) ∧ uvarint [133, 0, 9] = (5, 2) := by decide

example : putUvarint 5 ++ [1] = putUvarint 5 ++ [1] := rfl

end Appendable
