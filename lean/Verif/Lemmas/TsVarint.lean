import Verif.Model.TsClient
import Verif.Lemmas.Encoding
/-! The TypeScript varint decoder on what the Go encoder wrote. -/
namespace Appendable

theorem toInt32_range (x : UInt32) : -(2 ^ 31) ≤ toInt32 x ∧ toInt32 x < 2 ^ 31 := by
  have := x.toNat_lt
  unfold toInt32
  split <;> omega

theorem and_7f (x : Nat) (h : x < 128) : (UInt8.ofNat (x + 128) &&& 0x7f).toNat = x := by
  have : ∀ x : Fin 128, (UInt8.ofNat (x.val + 128) &&& 0x7f).toNat = x.val := by decide
  exact this ⟨x, h⟩

theorem or_shift {x d s : Nat} (hx : x < 2 ^ s) : x ||| (d <<< s) = x + d * 2 ^ s := by
  rw [Nat.or_comm, ← Nat.shiftLeft_add_eq_or_of_lt hx, Nat.shiftLeft_eq, Nat.add_comm]

/-- One round of the accumulation, as long as nothing is lost. -/
theorem or_shift32 {x d : UInt32} {s : Nat} (hs : s < 32) (hx : x.toNat < 2 ^ s) (hd : x.toNat + d.toNat * 2 ^ s < 2 ^ 32) :
    (x ||| (d <<< UInt32.ofNat s)).toNat = x.toNat + d.toNat * 2 ^ s := by
  rw [UInt32.toNat_or, UInt32.toNat_shiftLeft, UInt32.toNat_ofNat_of_lt' (by simp [UInt32.size]; omega), Nat.mod_eq_of_lt hs]
  rw [Nat.mod_eq_of_lt (by rw [Nat.shiftLeft_eq]; omega), or_shift hx]

/-- The number of bytes read is right whatever is encoded; the value is right if it is below 2^31. -/
theorem tsUvarintLoop_spec (f x : Nat) (rest : Bytes) (i : Nat) (s acc : UInt32)
    (hf : i + f = 9) (hx : x < 2 ^ (7 * f + 1)) :
    (tsUvarintLoop (uvarintLoop f x ++ rest) i s acc).2 = ((i + (uvarintLoop f x).length : Nat) : Int) ∧
    (-(2 ^ 31) ≤ (tsUvarintLoop (uvarintLoop f x ++ rest) i s acc).1 ∧ (tsUvarintLoop (uvarintLoop f x ++ rest) i s acc).1 < 2 ^ 31) ∧
    (s = UInt32.ofNat (7 * i) → acc.toNat < 2 ^ (7 * i) → (x = 0 → i = 0) → acc.toNat + x * 2 ^ (7 * i) < 2 ^ 31 →
      (tsUvarintLoop (uvarintLoop f x ++ rest) i s acc).1 = ((acc.toNat + x * 2 ^ (7 * i) : Nat) : Int)) := by
  have hi32 : ∀ {i x acc : Nat}, (x = 0 → i = 0) → acc + x * 2 ^ (7 * i) < 2 ^ 31 → 7 * i < 32 := by
    intro i x acc h0 h1
    by_cases hxz : x = 0
    · rw [h0 hxz]; omega
    · have h2 : 2 ^ (7 * i) ≤ x * 2 ^ (7 * i) := Nat.le_mul_of_pos_left _ (by omega)
      have h3 : 2 ^ (7 * i) < 2 ^ 31 := by omega
      have := (Nat.pow_lt_pow_iff_right (by decide : 1 < 2)).1 h3
      omega
  have last : ∀ {b : Nat} {s acc : UInt32} {i : Nat}, b < 128 → s = UInt32.ofNat (7 * i) → acc.toNat < 2 ^ (7 * i) →
      (b = 0 → i = 0) → acc.toNat + b * 2 ^ (7 * i) < 2 ^ 31 →
      toInt32 (acc ||| ((UInt8.ofNat b).toUInt32 <<< s)) = ((acc.toNat + b * 2 ^ (7 * i) : Nat) : Int) := by
    intro b s acc i hb hs ha h0 hlt
    have hd : (UInt8.ofNat b).toUInt32.toNat = b := by simp; omega
    subst hs
    have h := or_shift32 (x := acc) (d := (UInt8.ofNat b).toUInt32) (hi32 h0 hlt) ha (by rw [hd]; omega)
    unfold toInt32
    rw [h, hd, if_pos (by omega)]
  induction f generalizing x i s acc with
  | zero =>
    have hx1 : x < 2 := by simpa using hx
    have hi : i = 9 := by omega
    subst hi
    simp only [uvarintLoop, List.cons_append, List.nil_append, tsUvarintLoop]
    have hb : (UInt8.ofNat x).toNat = x := u8_toNat_ofNat_lt (by omega)
    rw [if_neg (by omega), if_pos (by rw [UInt8.lt_iff_toNat_lt, hb]; simp; omega),
      if_neg (by rw [gt_iff_lt, UInt8.lt_iff_toNat_lt, hb]; simp; omega)]
    exact ⟨rfl, toInt32_range _, fun h1 h2 h3 h4 => last (by omega) h1 h2 h3 h4⟩
  | succ f ih =>
    simp only [uvarintLoop]
    split
    · rename_i hlt
      simp only [List.cons_append, List.nil_append, tsUvarintLoop]
      have hb : (UInt8.ofNat x).toNat = x := u8_toNat_ofNat_lt (by omega)
      rw [if_neg (by omega), if_pos (by rw [UInt8.lt_iff_toNat_lt, hb]; simpa using hlt), if_neg (by omega)]
      exact ⟨by simp, toInt32_range _, fun h1 h2 h3 h4 => last hlt h1 h2 h3 h4⟩
    · rename_i hge
      simp only [List.cons_append, tsUvarintLoop]
      have hb : (UInt8.ofNat (x % 128 + 128)).toNat = x % 128 + 128 := u8_toNat_ofNat_lt (by omega)
      rw [if_neg (by omega), if_neg (by rw [UInt8.lt_iff_toNat_lt, hb]; simp)]
      have h7 : x / 128 < 2 ^ (7 * f + 1) := by
        rw [Nat.div_lt_iff_lt_mul (by decide)]
        have : 2 ^ (7 * (f + 1) + 1) = 2 ^ (7 * f + 1) * 128 := by
          rw [show 7 * (f + 1) + 1 = (7 * f + 1) + 7 by omega, Nat.pow_add]
        omega
      obtain ⟨h1, h2, h3⟩ := ih (x / 128) (i + 1) (s + 7) (acc ||| ((UInt8.ofNat (x % 128 + 128) &&& 0x7f).toUInt32 <<< s)) (by omega) h7
      refine ⟨by rw [h1]; simp; omega, h2, fun hs ha h0 hlt => ?_⟩
      have h7i := hi32 h0 hlt
      have hd : ((UInt8.ofNat (x % 128 + 128) &&& 0x7f).toUInt32).toNat = x % 128 := by
        rw [UInt8.toNat_toUInt32, and_7f _ (by omega)]
      have hx2 : x % 128 + 128 * (x / 128) = x := Nat.mod_add_div x 128
      have hp : 2 ^ (7 * (i + 1)) = 2 ^ (7 * i) * 128 := by
        rw [show 7 * (i + 1) = 7 * i + 7 by omega, Nat.pow_add]
      have hsum : x % 128 * 2 ^ (7 * i) + x / 128 * (2 ^ (7 * i) * 128) = x * 2 ^ (7 * i) := by
        conv => rhs; rw [← hx2]
        rw [Nat.add_mul]; congr 1
        rw [← Nat.mul_assoc, Nat.mul_comm (x / 128) (2 ^ (7*i)), Nat.mul_assoc, Nat.mul_comm (2 ^ (7*i)), Nat.mul_comm (x/128)]
      have hle : x % 128 * 2 ^ (7 * i) ≤ x * 2 ^ (7 * i) := by rw [← hsum]; omega
      have hstep := or_shift32 (x := acc) (d := (UInt8.ofNat (x % 128 + 128) &&& 0x7f).toUInt32) h7i ha (by rw [hd]; omega)
      rw [hd, ← hs] at hstep
      have hlt' : x % 128 * 2 ^ (7 * i) ≤ 127 * 2 ^ (7 * i) := Nat.mul_le_mul_right _ (by omega)
      rw [h3 (by subst hs; rw [show 7 * (i + 1) = 7 * i + 7 by omega, UInt32.ofNat_add]; rfl) (by rw [hstep, hp]; omega)
        (by omega) (by rw [hstep, hp]; omega)]
      rw [hstep, hp]
      congr 1
      omega

theorem tsUvarint_spec (v : UInt64) (rest : Bytes) :
    (tsUvarint (putUvarint v ++ rest)).2 = ((putUvarint v).length : Int) ∧
    (-(2 ^ 31) ≤ (tsUvarint (putUvarint v ++ rest)).1 ∧ (tsUvarint (putUvarint v ++ rest)).1 < 2 ^ 31) ∧
    (v.toNat < 2 ^ 31 → (tsUvarint (putUvarint v ++ rest)).1 = (v.toNat : Int)) := by
  obtain ⟨h1, h2, h3⟩ := tsUvarintLoop_spec 9 v.toNat rest 0 0 0 (by rfl) (by simpa using v.toNat_lt)
  refine ⟨by unfold tsUvarint putUvarint; rw [h1]; simp, h2, fun h => ?_⟩
  unfold tsUvarint putUvarint
  rw [h3 rfl (by simp) (by simp) (by simpa using h)]
  simp

theorem tsUvarint_small {v : UInt64} (h : v.toNat < 2 ^ 31) (rest : Bytes) :
    tsUvarint (putUvarint v ++ rest) = ((v.toNat : Int), ((putUvarint v).length : Int)) := by
  obtain ⟨h1, _, h3⟩ := tsUvarint_spec v rest
  exact Prod.ext (h3 h) h1

end Appendable
