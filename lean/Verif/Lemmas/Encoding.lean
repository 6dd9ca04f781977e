import Verif.Model.Encoding
/-! Helper lemmas about the byte encodings. -/
namespace Appendable

theorem u8_toNat_ofNat_lt {x : Nat} (h : x < 256) : (UInt8.ofNat x).toNat = x := by
  simp [UInt8.toNat_ofNat']; omega

@[simp] theorem leBytes_length (n x : Nat) : (leBytes n x).length = n := by
  induction n generalizing x with
  | zero => rfl
  | succ n ih => simp [leBytes, ih]

theorem leNat_leBytes (n x : Nat) (h : x < 256 ^ n) : leNat (leBytes n x) = x := by
  induction n generalizing x with
  | zero => simp [leBytes, leNat] at *; omega
  | succ n ih =>
    have h2 : x / 256 < 256 ^ n := by
      rw [Nat.div_lt_iff_lt_mul (by decide)]; rw [Nat.pow_succ] at h; exact h
    simp only [leBytes, leNat, ih _ h2]
    rw [u8_toNat_ofNat_lt (by omega)]; omega

theorem leNat_lt (b : Bytes) : leNat b < 256 ^ b.length := by
  induction b with
  | nil => simp [leNat]
  | cons a b ih =>
    have := a.toNat_lt
    simp only [leNat, List.length_cons, Nat.pow_succ]
    have h2 : a.toNat < 256 := by simpa using this
    omega

theorem leBytes_leNat (b : Bytes) : leBytes b.length (leNat b) = b := by
  induction b with
  | nil => rfl
  | cons a b ih =>
    have h2 : a.toNat < 256 := by simpa using a.toNat_lt
    simp only [leNat, List.length_cons, leBytes]
    rw [show (a.toNat + 256 * leNat b) / 256 = leNat b by omega,
      show (a.toNat + 256 * leNat b) % 256 = a.toNat by omega, ih]
    simp

@[simp] theorem beBytes_length (n x : Nat) : (beBytes n x).length = n := by simp [beBytes]

theorem beNat_beBytes (n x : Nat) (h : x < 256 ^ n) : beNat (beBytes n x) = x := by
  simp [beNat, beBytes, leNat_leBytes n x h]

/-- Number of base-128 digits needed beyond the first one fits in the fuel. -/
theorem uvarintLoop_length_pos (f x : Nat) : 0 < (uvarintLoop f x).length := by
  cases f with
  | zero => simp [uvarintLoop]
  | succ f => simp only [uvarintLoop]; split <;> simp

theorem uvarintLoop_length_le (f x : Nat) : (uvarintLoop f x).length ≤ f + 1 := by
  induction f generalizing x with
  | zero => simp [uvarintLoop]
  | succ f ih =>
    simp only [uvarintLoop]; split
    · simp
    · simp; exact ih _

/-- The decoder loop run on an encoding produced by the encoder loop, in any context. -/
theorem uvarintGo_loop (f x : Nat) (rest : Bytes) (i acc : Nat)
    (hf : i + f = 9) (hx : x < 2 ^ (7 * f + 1)) :
    uvarintGo (uvarintLoop f x ++ rest) i (7 * i) acc
      = (UInt64.ofNat (acc + x * 2 ^ (7 * i)), ((i + (uvarintLoop f x).length : Nat) : Int)) := by
  induction f generalizing x i acc with
  | zero =>
    have hx1 : x < 2 := by simpa using hx
    have hi : i = 9 := by omega
    subst hi
    simp only [uvarintLoop, List.cons_append, List.nil_append, uvarintGo]
    rw [u8_toNat_ofNat_lt (by omega)]
    simp
    split
    · split
      · omega
      · rfl
    · omega
  | succ f ih =>
    simp only [uvarintLoop]
    split
    · rename_i hlt
      simp only [List.cons_append, List.nil_append, uvarintGo]
      rw [u8_toNat_ofNat_lt (by omega)]
      rw [if_neg (by omega), if_pos hlt, if_neg (by omega)]
      simp
    · rename_i hge
      simp only [List.cons_append, uvarintGo]
      rw [u8_toNat_ofNat_lt (by omega)]
      rw [if_neg (by omega), if_neg (by omega)]
      have h7 : x / 128 < 2 ^ (7 * f + 1) := by
        rw [Nat.div_lt_iff_lt_mul (by decide)]
        have : 2 ^ (7 * (f + 1) + 1) = 2 ^ (7 * f + 1) * 128 := by
          rw [show 7 * (f + 1) + 1 = (7 * f + 1) + 7 by omega, Nat.pow_add]
        omega
      rw [show 7 * i + 7 = 7 * (i + 1) by omega, ih (x / 128) (i + 1) _ (by omega) h7]
      have hp : 2 ^ (7 * (i + 1)) = 2 ^ (7 * i) * 128 := by
        rw [show 7 * (i + 1) = 7 * i + 7 by omega, Nat.pow_add]
      have hval : acc + (x % 128 + 128 - 128) * 2 ^ (7 * i) + x / 128 * 2 ^ (7 * (i + 1))
          = acc + x * 2 ^ (7 * i) := by
        rw [hp, Nat.add_sub_cancel]
        have hx2 : x % 128 + 128 * (x / 128) = x := Nat.mod_add_div x 128
        have h3 : x % 128 * 2 ^ (7 * i) + x / 128 * (2 ^ (7 * i) * 128)
            = (x % 128 + 128 * (x / 128)) * 2 ^ (7 * i) := by
          rw [Nat.add_mul]; congr 1
          rw [← Nat.mul_assoc, Nat.mul_comm (x / 128) (2 ^ (7*i)), Nat.mul_assoc, Nat.mul_comm (2 ^ (7*i)), Nat.mul_comm (x/128)]
        rw [Nat.add_assoc, h3, hx2]
      rw [hval]
      simp only [List.length_cons]
      congr 2
      omega

theorem uvarint_putUvarint (v : UInt64) (rest : Bytes) :
    uvarint (putUvarint v ++ rest) = (v, ((putUvarint v).length : Int)) := by
  have h := uvarintGo_loop 9 v.toNat rest 0 0 (by rfl) (by simpa using v.toNat_lt)
  simp only [Nat.mul_zero, Nat.zero_add, Nat.pow_zero, Nat.mul_one] at h
  simp only [uvarint, putUvarint, h]
  simp

theorem putUvarint_length_pos (v : UInt64) : 0 < (putUvarint v).length := uvarintLoop_length_pos _ _

theorem putUvarint_length_le (v : UInt64) : (putUvarint v).length ≤ 10 := uvarintLoop_length_le _ _

@[simp] theorem takeUvarint_putUvarint (v : UInt64) (rest : Bytes) :
    takeUvarint (putUvarint v ++ rest) = some (v, rest) := by
  have hp := putUvarint_length_pos v
  simp only [takeUvarint, uvarint_putUvarint]
  rw [if_pos (by omega)]
  simp

/-- Length of the encoding in terms of powers of 128. -/
theorem uvarintLoop_length_of_lt (f x k : Nat) (hk : k ≤ f) (h : x < 128 ^ (k + 1)) :
    (uvarintLoop f x).length ≤ k + 1 := by
  induction f generalizing x k with
  | zero => simp [uvarintLoop]
  | succ f ih =>
    simp only [uvarintLoop]; split
    · simp
    · rename_i hge
      cases k with
      | zero => simp at h; omega
      | succ k =>
        simp
        apply ih _ _ (by omega)
        rw [Nat.div_lt_iff_lt_mul (by decide)]; rwa [← Nat.pow_succ]

theorem uvarintLoop_length_of_ge (f x k : Nat) (hk : k ≤ f) (h : 128 ^ k ≤ x) :
    k + 1 ≤ (uvarintLoop f x).length := by
  induction f generalizing x k with
  | zero => simp at hk; subst hk; simp [uvarintLoop]
  | succ f ih =>
    cases k with
    | zero => exact uvarintLoop_length_pos _ _
    | succ k =>
      simp only [uvarintLoop]
      have : 1 ≤ 128 ^ k := Nat.one_le_pow _ _ (by decide)
      rw [Nat.pow_succ] at h
      rw [if_neg (by omega)]
      simp
      apply ih _ _ (by omega)
      rw [Nat.le_div_iff_mul_le (by decide)]; exact h

theorem putUvarint_length_of_lt (v : UInt64) (k : Nat) (h : v.toNat < 128 ^ (k + 1)) :
    (putUvarint v).length ≤ k + 1 := by
  by_cases hk : k ≤ 9
  · exact uvarintLoop_length_of_lt 9 _ k hk h
  · have := putUvarint_length_le v; omega

theorem sizeVarint_eq_length (v : UInt64) : sizeVarint v = (putUvarint v).length := by
  have hv : v.toNat < 2 ^ 64 := by simpa using v.toNat_lt
  unfold sizeVarint putUvarint bitLen
  generalize v.toNat = x at hv
  by_cases h0 : x = 0
  · subst h0; rfl
  rw [if_neg h0]
  have hl1 : 2 ^ Nat.log2 x ≤ x := Nat.log2_self_le h0
  have hl2 : x < 2 ^ (Nat.log2 x + 1) := Nat.lt_log2_self
  have hl64 : Nat.log2 x < 64 := (Nat.log2_lt h0).2 hv
  generalize Nat.log2 x = l at *
  -- k = l / 7 is the index of the last base-128 digit, except that bit 63 is in the tenth byte
  have key : (9 * (l + 1) + 64) / 64 = l / 7 + 1 := by omega
  rw [key]
  have hk9 : l / 7 ≤ 9 := by omega
  apply Nat.le_antisymm
  · apply uvarintLoop_length_of_ge _ _ _ hk9
    calc 128 ^ (l / 7) = 2 ^ (7 * (l / 7)) := by rw [Nat.pow_mul]
      _ ≤ 2 ^ l := Nat.pow_le_pow_right (by decide) (by omega)
      _ ≤ x := hl1
  · apply uvarintLoop_length_of_lt _ _ _ hk9
    calc x < 2 ^ (l + 1) := hl2
      _ ≤ 2 ^ (7 * (l / 7 + 1)) := Nat.pow_le_pow_right (by decide) (by omega)
      _ = 128 ^ (l / 7 + 1) := by rw [Nat.pow_mul]

theorem takeUvarint_nil : takeUvarint [] = none := rfl

end Appendable
