import Verif.Props.VecTree
/-! C54: the conversion that a stored vector component goes through is the one of IEEE 754. -/
namespace Appendable
open Spec

namespace Spec

/-- The value of the finite, non-negative float32 with bit pattern `b`, in units of `2^(-150)`. -/
def f32Value (b : Nat) : Nat := if b < 2 ^ 23 then b * 2 else (2 ^ 23 + b % 2 ^ 23) * 2 ^ (b / 2 ^ 23)

/-- The distance of two numbers. -/
def dist (a b : Nat) : Nat := (a - b) + (b - a)

end Spec

theorem f32Value_form {e sig : Nat} (h1 : 2 ^ 23 ≤ sig) (h2 : sig ≤ 2 ^ 24) : f32Value ((126 + e) * 2 ^ 23 + sig) = sig * 2 ^ (127 + e) := by
  unfold f32Value
  rw [if_neg (by omega)]
  by_cases h : sig = 2 ^ 24
  · subst h
    have e1 : ((126 + e) * 2 ^ 23 + 2 ^ 24) % 2 ^ 23 = 0 := by omega
    have e2 : ((126 + e) * 2 ^ 23 + 2 ^ 24) / 2 ^ 23 = 128 + e := by omega
    rw [e1, e2, show 128 + e = 127 + e + 1 by omega, Nat.pow_succ]
    omega
  · have e1 : ((126 + e) * 2 ^ 23 + sig) % 2 ^ 23 = sig - 2 ^ 23 := by omega
    have e2 : ((126 + e) * 2 ^ 23 + sig) / 2 ^ 23 = 127 + e := by omega
    rw [e1, e2, Nat.add_sub_cancel' h1]

/-- Every float is a multiple of `2^k` (units of `2^150`), or lies below `2^(k + 23)`. -/
theorem f32Value_grid (b k : Nat) : (∃ m, f32Value b = m * 2 ^ (k + 150) ∧ 2 ^ 23 ≤ m) ∨ f32Value b < 2 ^ (k + 173) := by
  unfold f32Value
  split
  · right
    have : 2 ^ 173 ≤ 2 ^ (k + 173) := Nat.pow_le_pow_right (by omega) (by omega)
    omega
  · by_cases hb : k + 150 ≤ b / 2 ^ 23
    · left
      refine ⟨(2 ^ 23 + b % 2 ^ 23) * 2 ^ (b / 2 ^ 23 - (k + 150)), ?_, ?_⟩
      · rw [Nat.mul_assoc, ← Nat.pow_add, Nat.sub_add_cancel hb]
      · have : 1 ≤ 2 ^ (b / 2 ^ 23 - (k + 150)) := Nat.one_le_two_pow
        exact Nat.le_trans (Nat.le_add_right _ _) (Nat.le_mul_of_pos_right _ (by omega))
    · right
      have h1 : 2 ^ 23 + b % 2 ^ 23 < 2 ^ 24 := by omega
      have h2 : 2 ^ (b / 2 ^ 23) ≤ 2 ^ (k + 149) := Nat.pow_le_pow_right (by omega) (by omega)
      calc (2 ^ 23 + b % 2 ^ 23) * 2 ^ (b / 2 ^ 23) ≤ (2 ^ 23 + b % 2 ^ 23) * 2 ^ (k + 149) := Nat.mul_le_mul_left _ h2
        _ < 2 ^ 24 * 2 ^ (k + 149) := Nat.mul_lt_mul_of_pos_right h1 (Nat.two_pow_pos _)
        _ = 2 ^ (k + 173) := by rw [← Nat.pow_add]; congr 1; omega

theorem dist_mul (a b c : Nat) : dist (a * c) (b * c) = dist a b * c := by
  unfold dist; rw [Nat.add_mul, Nat.sub_mul, Nat.sub_mul]

/-- Rounding to a multiple of `2^k`. -/
theorem roundShift_near (x k m : Nat) (hk : 0 < k) : dist (roundShift x k * 2 ^ k) x ≤ dist (m * 2 ^ k) x ∧
    (dist (m * 2 ^ k) x = dist (roundShift x k * 2 ^ k) x → m = roundShift x k ∨ roundShift x k % 2 = 0) := by
  have hp : 2 ^ k = 2 * 2 ^ (k - 1) := by rw [← Nat.pow_succ']; congr 1; omega
  have hpos : 0 < 2 ^ (k - 1) := Nat.two_pow_pos _
  have hx := Nat.div_add_mod x (2 ^ k)
  have hr := Nat.mod_lt x (Nat.two_pow_pos k)
  obtain ⟨q, hq⟩ : ∃ q, q = x / 2 ^ k := ⟨_, rfl⟩
  obtain ⟨r, hrr⟩ : ∃ r, r = x % 2 ^ k := ⟨_, rfl⟩
  have hxc : x = q * 2 ^ k + r := by rw [hq, hrr, Nat.mul_comm]; omega
  have hrs : roundShift x k = if 2 * r > 2 ^ k ∨ (2 * r = 2 ^ k ∧ q % 2 = 1) then q + 1 else q := by rw [hq, hrr]; rfl
  have hq1 : (q + 1) * 2 ^ k = q * 2 ^ k + 2 ^ k := by rw [Nat.add_mul, Nat.one_mul]
  have hm : m = q ∨ (m < q ∧ m * 2 ^ k + 2 ^ k ≤ q * 2 ^ k) ∨ m = q + 1 ∨ (q + 1 < m ∧ q * 2 ^ k + 2 ^ k + 2 ^ k ≤ m * 2 ^ k) := by
    rcases Nat.lt_trichotomy m q with h | h | h
    · refine .inr (.inl ⟨h, ?_⟩)
      have := Nat.mul_le_mul_right (2 ^ k) (show m + 1 ≤ q by omega)
      rw [Nat.add_mul, Nat.one_mul] at this; exact this
    · exact .inl h
    · by_cases h2 : m = q + 1
      · exact .inr (.inr (.inl h2))
      · refine .inr (.inr (.inr ⟨by omega, ?_⟩))
        have := Nat.mul_le_mul_right (2 ^ k) (show q + 1 + 1 ≤ m by omega)
        rw [Nat.add_mul, Nat.add_mul, Nat.one_mul] at this; exact this
  rw [← hrr] at hr
  clear hx hq hrr
  rw [hrs]
  clear hrs
  unfold dist
  split
  · rw [hq1]
    rcases hm with h | ⟨h, h'⟩ | h | ⟨h, h'⟩
    · subst h
      generalize 2 ^ k = P at *
      generalize m * P = Q at *
      omega
    · generalize 2 ^ k = P at *
      generalize q * P = Q at *
      generalize m * P = M at *
      omega
    · subst h
      rw [hq1]
      generalize 2 ^ k = P at *
      generalize q * P = Q at *
      omega
    · generalize 2 ^ k = P at *
      generalize q * P = Q at *
      generalize m * P = M at *
      omega
  · rcases hm with h | ⟨h, h'⟩ | h | ⟨h, h'⟩
    · subst h
      generalize 2 ^ k = P at *
      generalize m * P = Q at *
      omega
    · generalize 2 ^ k = P at *
      generalize q * P = Q at *
      generalize m * P = M at *
      omega
    · subst h
      rw [hq1]
      generalize 2 ^ k = P at *
      generalize q * P = Q at *
      omega
    · generalize 2 ^ k = P at *
      generalize q * P = Q at *
      generalize m * P = M at *
      omega

/-- C54: the component that comes back is the float32 nearest to the bit pattern that was stored, read as an integer; of
two nearest ones, the one with the even significand. -/
theorem C54_conversion_partial (x : UInt32) (b : Nat) :
    dist (f32Value (f32OfU32 x).toNat) (x.toNat * 2 ^ 150) ≤ dist (f32Value b) (x.toNat * 2 ^ 150) ∧
    (dist (f32Value b) (x.toNat * 2 ^ 150) = dist (f32Value (f32OfU32 x).toNat) (x.toNat * 2 ^ 150) →
      f32Value b = f32Value (f32OfU32 x).toNat ∨ (f32OfU32 x).toNat % 2 = 0) := by
  by_cases hx0 : x = 0
  · subst hx0
    have e : f32Value (f32OfU32 0).toNat = 0 := by decide
    have e0 : (0 : UInt32).toNat * 2 ^ 150 = 0 := by decide
    rw [e, e0]
    refine ⟨by unfold dist; omega, fun _ => .inr (by decide)⟩
  · have hxn : x.toNat ≠ 0 := fun h => hx0 (UInt32.toNat_inj.1 (by simpa using h))
    have hx32 := x.toNat_lt
    obtain ⟨e, he⟩ : ∃ e, e = Nat.log2 x.toNat := ⟨_, rfl⟩
    have h1 : 2 ^ e ≤ x.toNat := by rw [he]; exact Nat.log2_self_le hxn
    have h2 : x.toNat < 2 ^ (e + 1) := by rw [he]; exact Nat.lt_log2_self
    have he32 : e < 32 := by
      rw [he]
      exact (Nat.log2_lt hxn).2 hx32
    obtain ⟨sig, hsig⟩ : ∃ sig, sig = if e ≤ 23 then x.toNat * 2 ^ (23 - e) else roundShift x.toNat (e - 23) := ⟨_, rfl⟩
    have hf : f32OfU32 x = UInt32.ofNat ((126 + e) * 2 ^ 23 + sig) := by
      unfold f32OfU32
      rw [if_neg hx0]
      simp only
      rw [hsig, he]
    have hsb : 2 ^ 23 ≤ sig ∧ sig ≤ 2 ^ 24 := by
      rw [hsig]
      split
      · rename_i hle
        have a1 : 2 ^ e * 2 ^ (23 - e) = 2 ^ 23 := by rw [← Nat.pow_add]; congr 1; omega
        have a2 : 2 ^ (e + 1) * 2 ^ (23 - e) = 2 ^ 24 := by rw [← Nat.pow_add]; congr 1; omega
        have := Nat.mul_le_mul_right (2 ^ (23 - e)) h1
        have := Nat.mul_lt_mul_of_pos_right h2 (Nat.two_pow_pos (23 - e))
        omega
      · rename_i hle
        have a1 : 2 ^ e = 2 ^ 23 * 2 ^ (e - 23) := by rw [← Nat.pow_add]; congr 1; omega
        have a2 : 2 ^ (e + 1) = 2 ^ 24 * 2 ^ (e - 23) := by rw [← Nat.pow_add]; congr 1; omega
        have b1 : 2 ^ 23 ≤ x.toNat / 2 ^ (e - 23) := (Nat.le_div_iff_mul_le (Nat.two_pow_pos _)).2 (by omega)
        have b2 : x.toNat / 2 ^ (e - 23) < 2 ^ 24 := (Nat.div_lt_iff_lt_mul (Nat.two_pow_pos _)).2 (by omega)
        unfold roundShift
        simp only
        split <;> omega
    have hn : (f32OfU32 x).toNat = (126 + e) * 2 ^ 23 + sig := by
      rw [hf, UInt32.toNat_ofNat', Nat.mod_eq_of_lt (by omega)]
    rw [hn, f32Value_form hsb.1 hsb.2]
    have hpar : ((126 + e) * 2 ^ 23 + sig) % 2 = sig % 2 := by omega
    rw [hpar]
    by_cases hle : e ≤ 23
    · have hex : sig * 2 ^ (127 + e) = x.toNat * 2 ^ 150 := by
        rw [hsig, if_pos hle, Nat.mul_assoc, ← Nat.pow_add]; congr 2; omega
      rw [hex]
      have : dist (x.toNat * 2 ^ 150) (x.toNat * 2 ^ 150) = 0 := by unfold dist; omega
      rw [this]
      refine ⟨Nat.zero_le _, fun hd => .inl ?_⟩
      unfold dist at hd; omega
    · rw [if_neg hle] at hsig
      obtain ⟨k, hk⟩ : ∃ k, k = e - 23 := ⟨_, rfl⟩
      have hs2 : sig * 2 ^ (127 + e) = sig * 2 ^ k * 2 ^ 150 := by
        rw [Nat.mul_assoc, ← Nat.pow_add]; congr 2; omega
      rw [hs2]
      rcases f32Value_grid b k with ⟨m, hm, _⟩ | hlt
      · rw [hm, Nat.pow_add, ← Nat.mul_assoc, dist_mul, dist_mul]
        obtain ⟨n1, n2⟩ := roundShift_near x.toNat k m (by omega)
        rw [hsig, ← hk]
        refine ⟨Nat.mul_le_mul_right _ n1, fun hd => ?_⟩
        rcases n2 (Nat.eq_of_mul_eq_mul_right (Nat.two_pow_pos 150) hd) with h | h
        · left; rw [h]
        · right; exact h
      · -- the float is below the binade of `x`
        have hxe : 2 ^ (k + 173) ≤ x.toNat * 2 ^ 150 := by
          have : 2 ^ (k + 173) = 2 ^ e * 2 ^ 150 := by rw [← Nat.pow_add]; congr 1; omega
          rw [this]; exact Nat.mul_le_mul_right _ h1
        obtain ⟨n1, _⟩ := roundShift_near x.toNat k (2 ^ 23) (by omega)
        have n1' := Nat.mul_le_mul_right (2 ^ 150) n1
        rw [← dist_mul, ← dist_mul, ← Nat.pow_add, ← Nat.pow_add, show 23 + k + 150 = k + 173 by omega] at n1'
        rw [hsig, ← hk]
        have key : ∀ {R X E F : Nat}, F < E → E ≤ X → dist R X ≤ dist E X → dist R X ≤ dist F X ∧ (dist F X = dist R X → F = R ∨ roundShift x.toNat k % 2 = 0) := by
          intro R X E F h1 h2 h3
          unfold dist at *
          exact ⟨by omega, by omega⟩
        exact key hlt hxe n1'

/-- Halfway cases: 2^24 + 1 is rounded down, 2^24 + 3 is rounded up. -/
example : f32OfU32 0x1000001 = 0x4b800000 ∧ f32OfU32 0x1000003 = 0x4b800002 := by decide

end Appendable
