import Verif.Lemmas.JsonStr
import Verif.Spec.SearchJsonl
/-! C75: the texts the indexer splits are valid UTF-8. -/
namespace Appendable
open Spec

theorem decodeRune_scalar (b : Bytes) : Scalar (decodeRune b).1 := by
  have hff : Scalar 0xFFFD := by unfold Scalar; omega
  unfold decodeRune
  split
  · exact hff
  · rename_i b0 bs
    split
    · unfold Scalar; simp only; omega
    · split
      · exact hff
      · rename_i n lo hi hu
        have key : (n = 2 ∧ 0xC2 ≤ b0.toNat ∧ b0.toNat ≤ 0xDF) ∨ (n = 3 ∧ b0.toNat = 0xE0 ∧ lo = 0xA0 ∧ hi = 0xBF) ∨
            (n = 3 ∧ 0xE1 ≤ b0.toNat ∧ b0.toNat ≤ 0xEC ∧ lo = 0x80 ∧ hi = 0xBF) ∨ (n = 3 ∧ b0.toNat = 0xED ∧ lo = 0x80 ∧ hi = 0x9F) ∨
            (n = 3 ∧ 0xEE ≤ b0.toNat ∧ b0.toNat ≤ 0xEF ∧ lo = 0x80 ∧ hi = 0xBF) ∨ (n = 4 ∧ b0.toNat = 0xF0 ∧ lo = 0x90 ∧ hi = 0xBF) ∨
            (n = 4 ∧ 0xF1 ≤ b0.toNat ∧ b0.toNat ≤ 0xF3 ∧ lo = 0x80 ∧ hi = 0xBF) ∨ (n = 4 ∧ b0.toNat = 0xF4 ∧ lo = 0x80 ∧ hi = 0x8F) := by
          unfold utf8First at hu
          repeat' split at hu
          all_goals first | cases hu | skip
          all_goals omega
        repeat' split
        all_goals first | exact hff | skip
        all_goals unfold Scalar; simp only; omega

theorem Spec.ValidUtf8.nil : ValidUtf8 [] := ⟨[], by simp, rfl⟩

theorem Spec.ValidUtf8.char {r : Nat} (h : Scalar r) {b : Bytes} (hb : ValidUtf8 b) : ValidUtf8 (encodeRune r ++ b) := by
  obtain ⟨rs, h1, rfl⟩ := hb
  exact ⟨r :: rs, by simpa using ⟨h, h1⟩, rfl⟩

theorem Spec.ValidUtf8.byte {c : UInt8} (h : c.toNat < 0x80) {b : Bytes} (hb : ValidUtf8 b) : ValidUtf8 (c :: b) := by
  have := ValidUtf8.char (r := c.toNat) (by unfold Scalar; omega) hb
  unfold encodeRune at this
  rw [if_pos h] at this
  simpa using this

/-- What is inside of the quotes of a string literal. -/
def Inside (b : Bytes) : Prop := scanString (b ++ [34]) = some (b.length + 1)

theorem inside_cases {b : Bytes} (h : Inside b) : b = [] ∨ (∃ c cs, b = c :: cs ∧ c ≠ 92 ∧ Inside cs) ∨
    (∃ c cs, b = 92 :: c :: cs ∧ c.toNat < 0x80 ∧ c ≠ 117 ∧ Inside cs) ∨
    (∃ x y z w cs, b = 92 :: 117 :: x :: y :: z :: w :: cs ∧ isHex x = true ∧ isHex y = true ∧ isHex z = true ∧ isHex w = true ∧ Inside cs) := by
  unfold Inside at h
  rw [scanString.eq_def] at h
  split at h
  · rename_i h'; simp at h'
  · rename_i xs h'
    cases b with
    | nil => exact .inl rfl
    | cons c cs =>
      simp at h
  · rename_i c cs h'
    cases b with
    | nil => exact .inl rfl
    | cons b0 b1 =>
      cases b1 with
      | nil =>
        simp only [List.cons_append, List.nil_append, List.cons.injEq] at h'
        obtain ⟨rfl, rfl, rfl⟩ := h'
        simp [scanString] at h
      | cons b1 bs =>
        simp only [List.cons_append, List.cons.injEq] at h'
        obtain ⟨rfl, rfl, rfl⟩ := h'
        split at h
        · rename_i hc
          refine .inr (.inr (.inl ⟨_, bs, rfl, ?_, ?_, ?_⟩))
          · rcases hc with rfl | rfl | rfl | rfl | rfl | rfl | rfl | rfl <;> decide
          · rcases hc with rfl | rfl | rfl | rfl | rfl | rfl | rfl | rfl <;> decide
          · unfold Inside
            obtain ⟨n, h1, h2⟩ := Option.map_eq_some_iff.1 h
            simp only [List.length_cons] at h2
            rw [h1]; congr 1; omega
        · split at h
          · rename_i hu
            subst hu
            split at h
            · rename_i x y z w tl he
              split at h
              · rename_i hx
                simp only [Bool.and_eq_true] at hx
                have h34 : isHex 34 = false := by decide
                obtain ⟨n, h1, h2⟩ := Option.map_eq_some_iff.1 h
                match bs, he with
                | [], he => simp at he
                | [_], he => simp at he
                | [_, _], he => simp at he
                | [_, _, _], he =>
                  simp at he
                  obtain ⟨rfl, rfl, rfl, rfl, rfl⟩ := he
                  rw [h34] at hx; simp at hx
                | x' :: y' :: z' :: w' :: tl', he =>
                  simp only [List.cons_append, List.cons.injEq] at he
                  obtain ⟨rfl, rfl, rfl, rfl, rfl⟩ := he
                  refine .inr (.inr (.inr ⟨_, _, _, _, tl', rfl, hx.1.1.1, hx.1.1.2, hx.1.2, hx.2, ?_⟩))
                  unfold Inside
                  simp only [List.length_cons] at h2
                  rw [h1]; congr 1; omega
              · cases h
            · cases h
          · cases h
  · rename_i c cs h1 h2 h'
    cases b with
    | nil => exact .inl rfl
    | cons b0 bs =>
      simp only [List.cons_append, List.cons.injEq] at h'
      obtain ⟨rfl, rfl⟩ := h'
      split at h
      · cases h
      · rename_i hc
        refine .inr (.inl ⟨_, bs, rfl, fun h => hc (.inr h), ?_⟩)
        unfold Inside
        obtain ⟨n, h1, h2⟩ := Option.map_eq_some_iff.1 h
        simp only [List.length_cons] at h2
        rw [h1]; congr 1; omega

theorem inside_high {c : UInt8} {cs : Bytes} (h : Inside (c :: cs)) (hc : c ≠ 92) : Inside cs := by
  rcases inside_cases h with h | ⟨_, _, h, _, h2⟩ | ⟨_, _, h, _⟩ | ⟨_, _, _, _, _, h, _⟩
  · cases h
  · cases h; exact h2
  · cases h; exact absurd rfl hc
  · cases h; exact absurd rfl hc

theorem inside_rune {c : UInt8} {cs : Bytes} (h : Inside (c :: cs)) (hc : 0x80 ≤ c.toNat) : Inside ((c :: cs).drop (decodeRune (c :: cs)).2) := by
  have n92 : ∀ {x : UInt8}, 0x80 ≤ x.toNat → x ≠ 92 := by
    intro x hx h'; subst h'; simp at hx
  have h1 := inside_high h (n92 hc)
  unfold decodeRune
  simp only
  rw [if_neg (by omega)]
  split
  · exact h1
  · rename_i n lo hi hu
    have hlo : 0x80 ≤ lo := by
      unfold utf8First at hu
      repeat' split at hu
      all_goals first | cases hu | skip
      all_goals omega
    split
    · exact h1
    · rename_i b1 bs
      split
      · exact h1
      · have h2 := inside_high h1 (n92 (by omega))
        split
        · exact h2
        · split
          · exact h1
          · rename_i b2 bs
            split
            · exact h1
            · have h3 := inside_high h2 (n92 (by omega))
              split
              · exact h3
              · split
                · exact h1
                · rename_i b3 bs
                  split
                  · exact h1
                  · exact inside_high h3 (n92 (by omega))

theorem hexVal_lt {c : UInt8} (h : isHex c = true) : hexVal c < 16 := by
  have key : ∀ c : UInt8, isHex c = true → hexVal c < 16 := byte_all (by decide +kernel)
  exact key c h

theorem inside_getu4 {b : Bytes} (h : Inside b) {r : Nat} (hr : getu4 b = some r) : Inside (b.drop 6) ∧ r < 0x10000 := by
  unfold getu4 at hr
  split at hr
  · rename_i a b c d tl
    rcases inside_cases h with h | ⟨_, _, h, h92, h2⟩ | ⟨_, _, h, _, h2, _⟩ | ⟨x, y, z, w, tl', h, hx, hy, hz, hw, h2⟩
    · cases h
    · cases h; exact absurd rfl h92
    · cases h; exact absurd rfl h2
    · cases h
      cases hr
      refine ⟨h2, ?_⟩
      have := hexVal_lt hx
      have := hexVal_lt hy
      have := hexVal_lt hz
      have := hexVal_lt hw
      omega
  · cases hr

theorem unquote_valid : ∀ (fuel : Nat) (b : Bytes), Inside b → ValidUtf8 (unquote fuel b) := by
  intro fuel
  induction fuel with
  | zero => intro b _; exact .nil
  | succ fuel ih =>
    intro b h
    rcases inside_cases h with rfl | ⟨c, cs, rfl, h92, h2⟩ | ⟨c, cs, rfl, hc, hu, h2⟩ | ⟨x, y, z, w, cs, rfl, hx, hy, hz, hw, h2⟩
    · exact .nil
    · rw [unquote.eq_def]
      split
      · rename_i h'; cases h'
      · rename_i h'; cases h'
      · rename_i h'; cases h'; exact absurd rfl h92
      · rename_i h1 h2'
        cases h1; cases h2'
        split
        · rename_i hlt
          exact .byte (UInt8.lt_iff_toNat_lt.1 hlt) (ih _ h2)
        · rename_i hlt
          have hge : 0x80 ≤ c.toNat := by
            have := fun h' => hlt (UInt8.lt_iff_toNat_lt.2 h')
            simp at this; omega
          have h5 := ih _ (inside_rune h hge)
          have h6 := decodeRune_scalar (c :: cs)
          generalize decodeRune (c :: cs) = g at h5 h6
          exact .char h6 h5
    · rw [unquote.eq_def]
      split
      · rename_i h'; cases h'
      · rename_i h'; cases h'
      · rename_i h1 h'
        cases h1; cases h'
        split
        all_goals rename_i h'
        · cases h'
        · cases h'; exact .byte (by decide) (ih _ h2)
        · cases h'; exact .byte (by decide) (ih _ h2)
        · cases h'; exact .byte (by decide) (ih _ h2)
        · cases h'; exact .byte (by decide) (ih _ h2)
        · cases h'; exact .byte (by decide) (ih _ h2)
        · cases h'; exact absurd rfl hu
        · cases h'; exact .byte hc (ih _ h2)
      · rename_i h' h1 h2'; cases h1; cases h2'; exact (h' rfl).elim
    · have hlt : ((hexVal x * 16 + hexVal y) * 16 + hexVal z) * 16 + hexVal w < 0x10000 := (inside_getu4 h rfl).2
      rw [unquote]
      simp only [getu4, Option.getD_some, List.drop_succ_cons, List.drop_zero]
      generalize ((hexVal x * 16 + hexVal y) * 16 + hexVal z) * 16 + hexVal w = r at hlt
      split
      · split
        · rename_i r1 hr1
          obtain ⟨h3, h4⟩ := inside_getu4 h2 hr1
          split
          · exact .char (by unfold Scalar; omega) (ih _ h3)
          · exact .char (by unfold Scalar; omega) (ih _ h2)
        · exact .char (by unfold Scalar; omega) (ih _ h2)
      · exact .char (by unfold Scalar; omega) (ih _ h2)

theorem scan_inside (b : Bytes) (n : Nat) (h : scanString b = some n) : Inside (b.take (n - 1)) := by
  induction hk : b.length using Nat.strongRecOn generalizing b n with
  | _ k ih =>
    subst hk
    have step : ∀ (cs : Bytes) (j : Nat), cs.length + j = b.length → 0 < j → (scanString cs).map (· + j) = some n →
        ∃ m, scanString cs = some m ∧ n = m + j ∧ 1 ≤ m ∧ m ≤ cs.length ∧ scanString (cs.take (m - 1) ++ [34]) = some m := by
      intro cs j hj h0 hm
      obtain ⟨m, h1, rfl⟩ := Option.map_eq_some_iff.1 hm
      have h2 := ih cs.length (by omega) cs m h1 rfl
      have h3 := scanString_len _ _ h1
      refine ⟨m, h1, rfl, h3.1, h3.2, ?_⟩
      unfold Inside at h2
      rw [h2, List.length_take]
      congr 1
      omega
    rw [scanString.eq_def] at h
    split at h
    · cases h
    · cases h; rfl
    · rename_i c cs
      split at h
      · rename_i hc
        obtain ⟨m, h1, rfl, h2, h3, h4⟩ := step _ 2 (by simp) (by omega) h
        rw [show m + 2 - 1 = (m - 1) + 1 + 1 by omega, List.take_succ_cons, List.take_succ_cons]
        unfold Inside
        rw [List.cons_append, List.cons_append, scanString.eq_def]
        simp only [if_pos hc, h4, Option.map_some, List.length_cons, List.length_take]
        congr 1
        omega
      · split at h
        · rename_i hc hu
          split at h
          · split at h
            · rename_i x y z w cs hx
              obtain ⟨m, h1, rfl, h2, h3, h4⟩ := step _ 6 (by simp) (by omega) h
              rw [show m + 6 - 1 = (m - 1) + 1 + 1 + 1 + 1 + 1 + 1 by omega]
              simp only [List.take_succ_cons]
              unfold Inside
              simp only [List.cons_append]
              rw [scanString.eq_def]
              simp only [if_neg hc, if_pos hu, hx, if_true, h4, Option.map_some, List.length_cons, List.length_take]
              congr 1
              omega
            · cases h
          · cases h
        · cases h
    · rename_i c cs h1 h2
      split at h
      · cases h
      · rename_i hc
        obtain ⟨m, h1', rfl, h2', h3, h4⟩ := step _ 1 (by simp) (by omega) h
        rw [show m + 1 - 1 = (m - 1) + 1 by omega, List.take_succ_cons]
        unfold Inside
        rw [List.cons_append, scanString_plain, h4]
        · simp only [Option.map_some, List.length_cons, List.length_take]
          congr 1
          omega
        · refine ⟨?_, fun h => h1 h, fun h => hc (.inr h)⟩
          rw [UInt8.le_iff_toNat_le]
          have := fun h => hc (.inl (UInt8.lt_iff_toNat_lt.2 h))
          show 32 ≤ c.toNat
          simp at this
          omega

theorem readScalar_valid {num : Bytes → Option UInt64} {b : Bytes} {t : Bytes} {n : Nat} (h : readScalar num b = some (.str t, n)) : ValidUtf8 t := by
  unfold readScalar at h
  split at h
  · cases h
  · split at h
    · obtain ⟨m, h1, h2⟩ := Option.map_eq_some_iff.1 h
      cases h2
      exact unquote_valid _ _ (scan_inside _ _ h1)
    · repeat' split at h
      all_goals first | cases h | skip
      obtain ⟨m, h1, h2⟩ := Option.map_eq_some_iff.1 h
      cases h2

theorem nextTok_valid {num : Bytes → Option UInt64} : ∀ (fuel : Nat) (x y : LexState) (t : Bytes), nextTok num fuel x = some (.str t, y) → ValidUtf8 t := by
  intro fuel
  induction fuel with
  | zero => intro x y t h; cases h
  | succ fuel ih =>
    intro x y t h
    unfold nextTok at h
    split at h
    · cases h
    · repeat' split at h
      all_goals first | cases h | exact ih _ _ _ h | skip
      all_goals
        obtain ⟨r, h1, h2⟩ := Option.map_eq_some_iff.1 h
        cases r
        cases h2
        exact readScalar_valid h1

theorem lexAll_valid {num : Bytes → Option UInt64} : ∀ (fuel : Nat) (x : LexState) (t : Bytes) (p : Nat), (Tok.str t, p) ∈ (lexAll num fuel x).toks → ValidUtf8 t := by
  intro fuel
  induction fuel with
  | zero => intro x t p h; cases h
  | succ fuel ih =>
    intro x t p h
    unfold lexAll at h
    split at h
    · split at h <;> cases h
    · rename_i u y hn
      rcases List.mem_cons.1 h with h | h
      · cases h; exact nextTok_valid _ _ _ _ hn
      · exact ih _ _ _ h

/-- C75 (partial: where the texts come from): whatever the bytes of a line are, every text that the decoder finds in it, and so every text that is
split into n-grams, is valid UTF-8. -/
theorem C75_decoded_partial (num : Bytes → Option UInt64) (line t : Bytes) (p : Nat) (h : (Tok.str t, p) ∈ (goLex num line).toks) : ValidUtf8 t :=
  lexAll_valid _ _ _ _ h

/-- Non-vacuity: a string literal with the bytes of an encoded surrogate and with an escaped one. -/
example : (goLex (fun _ => none) [34, 0xED, 0xA0, 0x80, 92, 117, 68, 56, 48, 48, 34]).toks =
    [(.str ([0xEF, 0xBF, 0xBD] ++ [0xEF, 0xBF, 0xBD] ++ [0xEF, 0xBF, 0xBD] ++ [0xEF, 0xBF, 0xBD]), 11)] := by decide +kernel

end Appendable
