import Verif.Model.Json
import Verif.Spec.Accepts
/-! General facts about the lexer `goLex`. -/
namespace Appendable
open Spec

variable {num : Bytes → Option UInt64}

theorem skipSpace_pos (pos : Nat) (b : Bytes) : pos ≤ (skipSpace pos b).1 ∧ (skipSpace pos b).1 + (skipSpace pos b).2.length = pos + b.length := by
  induction b generalizing pos with
  | nil => simp [skipSpace]
  | cons c cs ih =>
    unfold skipSpace
    split
    · have := ih (pos + 1); simp only [List.length_cons]; omega
    · exact ⟨Nat.le_refl _, rfl⟩

theorem scanString_len (b : Bytes) (n : Nat) (h : scanString b = some n) : 1 ≤ n ∧ n ≤ b.length := by
  induction hk : b.length using Nat.strongRecOn generalizing b n with
  | _ k ih =>
    subst hk
    have step : ∀ (cs : Bytes) (j : Nat), cs.length + j = b.length → 0 < j → (scanString cs).map (· + j) = some n → 1 ≤ n ∧ n ≤ b.length := by
      intro cs j hj h0 hm
      obtain ⟨m, h1, rfl⟩ := Option.map_eq_some_iff.1 hm
      have := ih cs.length (by omega) cs m h1 rfl
      omega
    rw [scanString.eq_def] at h
    split at h
    · cases h
    · cases h; simp
    · split at h
      · exact step _ 2 (by simp) (by omega) h
      · split at h
        · split at h
          · split at h
            · exact step _ 6 (by simp) (by omega) h
            · cases h
          · cases h
        · cases h
    · split at h
      · cases h
      · exact step _ 1 (by simp) (by omega) h

theorem digits_le (b : Bytes) : digits b ≤ b.length := by
  induction b with
  | nil => simp [digits]
  | cons c cs ih => unfold digits; split <;> simp <;> omega

theorem scanExp_len (b : Bytes) (n : Nat) (h : scanExp b = some n) : n ≤ b.length := by
  unfold scanExp at h
  split at h
  · rename_i c cs
    split at h
    · split at h
      · rename_i d ds
        have := digits_le ds
        have h3 := digits_le (d :: ds)
        split at h
        · split at h
          · cases h
          · cases h; simp only [List.length_cons]; omega
        · split at h
          · cases h; simp only [List.length_cons] at h3 ⊢; omega
          · cases h
      · cases h
    · cases h; omega
  · cases h; omega

theorem scanFrac_len (b : Bytes) (n : Nat) (h : scanFrac b = some n) : n ≤ b.length := by
  unfold scanFrac at h
  split at h
  · rename_i cs
    split at h
    · cases h
    · obtain ⟨m, h1, rfl⟩ := Option.map_eq_some_iff.1 h
      have := scanExp_len _ _ h1
      have := digits_le cs
      simp only [List.length_drop, List.length_cons] at *; omega
  · exact scanExp_len _ _ h

theorem scanUnsigned_len (b : Bytes) (n : Nat) (h : scanUnsigned b = some n) : 1 ≤ n ∧ n ≤ b.length := by
  unfold scanUnsigned at h
  split at h
  · cases h
  · rename_i c cs
    split at h
    · obtain ⟨m, h1, rfl⟩ := Option.map_eq_some_iff.1 h
      have := scanFrac_len _ _ h1
      simp only [List.length_cons]; omega
    · split at h
      · obtain ⟨m, h1, rfl⟩ := Option.map_eq_some_iff.1 h
        have := scanFrac_len _ _ h1
        have := digits_le cs
        simp only [List.length_drop, List.length_cons] at *; omega
      · cases h

theorem scanNumber_len (b : Bytes) (n : Nat) (h : scanNumber b = some n) : 1 ≤ n ∧ n ≤ b.length := by
  unfold scanNumber at h
  split at h
  · obtain ⟨m, h1, rfl⟩ := Option.map_eq_some_iff.1 h
    have := scanUnsigned_len _ _ h1
    simp only [List.length_cons]; omega
  · exact scanUnsigned_len _ _ h

theorem readScalar_len (b : Bytes) (t : Tok) (n : Nat) (h : readScalar num b = some (t, n)) : 1 ≤ n ∧ n ≤ b.length := by
  unfold readScalar at h
  split at h
  · cases h
  · rename_i c cs
    split at h
    · obtain ⟨m, h1, h2⟩ := Option.map_eq_some_iff.1 h
      cases h2
      have := scanString_len _ _ h1
      simp only [List.length_cons]; omega
    · have tk : ∀ (k : Nat) (l : Bytes), cs.take k = l → l.length ≤ cs.length := by
        intro k l h; subst h; simp only [List.length_take]; omega
      split at h
      · split at h
        · rename_i h2; have := tk _ _ h2; cases h; simp only [List.length_cons, List.length_nil] at *; omega
        · cases h
      · split at h
        · split at h
          · rename_i h2; have := tk _ _ h2; cases h; simp only [List.length_cons, List.length_nil] at *; omega
          · cases h
        · split at h
          · split at h
            · rename_i h2; have := tk _ _ h2; cases h; simp only [List.length_cons, List.length_nil] at *; omega
            · cases h
          · split at h
            · cases h
            · rename_i n h2
              obtain ⟨m, h1, h3⟩ := Option.map_eq_some_iff.1 h
              cases h3
              exact scanNumber_len _ _ h2

/-- A token takes at least one byte. -/
theorem nextTok_pos : ∀ (fuel : Nat) (x y : LexState) (t : Tok), nextTok num fuel x = some (t, y) →
    x.pos < y.pos ∧ y.pos + y.rest.length = x.pos + x.rest.length := by
  intro fuel
  induction fuel with
  | zero => intro x y t h; simp [nextTok] at h
  | succ fuel ih =>
    intro x y t h
    obtain ⟨h1, h2⟩ := skipSpace_pos x.pos x.rest
    unfold nextTok at h
    split at h
    · cases h
    · rename_i pos c cs he
      rw [he] at h1 h2
      simp only [List.length_cons] at h1 h2
      have scal : ∀ (f : Tok × Nat → Tok × LexState), (∀ r, (f r).2.pos = pos + r.2 ∧ (f r).2.rest = (c :: cs).drop r.2) →
          (readScalar num (c :: cs)).map f = some (t, y) → x.pos < y.pos ∧ y.pos + y.rest.length = x.pos + x.rest.length := by
        intro f hf hm
        obtain ⟨⟨t', n⟩, h3, h4⟩ := Option.map_eq_some_iff.1 hm
        have := readScalar_len _ _ _ h3
        have hf' := hf (t', n)
        rw [h4] at hf'
        simp only [List.length_cons] at *
        rw [hf'.1, hf'.2]
        simp only [List.length_drop, List.length_cons]
        omega
      have colon : ∀ z : LexState, z.pos = pos + 1 → z.rest = cs → nextTok num fuel z = some (t, y) →
          x.pos < y.pos ∧ y.pos + y.rest.length = x.pos + x.rest.length := by
        intro z hz1 hz2 hz
        have := ih z y t hz
        rw [hz1, hz2] at this
        omega
      repeat' split at h
      all_goals first
        | cases h; done
        | exact colon _ rfl rfl h
        | exact scal _ (fun r => ⟨rfl, rfl⟩) h
        | (simp only [Option.some.injEq, Prod.mk.injEq] at h; obtain ⟨_, rfl⟩ := h; simp only; omega)

theorem lexAll_forward : ∀ (fuel : Nat) (x : LexState), Forward (lexAll num fuel x).toks ∧ ∀ p ∈ (lexAll num fuel x).toks, x.pos < p.2 := by
  intro fuel
  induction fuel with
  | zero => intro x; simp [lexAll, Forward]
  | succ fuel ih =>
    intro x
    unfold lexAll
    split
    · split <;> simp [Forward]
    · rename_i t y he
      have hp := nextTok_pos _ _ _ _ he
      obtain ⟨i1, i2⟩ := ih y
      refine ⟨List.pairwise_cons.2 ⟨fun p hp' => i2 p hp', i1⟩, ?_⟩
      intro p hm
      rcases List.mem_cons.1 hm with rfl | hm
      · exact hp.1
      · have := i2 p hm; omega

/-- The end positions of the tokens grow. -/
theorem goLex_forward (b : Bytes) : Forward (goLex num b).toks := (lexAll_forward _ _).1

/-- `LexRun x ts y`: the lexer gives the tokens `ts` between the states `x` and `y`. -/
inductive LexRun (num : Bytes → Option UInt64) : LexState → List (Tok × Nat) → LexState → Prop
  | nil {x : LexState} : LexRun num x [] x
  | cons {x y z : LexState} {t : Tok} {ts : List (Tok × Nat)} (h : nextTok num 3 x = some (t, z)) (hr : LexRun num z ts y) :
      LexRun num x ((t, z.pos) :: ts) y

theorem LexRun.append {x y z : LexState} {ts us : List (Tok × Nat)} (h : LexRun num x ts y) (h' : LexRun num y us z) :
    LexRun num x (ts ++ us) z := by
  induction h with
  | nil => exact h'
  | cons h _ ih => exact .cons h (ih h')

theorem LexRun.length {x y : LexState} {ts : List (Tok × Nat)} (h : LexRun num x ts y) : ts.length ≤ x.rest.length := by
  have : ts.length + y.rest.length ≤ x.rest.length := by
    induction h with
    | nil => simp
    | cons h _ ih =>
      have := nextTok_pos _ _ _ _ h
      simp only [List.length_cons]; omega
  omega

theorem LexRun.lexAll {x y : LexState} {ts : List (Tok × Nat)} (h : LexRun num x ts y) : ∀ fuel, ts.length ≤ fuel →
    ∃ r, (lexAll num fuel x).toks = ts ++ r := by
  induction h with
  | nil => intro fuel _; exact ⟨_, rfl⟩
  | cons h _ ih =>
    intro fuel hf
    cases fuel with
    | zero => simp at hf
    | succ fuel =>
      obtain ⟨r, hr⟩ := ih fuel (by simpa using hf)
      refine ⟨r, ?_⟩
      rw [Appendable.lexAll, h]
      simp [hr]

/-- The tokens of a text begin with those of a run of the lexer. -/
theorem goLex_steps {b : Bytes} {ts : List (Tok × Nat)} {y : LexState} (h : LexRun num ⟨[], .topValue, 0, b⟩ ts y) :
    ∃ r, (goLex num b).toks = ts ++ r := h.lexAll _ (Nat.le_succ_of_le h.length)

end Appendable
