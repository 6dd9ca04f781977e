import Verif.Model.Spawn
/-! C100: the levels drawn at random. -/
namespace Appendable

/-- C100, the distribution: with `M` at least 2, a number drawn strictly between 0 and 1 gives a level of at least `l` exactly if it
is at most `M ^ (-l)`: the level is never negative, and each further level is reached by one in `M`.  (Exact numbers.  The level has to fit
an `int64`: the number drawn is at least `M ^ -(2^63 - 1)`.) -/
theorem C100_geometric_partial {M : ℕ} (hM : 2 ≤ M) {r : ℝ} (h0 : 0 < r) (h1 : r < 1) (hr : ∃ n : ℕ, n < 2 ^ 63 ∧ 1 ≤ r * (M : ℝ) ^ n) (l : ℕ) :
    (l : Int) ≤ spawnLevel M r ↔ r * (M : ℝ) ^ l ≤ 1 := by
  have hMr : (1 : ℝ) < (M : ℝ) := by exact_mod_cast hM
  have hlM : 0 < Real.log M := Real.log_pos hMr
  have hM0 : (M : ℝ) ≠ 0 := by positivity
  have hlr : Real.log r < 0 := Real.log_neg h0 h1
  have hlev : spawnLevel M r = GoNum.floorInt (.fin (-Real.log r * (1 / Real.log M))) := by
    simp only [spawnLevel, levelMultiplier, GoNum.log, if_neg h0.ne', if_neg (not_lt.2 h0.le), if_neg hM0,
      if_neg (not_lt.2 (Nat.cast_nonneg (α := ℝ) M)), GoNum.inv, if_neg hlM.ne', GoNum.neg, GoNum.mul]
  have hx0 : (0 : ℝ) ≤ -Real.log r * (1 / Real.log M) := by
    have : 0 < -Real.log r := by linarith
    positivity
  -- `n ≤ level` in terms of powers
  have key : ∀ n : ℕ, (n : ℝ) ≤ -Real.log r * (1 / Real.log M) ↔ r * (M : ℝ) ^ n ≤ 1 := by
    intro n
    have hp : (0 : ℝ) < r * (M : ℝ) ^ n := by positivity
    rw [mul_one_div, le_div_iff₀ hlM, ← Real.log_le_log_iff hp one_pos, Real.log_one, Real.log_mul h0.ne' (by positivity), Real.log_pow]
    constructor <;> intro h <;> linarith
  have hfl0 : 0 ≤ ⌊-Real.log r * (1 / Real.log M)⌋ := Int.floor_nonneg.2 hx0
  have hfl1 : ⌊-Real.log r * (1 / Real.log M)⌋ < 2 ^ 63 := by
    by_contra hc
    rw [not_lt] at hc
    obtain ⟨n, hn, hr⟩ := hr
    have h2 : (((n + 1 : ℕ) : Int) : ℝ) ≤ -Real.log r * (1 / Real.log M) := Int.le_floor.1 (by push_cast; omega)
    have h3 : r * (M : ℝ) ^ (n + 1) ≤ 1 := (key (n + 1)).1 (by exact_mod_cast h2)
    rw [pow_succ, ← mul_assoc] at h3
    have h5 : (1 : ℝ) * M ≤ r * (M : ℝ) ^ n * M := mul_le_mul_of_nonneg_right hr (by positivity)
    linarith
  rw [hlev]
  simp only [GoNum.floorInt]
  rw [if_pos ⟨by linarith, hfl1⟩, Int.le_floor]
  exact_mod_cast key l

/-- C100 is violated with `M = 1`: whatever number is drawn, the level is negative. -/
theorem spawn_one (r : ℝ) (h0 : 0 ≤ r) (h1 : r < 1) : spawnLevel 1 r = -2 ^ 63 := by
  have hm : levelMultiplier 1 = .posInf := by
    have h2 : ¬ (1 : ℝ) < 0 := not_lt.2 zero_le_one
    simp [levelMultiplier, GoNum.log, GoNum.inv, if_neg h2]
  rw [spawnLevel, hm]
  by_cases hr : r = 0
  · simp [GoNum.log, hr, GoNum.neg, GoNum.mul, GoNum.timesInf, GoNum.floorInt]
  · have hl : Real.log r < 0 := Real.log_neg (lt_of_le_of_ne h0 (Ne.symm hr)) h1
    simp only [GoNum.log, if_neg hr, if_neg (not_lt.2 h0), GoNum.neg, GoNum.mul, GoNum.timesInf]
    rw [if_neg (by linarith), if_neg (by linarith)]
    rfl

/-- A draw of 0 gives a negative level. -/
theorem spawn_zero {M : ℕ} (hM : 2 ≤ M) : spawnLevel M 0 = -2 ^ 63 := by
  have hMr : (1 : ℝ) < (M : ℝ) := by exact_mod_cast hM
  have hlM : 0 < Real.log M := Real.log_pos hMr
  have hM0 : (M : ℝ) ≠ 0 := by positivity
  have : (0 : ℝ) < 1 / Real.log M := by positivity
  simp only [spawnLevel, levelMultiplier, GoNum.log, if_true, if_neg hM0, if_neg (not_lt.2 (Nat.cast_nonneg (α := ℝ) M)), GoNum.inv,
    if_neg hlM.ne', GoNum.neg, GoNum.mul, GoNum.timesInf, if_neg this.ne', if_neg (not_lt.2 this.le)]
  rfl

section
variable {F : Type} (o : FloatOps F)

theorem insert_negative (h : Hnsw F) (q : List F) (hq : q.length = h.dim) {l : Int} (hl : l < 0) : (Hnsw.insertVector o q l h).1 = .panic := by
  unfold Hnsw.insertVector
  rw [if_neg (by simp [hq])]
  unfold Hnsw.insertAtLevel
  cases h.friends[h.entry]? with
  | none => rfl
  | some fr => simp only; rw [if_pos hl]

/-- C100 is violated in every graph with `M = 1`: `InsertVector` of every vector of the right dimension panics, whatever number is drawn. -/
theorem C100_one_violated (h : Hnsw F) (hM : h.M = 1) (q : List F) (hq : q.length = h.dim) (r : ℝ) (h0 : 0 ≤ r) (h1 : r < 1) :
    (Hnsw.insertDrawn o q r h).1 = .panic := by
  unfold Hnsw.insertDrawn
  rw [hM, spawn_one r h0 h1]
  exact insert_negative o h q hq (by norm_num)

/-- C100 is violated in every graph: if the random generator returns 0, as it may, `InsertVector` panics. -/
theorem C100_zero_violated (h : Hnsw F) (hM : 2 ≤ h.M) (q : List F) (hq : q.length = h.dim) :
    (Hnsw.insertDrawn o q 0 h).1 = .panic := by
  unfold Hnsw.insertDrawn
  rw [spawn_zero hM]
  exact insert_negative o h q hq (by norm_num)

/-- C100, calls: with `M` at least 2, a number drawn strictly between 0 and 1 (at least `M ^ -(2^63 - 1)`) lets `InsertVector` act as with some
level that is not negative. -/
theorem C100_level_partial (h : Hnsw F) (hM : 2 ≤ h.M) (q : List F) {r : ℝ} (h0 : 0 < r) (h1 : r < 1)
    (hr : ∃ n : ℕ, n < 2 ^ 63 ∧ 1 ≤ r * (h.M : ℝ) ^ n) :
    ∃ l : ℕ, Hnsw.insertDrawn o q r h = Hnsw.insertVector o q (l : Int) h ∧ r * (h.M : ℝ) ^ l ≤ 1 ∧ 1 < r * (h.M : ℝ) ^ (l + 1) := by
  have hn : 0 ≤ spawnLevel h.M r := by
    have := (C100_geometric_partial hM h0 h1 hr 0).2 (by simpa using h1.le)
    simpa using this
  obtain ⟨l, hl⟩ := Int.eq_ofNat_of_zero_le hn
  refine ⟨l, ?_, ?_, ?_⟩
  · unfold Hnsw.insertDrawn; rw [hl]
  · exact (C100_geometric_partial hM h0 h1 hr l).1 (by rw [hl])
  · rw [← not_le]
    intro hc
    have := (C100_geometric_partial hM h0 h1 hr (l + 1)).2 hc
    rw [hl] at this
    push_cast at this
    omega

end

/-- The hypotheses are met: with `M = 2`, a draw of 1/5 gives level 2. -/
example : spawnLevel 2 (1 / 5) = 2 := by
  have hr : ∃ n : ℕ, n < 2 ^ 63 ∧ (1 : ℝ) ≤ 1 / 5 * ((2 : ℕ) : ℝ) ^ n := ⟨3, by decide, by norm_num⟩
  have h2 := (C100_geometric_partial (M := 2) (by decide) (r := 1 / 5) (by norm_num) (by norm_num) hr 2).2 (by norm_num)
  have h3 := (C100_geometric_partial (M := 2) (by decide) (r := 1 / 5) (by norm_num) (by norm_num) hr 3).not.2 (by norm_num)
  push_cast at h2 h3
  omega

end Appendable
