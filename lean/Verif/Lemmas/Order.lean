import Verif.Spec.Order
/-! Order lemmas for `compareRV`. -/
namespace Appendable
open Spec

theorem bytesCompare_lt_iff (a b : Bytes) : bytesCompare a b = -1 ↔ List.Lex (· < ·) a b := by
  induction a generalizing b with
  | nil => cases b <;> simp [bytesCompare]
  | cons x a ih =>
    cases b with
    | nil => simp [bytesCompare]
    | cons y b =>
      simp only [bytesCompare]
      by_cases h1 : x < y
      · simp [h1, List.Lex.rel h1]
      · by_cases h2 : y < x
        · simp only [h1, if_false, h2, if_true]
          constructor
          · intro h; exact absurd h (by decide)
          · intro h
            cases h with
            | rel h => exact absurd h h1
            | cons h => exact absurd h2 h1
        · have hxy : x = y := by
            apply UInt8.toNat_inj.1
            rw [UInt8.lt_iff_toNat_lt] at h1 h2; omega
          subst hxy
          simp only [h1, if_false, ih]
          constructor
          · exact List.Lex.cons
          · intro h
            cases h with
            | rel h => exact absurd h h1
            | cons h => exact h

theorem bytesCompare_eq_zero (a b : Bytes) : bytesCompare a b = 0 ↔ a = b := by
  induction a generalizing b with
  | nil => cases b <;> simp [bytesCompare]
  | cons x a ih =>
    cases b with
    | nil => simp [bytesCompare]
    | cons y b =>
      simp only [bytesCompare]
      split
      · rename_i h; simp; intro h2; subst h2; exact absurd h (by simp [UInt8.lt_iff_toNat_lt])
      · split
        · rename_i h; simp; intro h2; subst h2; exact absurd h (by simp [UInt8.lt_iff_toNat_lt])
        · rename_i h1 h2
          have hxy : x = y := by
            apply UInt8.toNat_inj.1
            rw [UInt8.lt_iff_toNat_lt] at h1 h2; omega
          subst hxy; simp [ih]

theorem bytesCompare_swap (a b : Bytes) : bytesCompare b a = - bytesCompare a b := by
  induction a generalizing b with
  | nil => cases b <;> simp [bytesCompare]
  | cons x a ih =>
    cases b with
    | nil => simp [bytesCompare]
    | cons y b =>
      simp only [bytesCompare]
      by_cases h1 : x < y
      · have h2 : ¬ y < x := by rw [UInt8.lt_iff_toNat_lt] at *; omega
        simp [h1, h2]
      · by_cases h2 : y < x
        · simp [h1, h2]
        · simp [h1, h2, ih]

theorem bytesCompare_range (a b : Bytes) :
    bytesCompare a b = -1 ∨ bytesCompare a b = 0 ∨ bytesCompare a b = 1 := by
  induction a generalizing b with
  | nil => cases b <;> simp [bytesCompare]
  | cons x a ih =>
    cases b with
    | nil => simp [bytesCompare]
    | cons y b =>
      simp only [bytesCompare]
      split
      · simp
      · split
        · simp
        · exact ih b

theorem lex_trans {a b c : Bytes} (h1 : List.Lex (· < ·) a b) (h2 : List.Lex (· < ·) b c) :
    List.Lex (· < ·) a c := by
  induction h1 generalizing c with
  | nil => cases h2 with
    | rel _ => exact .nil
    | cons _ => exact .nil
  | cons h ih => cases h2 with
    | rel h' => exact .rel h'
    | cons h' => exact .cons (ih h')
  | rel h => cases h2 with
    | rel h' => exact .rel (UInt8.lt_trans h h')
    | cons h' => exact .rel h

theorem lex_irrefl (a : Bytes) : ¬ List.Lex (· < ·) a a := by
  induction a with
  | nil => intro h; cases h
  | cons x a ih =>
    intro h
    cases h with
    | rel h => exact absurd h (by simp [UInt8.lt_iff_toNat_lt])
    | cons h => exact ih h

theorem compareRV_lt_iff (a b : RV) : compareRV a b < 0 ↔ KeyLt a b := by
  unfold compareRV KeyLt
  rcases bytesCompare_range a.value b.value with h | h | h
  · have := (bytesCompare_lt_iff _ _).1 h
    simp [h, this]
  · have he := (bytesCompare_eq_zero _ _).1 h
    have hl : ¬ List.Lex (· < ·) a.value b.value := by rw [he]; exact lex_irrefl _
    simp only [h, ne_eq, not_true, if_false]
    simp only [UInt64.lt_iff_toNat_lt, UInt32.lt_iff_toNat_lt, ← UInt64.toNat_inj]
    split <;> (try split) <;> (try split) <;> (try split) <;> simp_all <;> omega
  · have hl : ¬ List.Lex (· < ·) a.value b.value := by rw [← bytesCompare_lt_iff, h]; decide
    have hne : a.value ≠ b.value := by rw [ne_eq, ← bytesCompare_eq_zero, h]; decide
    simp [h, hl, hne]

theorem compareRV_eq_zero (a b : RV) : compareRV a b = 0 ↔ a = b := by
  unfold compareRV
  constructor
  · intro h
    split at h
    · rename_i h1; exact absurd h h1
    · rename_i h1
      have h1 : bytesCompare a.value b.value = 0 := by omega
      have he := (bytesCompare_eq_zero _ _).1 h1
      simp only [UInt64.lt_iff_toNat_lt, UInt32.lt_iff_toNat_lt] at h
      have h3 : a.dp.offset.toNat = b.dp.offset.toNat ∧ a.dp.length.toNat = b.dp.length.toNat := by
        split at h <;> (try split at h) <;> (try split at h) <;> (try split at h) <;> omega
      obtain ⟨⟨ao, al⟩, av⟩ := a
      obtain ⟨⟨bo, bl⟩, bv⟩ := b
      simp only [UInt64.toNat_inj, UInt32.toNat_inj] at h3
      simp_all
  · rintro rfl
    simp [(bytesCompare_eq_zero a.value a.value).2 rfl, UInt64.lt_iff_toNat_lt, UInt32.lt_iff_toNat_lt]

theorem compareRV_swap (a b : RV) : compareRV b a = - compareRV a b := by
  unfold compareRV
  rw [bytesCompare_swap a.value b.value]
  simp only [UInt64.lt_iff_toNat_lt, UInt32.lt_iff_toNat_lt]
  rcases bytesCompare_range a.value b.value with h | h | h <;> simp only [h] <;> simp
  split <;> (try split) <;> (try split) <;> (try split) <;> omega

/-! ### Order facts about `KeyLt` -/

theorem Spec.KeyLt.irrefl (a : RV) : ¬ KeyLt a a := by
  rw [← compareRV_lt_iff, (compareRV_eq_zero a a).2 rfl]; decide

theorem Spec.KeyLt.trans {a b c : RV} (h1 : KeyLt a b) (h2 : KeyLt b c) : KeyLt a c := by
  unfold KeyLt at *
  rcases h1 with h1 | ⟨e1, h1⟩ <;> rcases h2 with h2 | ⟨e2, h2⟩
  · exact .inl (lex_trans h1 h2)
  · exact .inl (e2 ▸ h1)
  · exact .inl (e1 ▸ h2)
  · refine .inr ⟨e1.trans e2, ?_⟩
    rcases h1 with h1 | ⟨f1, h1⟩ <;> rcases h2 with h2 | ⟨f2, h2⟩
    · exact .inl (UInt64.lt_trans h1 h2)
    · exact .inl (f2 ▸ h1)
    · exact .inl (f1 ▸ h2)
    · exact .inr ⟨f1.trans f2, UInt32.lt_trans h1 h2⟩

theorem Spec.KeyLt.asymm {a b : RV} (h1 : KeyLt a b) : ¬ KeyLt b a := fun h2 => KeyLt.irrefl _ (h1.trans h2)

theorem Spec.KeyLt.ne {a b : RV} (h : KeyLt a b) : a ≠ b := fun e => KeyLt.irrefl _ (e ▸ h)

theorem Spec.KeyLt.total (a b : RV) : KeyLt a b ∨ a = b ∨ KeyLt b a := by
  rw [← compareRV_lt_iff, ← compareRV_lt_iff b a, ← compareRV_eq_zero, compareRV_swap a b]; omega

theorem not_keyLt {a b : RV} : ¬ KeyLt a b ↔ a = b ∨ KeyLt b a := by
  constructor
  · intro h; rcases KeyLt.total a b with h1 | h1 | h1
    · exact absurd h1 h
    · exact .inl h1
    · exact .inr h1
  · rintro (rfl | h)
    · exact KeyLt.irrefl _
    · exact h.asymm

instance : DecidableRel KeyLt := fun a b => decidable_of_iff _ (compareRV_lt_iff a b)

/-- `a` is not after `b`. -/
def KeyLe (a b : RV) : Prop := ¬ KeyLt b a

theorem KeyLe.refl (a : RV) : KeyLe a a := KeyLt.irrefl a
theorem Spec.KeyLt.le {a b : RV} (h : KeyLt a b) : KeyLe a b := h.asymm
theorem KeyLe.trans_lt {a b c : RV} (h1 : KeyLe a b) (h2 : KeyLt b c) : KeyLt a c := by
  rcases not_keyLt.1 h1 with h | h
  · exact h ▸ h2
  · exact h.trans h2
theorem Spec.KeyLt.trans_le {a b c : RV} (h1 : KeyLt a b) (h2 : KeyLe b c) : KeyLt a c := by
  rcases not_keyLt.1 h2 with h | h
  · exact h ▸ h1
  · exact h1.trans h
theorem KeyLe.trans {a b c : RV} (h1 : KeyLe a b) (h2 : KeyLe b c) : KeyLe a c := fun h =>
  h1 (h2.trans_lt h)

theorem compareRV_neg {a b : RV} : compareRV a b < 0 ↔ KeyLt a b := compareRV_lt_iff a b

/-! ### Binary search -/

/-- In a list where the keys for which `cmp · t < 0` form a prefix of length `c`, the loop finds `c`. -/
theorem bsearchLoop_spec {K T : Type} (cmp : K → T → Int) (x : List K) (t : T) (c : Nat)
    (hlt : ∀ i (h : i < x.length), i < c → cmp x[i] t < 0)
    (hge : ∀ i (h : i < x.length), c ≤ i → ¬ cmp x[i] t < 0)
    (fuel i j : Nat) (hi : i ≤ c) (hj : c ≤ j) (hn : j ≤ x.length) (hf : j - i ≤ fuel) :
    bsearchLoop cmp x t fuel i j = c := by
  induction fuel generalizing i j with
  | zero => simp only [bsearchLoop]; omega
  | succ fuel ih =>
    simp only [bsearchLoop]
    split
    · rename_i hij
      have hh : (i + j) / 2 < x.length := by omega
      simp only [List.getElem?_eq_getElem hh]
      split
      · rename_i hc
        apply ih _ _ _ hj hn (by omega)
        by_cases h : (i + j) / 2 < c
        · omega
        · exact absurd hc (hge _ hh (by omega))
      · rename_i hc
        apply ih _ _ hi _ (by omega) (by omega)
        by_cases h : (i + j) / 2 < c
        · exact absurd (hlt _ hh h) hc
        · omega
    · omega

/-- Keys in strictly ascending order. -/
def SortedKeys (ks : List RV) : Prop := ks.Pairwise KeyLt

/-- number of keys strictly below `k` -/
def countLt (ks : List RV) (k : RV) : Nat := (ks.filter (fun x => decide (KeyLt x k))).length

theorem countLt_nil (k : RV) : countLt [] k = 0 := rfl

theorem countLt_cons (a : RV) (ks : List RV) (k : RV) :
    countLt (a :: ks) k = (if KeyLt a k then 1 else 0) + countLt ks k := by
  unfold countLt
  rw [List.filter_cons]
  by_cases h : KeyLt a k <;> simp [h]; omega

theorem countLt_eq_zero_of_le {ks : List RV} {k : RV} (h : ∀ x ∈ ks, ¬ KeyLt x k) : countLt ks k = 0 := by
  unfold countLt
  rw [List.length_eq_zero_iff, List.filter_eq_nil_iff]
  intro a ha; simpa using h a ha

theorem countLt_le (ks : List RV) (k : RV) : countLt ks k ≤ ks.length := List.length_filter_le _ _

theorem sorted_lt_countLt {ks : List RV} (hs : SortedKeys ks) (k : RV) (i : Nat) (h : i < ks.length) :
    KeyLt ks[i] k ↔ i < countLt ks k := by
  induction ks generalizing i with
  | nil => simp at h
  | cons a ks ih =>
    have hs' := List.pairwise_cons.1 hs
    rw [countLt_cons]
    by_cases ha : KeyLt a k
    · cases i with
      | zero => simp [ha]; omega
      | succ i =>
        have := ih hs'.2 i (by simpa using h)
        simp [ha, this]; omega
    · have h0 : countLt ks k = 0 := countLt_eq_zero_of_le (fun x hx hlt => ha ((hs'.1 x hx).trans hlt))
      rw [h0]
      simp only [ha, if_false, Nat.add_zero, Nat.not_lt_zero, iff_false]
      cases i with
      | zero => simpa using ha
      | succ i =>
        intro hlt
        exact ha ((hs'.1 _ (List.getElem_mem (by simpa using h))).trans hlt)

theorem bsearch_spec {ks : List RV} (hs : SortedKeys ks) (k : RV) :
    bsearch compareRV ks k = (countLt ks k, decide (k ∈ ks)) := by
  have h1 : bsearchLoop compareRV ks k ks.length 0 ks.length = countLt ks k := by
    apply bsearchLoop_spec _ _ _ _ _ _ _ _ _ (Nat.zero_le _) (countLt_le _ _) (Nat.le_refl _) (by omega)
    · intro i h hi; rw [compareRV_lt_iff]; exact (sorted_lt_countLt hs k i h).2 hi
    · intro i h hi; rw [compareRV_lt_iff, sorted_lt_countLt hs k i h]; omega
  unfold bsearch
  simp only [h1]
  congr 1
  by_cases hc : countLt ks k < ks.length
  · simp only [List.getElem?_eq_getElem hc]
    rw [Bool.eq_iff_iff]
    simp only [beq_iff_eq, compareRV_eq_zero, decide_eq_true_eq]
    constructor
    · intro h; rw [← h]; exact List.getElem_mem _
    · intro h
      obtain ⟨j, hj, rfl⟩ := List.mem_iff_getElem.1 h
      have hnl : ¬ j < countLt ks ks[j] := by
        rw [← sorted_lt_countLt hs _ j hj]; exact KeyLt.irrefl _
      by_cases he : countLt ks ks[j] = j
      · simp only [he]
      · have := List.pairwise_iff_getElem.1 hs _ j hc hj (by omega)
        rw [sorted_lt_countLt hs _ _ hc] at this; omega
  · have : ks[countLt ks k]? = none := List.getElem?_eq_none (by omega)
    simp only [this]
    symm
    rw [decide_eq_false_iff_not]
    intro h
    obtain ⟨j, hj, rfl⟩ := List.mem_iff_getElem.1 h
    have := (sorted_lt_countLt hs ks[j] j hj).2 (by omega)
    exact KeyLt.irrefl _ this

end Appendable
