import Verif.Spec.CsvLine
/-! C86: lines of CSV files. -/
namespace Appendable
open Spec

theorem doubled_cons (b : UInt8) (v : Bytes) : doubled (b :: v) = (if b = 34 then [34, 34] else [b]) ++ doubled v := by
  unfold doubled; rw [List.flatMap_cons]

/-- What follows a field. -/
def afterField : Option Bytes → Bytes
  | none => []
  | some r => 44 :: r

theorem csvQuoted_of (w acc : Bytes) (rest : Option Bytes) : csvQuoted (doubled w ++ 34 :: afterField rest) acc = some (acc ++ w, rest) := by
  induction w generalizing acc with
  | nil =>
    have : doubled [] = [] := rfl
    rw [this, List.nil_append, List.append_nil]
    cases rest with
    | none => rw [csvQuoted.eq_def]; simp [afterField]
    | some r => rw [csvQuoted.eq_def]; simp [afterField]
  | cons b w ih =>
    rw [doubled_cons, List.append_assoc]
    by_cases hb : b = 34
    · subst hb
      rw [if_pos rfl, csvQuoted.eq_def]
      simp only [List.cons_append, List.nil_append, if_true]
      rw [ih]; simp
    · rw [if_neg hb, csvQuoted.eq_def]
      simp only [List.cons_append, List.nil_append]
      rw [if_neg hb, ih]; simp

theorem csvQuoted_to (n : Nat) (t acc v : Bytes) (rest : Option Bytes) (hn : t.length ≤ n) (h : csvQuoted t acc = some (v, rest)) :
    ∃ w, v = acc ++ w ∧ t = doubled w ++ 34 :: afterField rest := by
  induction n generalizing t acc with
  | zero =>
    have : t = [] := List.length_eq_zero_iff.1 (by omega)
    subst this
    simp [csvQuoted] at h
  | succ n ih =>
    cases t with
    | nil => simp [csvQuoted] at h
    | cons b t =>
      simp only [List.length_cons] at hn
      rw [csvQuoted.eq_def] at h
      simp only at h
      split at h
      · rename_i hb
        subst hb
        cases t with
        | nil =>
          cases h
          exact ⟨[], by simp, rfl⟩
        | cons c r =>
          simp only at h
          simp only [List.length_cons] at hn
          split at h
          · rename_i hc
            subst hc
            obtain ⟨w, h1, h2⟩ := ih r _ (by omega) h
            refine ⟨34 :: w, by rw [h1]; simp, ?_⟩
            rw [doubled_cons, if_pos rfl, h2]; rfl
          · split at h
            · rename_i hc
              subst hc
              cases h
              exact ⟨[], by simp, rfl⟩
            · cases h
      · rename_i hb
        obtain ⟨w, h1, h2⟩ := ih t _ (by omega) h
        refine ⟨b :: w, by rw [h1]; simp, ?_⟩
        rw [doubled_cons, if_neg hb, h2]; rfl

theorem csvPlain_of (w : Bytes) (rest : Option Bytes) (hq : (34 : UInt8) ∉ w) (hc : (44 : UInt8) ∉ w) :
    csvPlain (w ++ afterField rest) = some (w, rest) := by
  induction w with
  | nil =>
    cases rest with
    | none => rfl
    | some r => simp [afterField, csvPlain]
  | cons b w ih =>
    rw [List.cons_append, csvPlain, if_neg (fun e => hc (by simp [e])), if_neg (fun e => hq (by simp [e])),
      ih (fun h => hq (List.mem_cons_of_mem _ h)) (fun h => hc (List.mem_cons_of_mem _ h))]

theorem csvPlain_to (t v : Bytes) (rest : Option Bytes) (h : csvPlain t = some (v, rest)) :
    t = v ++ afterField rest ∧ (34 : UInt8) ∉ v ∧ (44 : UInt8) ∉ v := by
  induction t generalizing v with
  | nil => cases h; exact ⟨rfl, by simp, by simp⟩
  | cons b t ih =>
    rw [csvPlain] at h
    split at h
    · rename_i hb; subst hb; cases h; exact ⟨rfl, by simp, by simp⟩
    · rename_i hb
      split at h
      · cases h
      · rename_i hq
        cases hp : csvPlain t with
        | none => rw [hp] at h; cases h
        | some x =>
          obtain ⟨f, r⟩ := x
          rw [hp] at h
          cases h
          obtain ⟨h1, h2, h3⟩ := ih f hp
          refine ⟨by rw [h1]; rfl, ?_, ?_⟩
          · intro hc; rcases List.mem_cons.1 hc with e | e
            · exact hq e.symm
            · exact h2 e
          · intro hc; rcases List.mem_cons.1 hc with e | e
            · exact hb e.symm
            · exact h3 e

theorem csvField_iff (line v : Bytes) (rest : Option Bytes) :
    csvField line = some (v, rest) ↔ ∃ t, WritesField t v ∧ line = t ++ afterField rest := by
  unfold csvField
  constructor
  · intro h
    split at h
    · rename_i hh
      obtain ⟨c, l, rfl⟩ : ∃ c l, line = c :: l := by
        cases line with
        | nil => cases hh
        | cons c l => exact ⟨c, l, rfl⟩
      simp only [List.head?_cons, Option.some.injEq] at hh
      subst hh
      obtain ⟨w, h1, h2⟩ := csvQuoted_to _ _ _ _ _ (Nat.le_refl _) h
      rw [List.nil_append] at h1
      subst h1
      rw [List.tail_cons] at h2
      exact ⟨_, .quoted v, by rw [h2]; simp⟩
    · obtain ⟨h1, h2, h3⟩ := csvPlain_to _ _ _ h
      exact ⟨v, .plain h2 h3, h1⟩
  · rintro ⟨t, ht, rfl⟩
    cases ht with
    | plain hq hc =>
      rw [if_neg, csvPlain_of _ _ hq hc]
      cases v with
      | nil => cases rest <;> simp [afterField]
      | cons b v => intro e; simp only [List.cons_append, List.head?_cons, Option.some.injEq] at e; exact hq (by simp [e])
    | quoted =>
      rw [if_pos (by rfl)]
      have : (34 :: (doubled v ++ [34]) ++ afterField rest).tail = doubled v ++ 34 :: afterField rest := by simp
      rw [this, csvQuoted_of]; rfl

theorem csvFields_to (fuel : Nat) (line : Bytes) (fs : List Bytes) (h : csvFields fuel line = some fs) : WritesFields line fs := by
  induction fuel generalizing line fs with
  | zero => cases h
  | succ fuel ih =>
    rw [csvFields] at h
    split at h
    · cases h
    · rename_i f hf
      cases h
      obtain ⟨t, h1, h2⟩ := (csvField_iff _ _ _).1 hf
      rw [h2]
      simp only [afterField, List.append_nil]
      exact .one h1
    · rename_i f rest hf
      obtain ⟨t, h1, h2⟩ := (csvField_iff _ _ _).1 hf
      cases hr : csvFields fuel rest with
      | none => rw [hr] at h; cases h
      | some gs =>
        rw [hr] at h
        cases h
        rw [h2]
        exact .more h1 (ih _ _ hr)

theorem csvFields_of {line : Bytes} {fs : List Bytes} (h : WritesFields line fs) (fuel : Nat) (hf : line.length < fuel) : csvFields fuel line = some fs := by
  induction h generalizing fuel with
  | @one t v h =>
    obtain ⟨f, rfl⟩ : ∃ f, fuel = f + 1 := ⟨fuel - 1, by omega⟩
    rw [csvFields, (csvField_iff t v none).2 ⟨t, h, by simp [afterField]⟩]
  | @more t v r vs h hr ih =>
    obtain ⟨f, rfl⟩ : ∃ f, fuel = f + 1 := ⟨fuel - 1, by omega⟩
    simp only [List.length_append, List.length_cons] at hf
    rw [csvFields, (csvField_iff (t ++ 44 :: r) v (some r)).2 ⟨t, h, rfl⟩]
    simp only
    rw [ih f (by omega)]; rfl

theorem dropCR_cases (line : Bytes) : (∃ r, line = r ++ [13] ∧ dropCR line = r) ∨ ((∀ x, line ≠ x ++ [13]) ∧ dropCR line = line) := by
  unfold dropCR
  rcases List.eq_nil_or_concat line with h | ⟨r, b, h⟩
  · subst h; right; exact ⟨by simp, by simp⟩
  · rw [List.concat_eq_append] at h
    subst h
    by_cases hb : b = 13
    · subst hb; left; exact ⟨r, rfl, by simp⟩
    · right
      refine ⟨?_, by simp [hb]⟩
      intro x hx
      have := List.append_inj_right' hx rfl
      simp at this
      exact hb this

/-- C86: a line is read as the record with the fields `fs` exactly if it is one: every way to write the fields, with
quotes or without, gives these fields, and every other line (bare, missing or extraneous quotes, or nothing at all) is
refused. -/
theorem C86_record (line : Bytes) (fs : List Bytes) : csvRead line = some fs ↔ WritesRecord line fs := by
  unfold csvRead WritesRecord
  constructor
  · intro h
    split at h
    · cases h
    · rename_i hne
      refine ⟨dropCR line, hne, csvFields_to _ _ _ h, ?_⟩
      rcases dropCR_cases line with ⟨r, h1, h2⟩ | ⟨h1, h2⟩
      · left; rw [h2]; exact h1
      · right; rw [h2]; exact ⟨rfl, h1⟩
  · rintro ⟨r, hne, hw, hl⟩
    have hd : dropCR line = r := by
      rcases hl with rfl | ⟨rfl, hl⟩
      · rcases dropCR_cases (r ++ [13]) with ⟨r', h1, h2⟩ | ⟨h1, _⟩
        · rw [h2]; exact (List.append_cancel_right h1).symm
        · exact absurd rfl (h1 r)
      · rcases dropCR_cases line with ⟨r', h1, _⟩ | ⟨_, h2⟩
        · exact absurd h1 (hl r')
        · exact h2
    rw [hd, if_neg hne]
    refine csvFields_of hw _ ?_
    rcases hl with rfl | ⟨rfl, _⟩
    · simp only [List.length_append, List.length_cons, List.length_nil]; omega
    · omega

/-- C86: the fields are determined by the line. -/
theorem C86_unique {line : Bytes} {fs gs : List Bytes} (h : WritesRecord line fs) (h' : WritesRecord line gs) : fs = gs := by
  have := (C86_record line fs).2 h
  rw [(C86_record line gs).2 h'] at this
  cases this; rfl

/-- `"a,""b",c` is the record of `a,"b` and `c`. -/
example : WritesRecord ([34, 97, 44, 34, 34, 98, 34] ++ 44 :: [99]) [[97, 44, 34, 98], [99]] := by
  refine ⟨_, by simp, .more (t := 34 :: (doubled [97, 44, 34, 98] ++ [34])) (.quoted _) (.one (.plain (by decide) (by decide))), .inr ⟨rfl, ?_⟩⟩
  intro x hx
  have := congrArg List.getLast? hx
  rw [List.getLast?_append] at this
  simp [doubled] at this

/-- `a"b` is no record. -/
example : ∀ fs, ¬ WritesRecord [97, 34, 98] fs := by
  intro fs h
  have := (C86_record _ _).2 h
  have e : csvRead [97, 34, 98] = none := by decide
  rw [e] at this
  cases this

end Appendable
