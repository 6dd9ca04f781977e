import Verif.Props.AskJsonl
import Verif.Props.QueryWitness
import Verif.Props.SearchWitness
/-! A concrete file for C111, C112 and C113. -/
namespace Appendable
open Spec Tree

/-- C111 is violated: with the phrase `xy` and the condition `a == "z"`, which no line meets, the line with `"a":"x x"` is returned. -/
theorem C111_violated {S : Type} (A : ScoreArith S) (rand : Nat → Nat) : ∃ N, ∀ fuel, N ≤ fuel →
    ∃ score, Sum.inl (qLine, score) ∈ (qDb.ask A asciiLower rand fuel (fun b => Res.ok b)
      ⟨some ⟨[97], [120, 121], some (.fin 1, .fin 1)⟩, [⟨[97], opText .eq, .str [122]⟩], none⟩).rows := by
  obtain ⟨N, hN⟩ := C111_lines_violated (β := Bytes) (A := A) qFile qAsks1 qFilled qOne asciiLower_ok rand
  refine ⟨N, fun fuel hfu => ?_⟩
  exact hN fuel hfu (fun b => .ok b) ⟨[97], opText .eq, .str [122]⟩ [] none (by simp) (qLine, [⟨[97], .str [120, 32, 120], 5, 10⟩])
    List.mem_cons_self ⟨[120, 32, 120], by decide, 1, [120], by decide, by decide, by rw [qGrams.1]; simp, by decide +kernel⟩

/-- C113 is violated: `a != "x x"` (there is no operation `!=`) returns nothing. -/
theorem C113_violated {S : Type} (A : ScoreArith S) (lower : JsString → JsString) (rand : Nat → Nat) : ∃ N, ∀ fuel, N ≤ fuel →
    qDb'.ask A lower rand fuel (fun b => Res.ok b) ⟨none, [⟨[97], [33, 61], .str [120, 32, 120]⟩], none⟩ = ⟨[], none⟩ := by
  obtain ⟨N, hN⟩ := C113_lines_violated (β := Bytes) (A := A) qQuery (name := [97]) (value := .str [120, 32, 120]) rfl (by rw [qValues.1]; simp) [33, 61]
    (fun op => by cases op <;> decide) lower rand
  exact ⟨N, fun fuel hfu => hN fuel hfu _ none⟩

/-- C112 is violated: `minGram` 1.5 and `maxGram` 2. -/
theorem C112_violated : (∃ c, jsValidateSearch ⟨[97], some (.fin (3 / 2), .fin 2)⟩ [([97], [0, 8, 9, 10])] = .ok c) ∧
    ∀ {S : Type} (db : TsDb) (A : ScoreArith S) (lower : JsString → JsString) (rand : Nat → Nat) (fuel : Nat) (fm : TsFileMeta) (like : JsString),
      db.searchPart A lower rand fuel fm [([97], [0, 8, 9, 10])] (some ⟨[97], like, some (.fin (3 / 2), .fin 2)⟩) =
        ⟨[], some (.msg "Unrecognized gram type for gram length")⟩ := by
  refine C112_fraction_violated (types := [0, 8, 9, 10]) ⟨[], [], rfl, by simp⟩ (by simp) (by simp) (by simp)
    ⟨3 / 2, 2, rfl, rfl, by decide +kernel, by decide +kernel, by decide +kernel⟩ ?_
  rintro ⟨n, h⟩
  have h : (3 / 2 : Rat) = n := JsNum.fin.inj h
  have h2 : ((n * 2 : Nat) : Rat) = ((3 : Nat) : Rat) := by
    rw [Rat.natCast_mul, ← h]; decide +kernel
  have := Rat.natCast_inj.1 h2
  omega

/-- `C112_whole_partial` applies: `minGram` 1, `maxGram` 2.5. -/
example (lower : JsString → JsString) (phrase : JsString) : tsTokensNum lower (.fin 1) (.fin (5 / 2)) phrase = tsTokens lower 1 2 phrase :=
  (C112_whole_partial lower phrase (lo := 1) (n := 2) (hi := 5 / 2) (by decide) (by decide) (by decide +kernel) (by decide +kernel) (by decide +kernel)).1

theorem metadata_read {β : Type} {db : TsDb} {fuel : Nat} {select : Bytes → Res β} {q : TsQuery} (h : (db.query fuel select q).fail = none) :
    tsFileMetadata db.idx ≠ .panic := by
  intro hp
  unfold TsDb.query at h
  rw [hp] at h
  split at h
  · split at h
    · cases h
    · cases hy : tsIndexHeaders db.idx fuel <;> rw [hy] at h <;> cases h
  · cases hy : tsIndexHeaders db.idx fuel <;> rw [hy] at h <;> cases h

/-- `C111_where_partial` applies: `a <= "x x"`. -/
example {S : Type} (A : ScoreArith S) (lower : JsString → JsString) (rand : Nat → Nat) (fuel : Nat) :
    qDb'.ask A lower rand fuel (fun b => Res.ok b) (whereOnly (qWhere .le (.str [120, 32, 120]))) =
      (qDb'.query fuel (fun b => Res.ok b) (qWhere .le (.str [120, 32, 120]))).map .inr := by
  obtain ⟨out, _, N, hN⟩ := C82_query_partial qQuery (q := ⟨[⟨[97], .lt, .str [120, 32, 120]⟩], some [([97], .desc)], none, none⟩) rfl rfl
    (by rw [qValues.1]; simp) (d := .desc) (.below (.inl rfl)) Res.ok
  refine C111_where_partial qDb' A lower rand fuel _ _ (metadata_read (fuel := N) (select := Res.ok)
    (q := ⟨[⟨[97], .lt, .str [120, 32, 120]⟩], some [([97], .desc)], none, none⟩) ?_)
  rw [hN N (Nat.le_refl N)]
  generalize out.map (·.2) = ls
  induction ls with
  | nil => rfl
  | cons l ls ih => exact ih

/-- `C113_refused_partial` applies: a value that is `undefined`. -/
example {S : Type} (A : ScoreArith S) (lower : JsString → JsString) (rand : Nat → Nat) (fuel : Nat) :
    ∃ e, qDb'.ask A lower rand fuel (fun b => Res.ok b) ⟨none, [⟨[97], opText .eq, .undefined⟩], none⟩ = ⟨[], some e⟩ :=
  C113_refused_partial qDb' A lower rand fuel _ _ _ _ (.inr (.inl rfl))

end Appendable
