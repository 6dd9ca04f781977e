import Verif.Props.SearchJson
import Verif.Props.QueryWitness
/-! The file of `SearchWitness` as a file of JSON texts. -/
namespace Appendable
open Spec Tree

theorem qSearchJson : SearchJson (fun _ => none) id [[97]] qData qI qRun.2 qRecs [] [97] qDb where
  run := qQuery.run
  lines := qQuery.lines
  ok := qQuery.ok
  size := qQuery.size
  sees := qFile.sees
  header := by simp
  some_ := ⟨qRecs.head (by simp [qRecs]), by simp [qRecs], by decide +kernel⟩
  valid := fun _ h => h
  short := by
    intro r hr t ht
    have : t ∈ (qRecs.map (fun r => (r.text, r.fields (fun _ => none)))).flatMap (fun x => textsOf [97] x.2) :=
      List.mem_flatMap.2 ⟨_, List.mem_map.2 ⟨r, hr, rfl⟩, ht⟩
    rw [qRecs_fields] at this
    have h2 : qLf.flatMap (fun x => textsOf [97] x.2) = [[120, 32, 120]] := by decide
    rw [h2] at this
    obtain rfl := List.mem_singleton.1 this
    decide

theorem qGramsId : gramsOf id [97] 1 qLf = [([120], qLine), ([120], qLine)] := qGrams.2.2.1

/-- Non-vacuity of C77 and C78: the text `x x` makes its line be returned twice by a search for `xy`. -/
example (rand : Nat → Nat) : ∃ rows : List (Bytes × Option Rat), Finds qDb (nanArith id) asciiLower rand qSearch1 ⟨rows, none⟩ ∧
    2 ≤ (rows.map (·.1)).count (qRecs.head (by simp [qRecs])).text :=
  C77_json_violated (A := nanArith id) qSearchJson qAsks1 (by rw [qRecs_fields]; exact qFilled) (by rw [qRecs_fields]; exact qOne) asciiLower_ok rand
    (r := qRecs.head (by simp [qRecs])) (by simp [qRecs]) (t := [120, 32, 120]) (by decide +kernel) (n := 1) (v := [120]) (by decide) (by decide)
    (by rw [qGrams.1]; simp) (by decide +kernel)

/-- Non-vacuity of C79: the search for `xy` yields numbers only, the one for `x x` yields `NaN`. -/
example (log : Rat → Rat) (rand : Nat → Nat) : (∃ rows : List (Bytes × Option Rat), Finds qDb (nanArith log) asciiLower rand qSearch1 ⟨rows, none⟩ ∧
      ∀ row ∈ rows, ∃ x, row.2 = some x) ∧
    ∃ rows : List (Bytes × Option Rat), Finds qDb (nanArith log) asciiLower rand qSearch3 ⟨rows, none⟩ ∧
      ((qRecs.head (by simp [qRecs])).text, none) ∈ rows := by
  constructor
  · refine C79_json_partial qSearchJson qAsks1 (by rw [qRecs_fields]; exact qFilled) asciiLower_ok rand (fun n h1 h2 => ?_)
    obtain rfl : n = 1 := by omega
    rw [qRecs_fields]; unfold hitCount; rw [qGrams.1, qGramsId]; decide
  · obtain ⟨rows, h1, h2⟩ := C79_json_violated (log := log) qSearchJson qAsks3 (by rw [qRecs_fields]; exact qFilled3) (by rw [qRecs_fields]; exact qOne3)
      asciiLower_ok (n := 1) (by decide) (by decide) (by rw [qRecs_fields]; unfold hitCount; rw [qGrams3, qGramsId]; decide) rand
    exact ⟨rows, h1, h2 _ (by simp [qRecs]) [120, 32, 120] (by decide +kernel) [120] (by rw [qGrams3]; simp) (by decide +kernel)⟩

end Appendable
