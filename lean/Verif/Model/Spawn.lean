import Verif.Model.Hnsw
import Mathlib.Analysis.SpecialFunctions.Log.Basic
/-! pkg/hnsw/hnsw.go: `SpawnLevel`.  Numbers are exact (no rounding), with the infinities and NaN of IEEE arithmetic; the two zeros are
one. -/
namespace Appendable

/-- A number of the Go program. -/
inductive GoNum where
  | fin (x : ℝ)
  | posInf
  | negInf
  | nan

namespace GoNum

/-- `math.Log` (Go standard library): `-Inf` at 0, NaN below. -/
noncomputable def log : GoNum → GoNum
  | fin x => if x = 0 then negInf else if x < 0 then nan else fin (Real.log x)
  | posInf => posInf
  | negInf => nan
  | nan => nan

/-- `1 / x`; the zero is positive. -/
noncomputable def inv : GoNum → GoNum
  | fin x => if x = 0 then posInf else fin (1 / x)
  | posInf => fin 0
  | negInf => fin 0
  | nan => nan

/-- `-x` -/
def neg : GoNum → GoNum
  | fin x => fin (-x)
  | posInf => negInf
  | negInf => posInf
  | nan => nan

/-- `x * +Inf` -/
noncomputable def timesInf : GoNum → GoNum
  | fin x => if x = 0 then nan else if x < 0 then negInf else posInf
  | posInf => posInf
  | negInf => negInf
  | nan => nan

/-- `x * y` -/
noncomputable def mul : GoNum → GoNum → GoNum
  | fin x, fin y => fin (x * y)
  | x, posInf => x.timesInf
  | posInf, y => y.timesInf
  | x, negInf => x.timesInf.neg
  | negInf, y => y.timesInf.neg
  | nan, _ => nan
  | _, nan => nan

/-- `int(math.Floor(x))` on amd64: what does not fit an `int64` becomes the least `int64`. -/
noncomputable def floorInt : GoNum → Int
  | fin x => if -2 ^ 63 ≤ ⌊x⌋ ∧ ⌊x⌋ < 2 ^ 63 then ⌊x⌋ else -2 ^ 63
  | _ => -2 ^ 63

end GoNum

/-- pkg/hnsw/hnsw.go:60, the field `levelMultiplier` -/
noncomputable def levelMultiplier (M : ℕ) : GoNum := (GoNum.log (.fin M)).inv

/-- pkg/hnsw/hnsw.go:64-66 `SpawnLevel`; `r` is what `rand.Float64` returns, at least 0 and below 1. -/
noncomputable def spawnLevel (M : ℕ) (r : ℝ) : Int := (((GoNum.fin r).log.neg).mul (levelMultiplier M)).floorInt

/-- pkg/hnsw/hnsw.go:187-256 `InsertVector`, with the number that the random generator returns. -/
noncomputable def Hnsw.insertDrawn {F : Type} (o : FloatOps F) (q : List F) (r : ℝ) : Act (Hnsw F) Nat := fun h =>
  Hnsw.insertVector o q (spawnLevel h.M r) h

end Appendable
