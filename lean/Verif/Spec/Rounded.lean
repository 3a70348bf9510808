import Verif.Num.Rounded
import Verif.Spec.Ewma

/-
Vocabulary for the statements about rounding (property C187): frames of numbers of an arithmetic, and the error bound.
-/
namespace CovPred

variable {τ ι : Type} [Ix ι]

/-- A row of numbers. -/
noncomputable def rfRow (F : FloatOps) (x : ι → ℝ) : Arr ι (RF F) := Arr.ofFn fun i => ⟨.fin (x i)⟩

/-- The frame with the rows `rows` (numbers of rows), labels `times` and entries `x`. -/
noncomputable def rfRows (F : FloatOps) (rows : List ℕ) (times : ℕ → τ) (x : ℕ → ι → ℝ) : Frame τ ι (RF F) :=
  rows.map fun t => (times t, rfRow F (x t))

/-- The number by which the rounding errors of a half-life average are multiplied: a function of the half-life only. -/
noncomputable def errorFactor (h : ℝ) : ℝ := 500 * (1 + 1 / h) / (1 - (2 : ℝ) ^ (-1 / h)) ^ 2

/-- How accurate an arithmetic has to be for a half-life. -/
noncomputable def neededAccuracy (h : ℝ) : ℝ :=
  (2 : ℝ) ^ (-1 / h) * (1 - (2 : ℝ) ^ (-1 / h)) ^ 2 / (416 * (1 + 1 / h))

end CovPred
