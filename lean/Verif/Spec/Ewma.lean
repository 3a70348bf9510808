import Verif.Num.XR
import Verif.Model.Arr
import Mathlib.Algebra.BigOperators.Group.Finset.Basic
import Mathlib.Analysis.SpecialFunctions.Pow.Real

/-
Independent vocabulary for the statements about `ewma.py`: finite data and exponentially weighted averages.
Nothing here refers to the model of the code.
-/
namespace CovPred
open Finset

/-- The half-life weighted average of `x 0, ..., x t`: an observation made `k` rows ago has weight
`2^(-k/h)`, and the weights are normalised to one. -/
noncomputable def halflifeAverage (h : ℝ) (x : ℕ → ℝ) (t : ℕ) : ℝ :=
  (∑ k ∈ range (t + 1), (2 : ℝ) ^ (-((t - k : ℕ) : ℝ) / h) * x k) /
    ∑ k ∈ range (t + 1), (2 : ℝ) ^ (-((t - k : ℕ) : ℝ) / h)

/-- A row of finite numbers. -/
noncomputable def finRow {ι : Type} [Ix ι] (x : ι → ℝ) : Arr ι XR := Arr.ofFn fun i => XR.fin (x i)

/-- The frame with the rows `rows` (numbers of rows), labels `times` and finite entries `x`. -/
noncomputable def finRows {τ ι : Type} [Ix ι] (rows : List ℕ) (times : ℕ → τ) (x : ℕ → ι → ℝ) :
    Frame τ ι XR := rows.map fun t => (times t, finRow (x t))

/-- The frame with the `T` rows `x 0, ..., x (T-1)` of finite numbers. -/
noncomputable def finFrame {τ ι : Type} [Ix ι] (T : ℕ) (times : ℕ → τ) (x : ℕ → ι → ℝ) : Frame τ ι XR :=
  finRows (List.range T) times x

/-- The row numbers from `min_periods - 1` on. -/
def rowsFrom (minPeriods : Int) (T : ℕ) : List ℕ :=
  (List.range T).filter fun t => minPeriods - 1 ≤ (t : Int)

/-- The labels of the first `T` rows are pairwise distinct. -/
def DistinctTimes {τ : Type} (T : ℕ) (times : ℕ → τ) : Prop :=
  ∀ j k, j < T → k < T → times j = times k → j = k

end CovPred
