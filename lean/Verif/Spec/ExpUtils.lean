import Verif.Spec.Combination

/-
What the helpers of `/repo/experiments/utils/experiment_utils.py` are meant to compute, without reference to the model
of the code.
-/
namespace CovPred
open Matrix

variable {n : ℕ}

/-- `x xᵀ` -/
def dyad (x : Vec n) : Mat n := Matrix.of fun i j => x i * x j

/-- The mean of the outer products of the last `M` returns up to `t` (for `M ≤ t + 1`). -/
noncomputable def windowMean (r : ℕ → Vec n) (M t : ℕ) : Mat n :=
  (1 / (M : ℝ)) • ∑ s ∈ Finset.Icc (t + 1 - M) t, dyad (r s)

/-- The upper triangle of a matrix, row by row. -/
def upperRow (S : Mat n) : List ℝ :=
  (List.finRange n).flatMap fun i => ((List.finRange n).filter fun j => i ≤ j).map fun j => S i j

end CovPred
