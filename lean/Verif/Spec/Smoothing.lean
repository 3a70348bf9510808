import Verif.Spec.Regularization

/-
Specification of the smoothing of a sequence of covariance matrices (property C135), in terms of matrices only.
-/
namespace CovPred

variable {n : ℕ}

/-- The Frobenius distance of two matrices. -/
noncomputable def dist2 (A B : Mat n) : ℝ := Real.sqrt (frob (A - B))

/-- The price of replacing the matrix `X` by `B` when the matrix used before is `Y`. -/
noncomputable def smoothCost (lamda : ℝ) (X Y B : Mat n) : ℝ := 1 / 2 * dist2 B X ^ 2 + lamda * dist2 B Y

/-- `Y` is the smoothed sequence of `X` up to time `T`: it starts at the same matrix, and every later matrix is cheaper
than ALL other matrices. -/
def L1Smoothed (lamda : ℝ) (T : ℕ) (X Y : ℕ → Mat n) : Prop :=
  Y 0 = X 0 ∧ ∀ t < T, ∀ B : Mat n, B ≠ Y (t + 1) →
    smoothCost lamda (X (t + 1)) (Y t) (Y (t + 1)) < smoothCost lamda (X (t + 1)) (Y t) B

end CovPred
