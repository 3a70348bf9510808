import Verif.Spec.Combination

/-
Specification for the prescient predictor (properties C140-C142): sample moments and likelihoods of a list of returns.
-/
namespace CovPred

variable {n : ℕ}

/-- The dates `(year, month)` lie in the same calendar quarter: January-March, April-June, July-September or
October-December of the same year. -/
def SameQuarter (a b : ℤ × ℤ) : Prop :=
  a.1 = b.1 ∧ ∃ q ∈ ({0, 3, 6, 9} : Set ℤ), (q + 1 ≤ a.2 ∧ a.2 ≤ q + 3) ∧ (q + 1 ≤ b.2 ∧ b.2 ≤ q + 3)

/-- The mean of the returns. -/
noncomputable def rowMean (rs : List (Vec n)) : Vec n := fun i => (rs.map fun r => r i).sum / rs.length

/-- The second moment matrix of the returns, the mean of `r rᵀ`. -/
noncomputable def secondMoment (rs : List (Vec n)) : Mat n :=
  Matrix.of fun i j => (rs.map fun r => r i * r j).sum / rs.length

/-- The unbiased sample covariance of the returns. -/
noncomputable def sampleCov (rs : List (Vec n)) : Mat n :=
  Matrix.of fun i j => (rs.map fun r => (r i - rowMean rs i) * (r j - rowMean rs j)).sum / (rs.length - 1)

/-- The log-likelihood of independent returns under the normal distribution with mean `mu` and covariance `S`. -/
noncomputable def gaussLogLik (mu : Vec n) (S : Mat n) (rs : List (Vec n)) : ℝ := (rs.map (gaussLogDensity mu S)).sum

end CovPred
