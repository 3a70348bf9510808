import Verif.Spec.FactorModel
import Verif.Spec.ReturnCombination

/-
What the second example of the README computes for `T` rows of returns `x 0, ..., x (T-1)` with increasing labels `tm`.
-/
namespace CovPred

variable {τ : Type} [LinearOrder τ] {n K : ℕ}

/-- the weight, at row `t`, of row `u`: it halves every `h` rows back in time -/
noncomputable def halfWeight (h : ℝ) (t u : ℕ) : ℝ := (2 : ℝ) ^ (-((t - u : ℕ) : ℝ) / h)

/-- The unbiased covariance matrix of `x 0, ..., x t` with weights that halve every `h` rows back in time. -/
noncomputable def halflifeCov (h : ℝ) (x : ℕ → Vec n) (t : ℕ) : Mat n := Matrix.of fun i j =>
  (∑ u ∈ Finset.range (t + 1), halfWeight h t u *
      ((x u i - halflifeAverage h (fun s => x s i) t) * (x u j - halflifeAverage h (fun s => x s j) t))) /
    (∑ u ∈ Finset.range (t + 1), halfWeight h t u -
      (∑ u ∈ Finset.range (t + 1), halfWeight h t u ^ 2) / ∑ u ∈ Finset.range (t + 1), halfWeight h t u)

/-- the first row with an expert: `min_periods` rows, at least two -/
def readmeFirst (minPeriods : ℕ) : ℕ := max (minPeriods - 1) 1

/-- the window that is used: at most the rows with experts but one -/
def readmeWindow (minPeriods window T : ℕ) : ℕ := min window (T - readmeFirst minPeriods - 1)

/-- The log-likelihood of the returns of the `W` rows up to row `s`, each under the blend, with the weights `w`, of the
covariances of the row before. -/
noncomputable def covWindowLogLik (halflives : Fin K → ℝ) (x : ℕ → Vec n) (W s : ℕ) (w : Vec K) : ℝ :=
  ∑ u ∈ Finset.Ioc (s - W) s, gaussLogDensity 0 (blendCov (fun k => halflifeCov (halflives k) x (u - 1)) w) (x u)

/-- the experts and the returns of the rows from `readmeFirst` to `T - 1` -/
noncomputable def readmePanel (halflives : Fin K → ℝ) (minPeriods : ℕ) (tm : ℕ → τ) (x : ℕ → Vec n) (T : ℕ) : Panel τ n K where
  len := T - readmeFirst minPeriods
  time j := tm (readmeFirst minPeriods + j)
  cov j k := halflifeCov (halflives k) x (readmeFirst minPeriods + j)
  mean _ _ := 0
  ret j := x (readmeFirst minPeriods + j)

/-- the arguments the theorems are about -/
structure ReadmeSetup (solver : Solver n K) (halflives : Fin K → ℝ) (minPeriods window T : ℕ) (tm : ℕ → τ) : Prop where
  assets : 0 < n
  experts : 0 < K
  labels : Increasing T tm
  halflives : ∀ k, 0 < halflives k
  window_pos : 0 < window
  feasible : solver.Feasible
  /-- at least two rows with experts -/
  rows : readmeFirst minPeriods + 2 ≤ T

end CovPred
