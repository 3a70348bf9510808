import Verif.Model.ReturnCombination
import Verif.Spec.Backtests

/-
The vocabulary of the theorems about `return_combination.py` and `construct_rho`.
-/
namespace CovPred
open Matrix Finset

variable {τ : Type} {n K : ℕ}

/-- The weight of row `s` of `N` rows (the last one is the most recent): it halves every `hf` rows back in time, and the
weights sum to `N`. -/
noncomputable def recencyWeight (hf : ℝ) (N s : ℕ) : ℝ :=
  N * (2 : ℝ) ^ (-((N - 1 - s : ℕ) : ℝ) / hf) / ∑ u ∈ range N, (2 : ℝ) ^ (-(u : ℝ) / hf)

/-- The loss of the weighted ridge regression of `y` on the rows `X`: row `s` weighted by `b s`, the square of weight `k` by
`alpha * d k`. -/
noncomputable def ridgeLoss (N : ℕ) (b y : ℕ → ℝ) (X : ℕ → Vec K) (alpha : ℝ) (d w : Vec K) : ℝ :=
  ∑ s ∈ range N, b s * (y s - X s ⬝ᵥ w) ^ 2 + alpha * ∑ k, d k * w k ^ 2

/-- The loss of the lasso regression of `y` on the rows `X`. -/
noncomputable def lassoLoss (N : ℕ) (y : ℕ → ℝ) (X : ℕ → Vec K) (alpha : ℝ) (w : Vec K) : ℝ :=
  ∑ s ∈ range N, (y s - X s ⬝ᵥ w) ^ 2 + alpha * ∑ k, |w k|

/-- The average of `x 0, ..., x t` with weights that shrink by the factor `b` per row back in time. -/
noncomputable def decayAverage (b : ℝ) (x : ℕ → ℝ) (t : ℕ) : ℝ :=
  (∑ u ∈ range (t + 1), b ^ (t - u) * x u) / ∑ u ∈ range (t + 1), b ^ (t - u)

/-- The rows `p, ..., p + q - 1` of a table with labels `tm` -/
def blockDict {A : Type} (p q : ℕ) (tm : ℕ → τ) (v : ℕ → A) : Dict τ A := (List.range' p q).map fun t => (tm t, v t)

/-- The penalty of predictor `k` on row `t`: the average of its squares on the rows `p, ..., t - 1`. -/
noncomputable def penalty (x : ℕ → Vec K) (p t : ℕ) : Vec K := fun k =>
  decayAverage (250 / 251) (fun u => x (p + u) k ^ 2) (t - 1 - p)

/-- `w` is the solution of the ridge regression for row `t`: of the returns `y` on the predictions `x` of the `memory` rows
before `t`, weighted with half-life 500, with the penalty above. -/
def IsRidge (y : ℕ → ℝ) (x : ℕ → Vec K) (p memory : ℕ) (alpha : ℝ) (t : ℕ) (w : Vec K) : Prop :=
  ∀ v, ridgeLoss memory (recencyWeight 500 memory) (fun s => y (t - memory + s)) (fun s => x (t - memory + s)) alpha (penalty x p t) w
    ≤ ridgeLoss memory (recencyWeight 500 memory) (fun s => y (t - memory + s)) (fun s => x (t - memory + s)) alpha (penalty x p t) v

/-- An exact solver of the lasso problem -/
def LassoExact (solver : LassoSolver K) : Prop :=
  ∀ (N : ℕ) (y : ℕ → ℝ) (X : ℕ → Vec K) (alpha : ℝ) (w : Vec K), solver ((List.range N).map y) ((List.range N).map X) alpha = .ok w →
    ∀ v, lassoLoss N y X alpha w ≤ lassoLoss N y X alpha v

/-- The mean of all values on the rows `a, ..., a + N - 1` -/
noncomputable def panelMean (a N : ℕ) (v : ℕ → Vec n) : ℝ := (∑ t ∈ Ico a (a + N), ∑ i, v t i) / (N * n : ℕ)

/-- Their sum of squared deviations from the mean -/
noncomputable def panelSpread (a N : ℕ) (v : ℕ → Vec n) : ℝ := ∑ t ∈ Ico a (a + N), ∑ i, (v t i - panelMean a N v) ^ 2

/-- The correlation of two tables of values on those rows -/
noncomputable def panelCorr (a N : ℕ) (v u : ℕ → Vec n) : ℝ :=
  (∑ t ∈ Ico a (a + N), ∑ i, (v t i - panelMean a N v) * (u t i - panelMean a N u)) /
    Real.sqrt (panelSpread a N v * panelSpread a N u)

/-- The root of the mean squared difference of two tables of values on those rows -/
noncomputable def panelRmse (a N : ℕ) (v u : ℕ → Vec n) : ℝ := Real.sqrt (panelMean a N fun t i => (v t i - u t i) ^ 2)

/-- The unbiased variance of `x 0, ..., x t` with weights that halve every `h` rows back in time. -/
noncomputable def halflifeVariance (h : ℝ) (x : ℕ → ℝ) (t : ℕ) : ℝ :=
  (∑ u ∈ range (t + 1), (2 : ℝ) ^ (-((t - u : ℕ) : ℝ) / h) * (x u - halflifeAverage h x t) ^ 2) /
    (∑ u ∈ range (t + 1), (2 : ℝ) ^ (-((t - u : ℕ) : ℝ) / h) -
      (∑ u ∈ range (t + 1), ((2 : ℝ) ^ (-((t - u : ℕ) : ℝ) / h)) ^ 2) / ∑ u ∈ range (t + 1), (2 : ℝ) ^ (-((t - u : ℕ) : ℝ) / h))

end CovPred
