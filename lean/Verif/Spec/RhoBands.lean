import Verif.Spec.Ewma
import Verif.Spec.FactorModel

/-
Vocabulary for forecasts built from several exponentially weighted averages.
-/
namespace CovPred

variable {n : ℕ}

/-- The forecast with half-life `h` made with the rows `0, ..., t`, for asset `i`. -/
noncomputable def ewmForecast (x : ℕ → Vec n) (h : ℝ) (t : ℕ) (i : Fin n) : ℝ := halflifeAverage h (fun s => x s i) t

end CovPred
