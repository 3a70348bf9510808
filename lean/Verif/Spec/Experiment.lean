import Verif.Model.Experiment
import Verif.Spec.PortfolioRun
import Verif.Props.Dilution

/-
The vocabulary of the theorems about the tables of the notebooks.
-/
namespace CovPred
open Matrix

variable {n : ℕ}

/-- The share of the money that goes into the portfolio `w`, the rest is cash, so that the predicted annual volatility is
`sigma`. -/
noncomputable def investedShare (sigma : ℝ) (S : Mat n) (w : Vec n) : ℝ := sigma / (Real.sqrt 252 * predictedStd S w)

/-- What such a position earns if the assets earn `r` and cash earns `rate`. -/
noncomputable def positionReturn (sigma : ℝ) (S : Mat n) (w r : Vec n) (rate : ℝ) : ℝ :=
  investedShare sigma S w * (w ⬝ᵥ r) + (1 - investedShare sigma S w) * rate

end CovPred
