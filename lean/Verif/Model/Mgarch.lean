import Verif.Model.ExpUtils
import Verif.Model.FromEwmas
import Verif.Model.Backtests

/-
Model of the cells that read the MGARCH predictors computed in R (`/repo/experiments/industry_portfolios.ipynb`,
`factor_portfolios.ipynb`, `stock_portfolios.ipynb`).

Simplifications: a csv file is the list of its rows of numbers (the row names and the header are not modelled; all files
have the same columns). The row and column names of the matrices are not modelled.
-/
namespace CovPred

variable {τ : Type} [DecidableEq τ] {n : ℕ}

/-- the value and the key of one item of the comprehension: `times[t]: pd.DataFrame(Sigmas[t], ...)`
(industry_portfolios.ipynb:152) -/
def mgarchItem (times : List τ) (sigmas : List (Mat n)) (t : ℕ) : Except Err (τ × Mat n) := do
  let time ← orIndexError times[t]?
  let S ← orIndexError sigmas[t]?
  pure (time, S)

/-- The cell (industry_portfolios.ipynb:139-152; with one file and no `pd.concat` factor_portfolios.ipynb:140-148,
stock_portfolios.ipynb:138-146). `pd.concat` of no frames raises `ValueError`. -/
noncomputable def mgarchTable (chunks : List (List (List ℝ))) (index : List τ) (n : ℕ) : Except Err (Dict τ (Mat n)) := do
  if chunks.length = 0 then throw .valueError
  let condCov := chunks.flatten
  let Ms ← fromRowMatrixToCovariance condCov n
  let sigmas := Ms.map fun S => (1 / 10000 : ℝ) • S
  let times := index.drop 249
  let items ← (List.range sigmas.length).mapM (mgarchItem times sigmas)
  pure (dictOf items)

end CovPred
