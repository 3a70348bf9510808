import Verif.Model.Regrets

/-
Model of the cell that prints the quarterly mean squared errors of the predictors:
`/repo/experiments/industry_portfolios.ipynb:332-338` (the same cell is factor_portfolios.ipynb:345-350,
stock_portfolios.ipynb:321-327 and extensions/realized_covariance.ipynb:236-242).

Simplifications: the matrices have no `nan`s; the rounding of the printed numbers is not modelled.
-/
namespace CovPred

variable {τ : Type} [LinearOrder τ] {n : ℕ}

/-- What is printed for a predictor; `none` is `nan`. (industry_portfolios.ipynb:335-338) -/
structure MseRow where
  name : String
  mean : Option ℝ
  std : Option ℝ
  max : Option ℝ

/-- `Series.std()`, the sample standard deviation without the `nan`s; `nan` for less than two values.
(industry_portfolios.ipynb:337) -/
noncomputable def seriesStd (vs : List (Option ℝ)) : Option ℝ :=
  let xs := vs.filterMap id
  if xs.length ≤ 1 then none
  else (nanMean vs).map fun m => Real.sqrt ((xs.map fun x => (x - m) ^ 2).sum / ((xs.length : ℝ) - 1))

/-- industry_portfolios.ipynb:333: the quarterly means `MSE_temp`. The index of the errors of an empty predictor holds no dates:
`resample` raises `TypeError`. -/
noncomputable def mseQuarterly (c : Calendar τ) (returns : List (τ × NRow n)) (predictor : Dict τ (Mat n)) :
    Except Err (List (ℤ × Option ℝ)) := do
  let errors ← mse returns predictor
  if predictor.length = 0 then .error .typeError
  else pure (quarterlyMean c errors)

/-- One turn of the loop, industry_portfolios.ipynb:332-338; `names[i]` is read after the errors are computed. -/
noncomputable def mseItem (c : Calendar τ) (returns : List (τ × NRow n)) (names : List String) (p : Dict τ (Mat n) × ℕ) :
    Except Err MseRow := do
  let q ← mseQuarterly c returns p.1
  let name ← orIndexError names[p.2]?
  let vs := q.map Prod.snd
  pure { name := name, mean := nanMean vs, std := seriesStd vs, max := nanMax vs }

/-- industry_portfolios.ipynb:332-338: the rows that are printed and the exception that ends the cell, if any. -/
noncomputable def mseTable (c : Calendar τ) (returns : List (τ × NRow n)) (names : List String) :
    List (Dict τ (Mat n) × ℕ) → List MseRow × Option Err
  | [] => ([], none)
  | p :: ps =>
    match mseItem c returns names p with
    | .error e => ([], some e)
    | .ok row => (row :: (mseTable c returns names ps).1, (mseTable c returns names ps).2)

/-- industry_portfolios.ipynb:332-338: `enumerate(predictors)` -/
noncomputable def mseCell (c : Calendar τ) (returns : List (τ × NRow n)) (names : List String)
    (predictors : List (Dict τ (Mat n))) : List MseRow × Option Err :=
  mseTable c returns names predictors.zipIdx

end CovPred
