import Verif.Model.CmMean
import Verif.Model.YearlySR
import Verif.Model.Regrets

/-
Model of the cells of the notebooks that show the weights of the experts and the effective half-life, year by year:
`/repo/experiments/industry_portfolios.ipynb` lines 174, 251 and 275-277 (the same cells in stock_portfolios.ipynb 166,
242, 266-267, factor_portfolios.ipynb 168, 245, 290-291, extensions/nonzero_means.ipynb 149-152, 185, 209 and
extensions/realized_covariance.ipynb 100, 130). The plots are not modelled. Simplification: rows are labelled with the year; the
label of the code is the last day of the year, `lastDay` here.
-/
namespace CovPred

variable {τ : Type} [LinearOrder τ] {n K : ℕ}

/-- `list(....solve(...))` and `{result.time: result.weights for result in results}`. (industry_portfolios.ipynb:171, 174) -/
def weightsDict (tr : Trace (Result τ n K)) : Except Err (Dict τ (Vec K)) :=
  match tr.err with
  | some e => .error e
  | none => do
    let results ← tr.items.mapM theResult
    pure (dictOf (results.map fun r => (r.time, r.weights)))

/-- One column of the rows of a year. (industry_portfolios.ipynb:251) -/
def columnOfYear (year : τ → ℤ) (w : Dict τ (Vec K)) (y : ℤ) (k : Fin K) : List (Option ℝ) :=
  (w.filter fun p => year p.1 = y).map fun p => some (p.2 k)

/-- industry_portfolios.ipynb:251: `pd.DataFrame(weights).T.resample("Y").mean().loc[start_date:end_date]`. An empty frame has
no dates, `resample` raises `TypeError`. `none` is `nan`. -/
noncomputable def yearlyWeights (year : τ → ℤ) (lastDay : ℤ → τ) (w : Dict τ (Vec K)) (start stop : τ) :
    Except Err (List (ℤ × (Fin K → Option ℝ))) :=
  if w.length = 0 then .error .typeError
  else
    let means := (yearBins (w.map fun p => year p.1)).map fun y => (y, fun k => nanMean (columnOfYear year w y k))
    .ok (means.filter fun p => start ≤ lastDay p.1 ∧ lastDay p.1 ≤ stop)

/-- industry_portfolios.ipynb:275-276: `(yearly_weights * halflifes_vola).sum(axis=1)`; one half-life for each column, else
`ValueError`; `sum` leaves out `nan`. -/
noncomputable def effectiveHalflife (table : List (ℤ × (Fin K → Option ℝ))) (halflifes : List ℝ) : Except Err (List (ℤ × ℝ)) :=
  if halflifes.length ≠ K then .error .valueError
  else .ok (table.map fun p =>
    (p.1, ((List.finRange K).filterMap fun k => (p.2 k).map fun m => m * halflifes.getD k.1 0).sum))

/-- industry_portfolios.ipynb:277: `(yearly_weights * halflifes_vola).sum(axis=1).mean()` -/
noncomputable def meanHalflife (table : List (ℤ × (Fin K → Option ℝ))) (halflifes : List ℝ) : Except Err (Option ℝ) := do
  let rows ← effectiveHalflife table halflifes
  pure (nanMean (rows.map fun p => some p.2))

end CovPred
