import Verif.Model.Backtests

/-
Model of the cells of `/repo/experiments/industry_portfolios.ipynb` (and, alike, `factor_portfolios.ipynb`) that turn
covariance predictions into a printed table: the cut at the dates of the backtest, the risk-free series, the backtest, the
table.

Simplifications: as in `Backtests`; the cut does not change the order of the keys. `rf` is a series (in the notebooks a
frame with one column). The cells import `cvx.backtest.portfolios`, which is not in the repository; modelled are the
classes of the same names in `experiments/utils/portfolio_backtests.py` (imported from there in
industry_portfolios.ipynb:1509).
-/
namespace CovPred

variable {τ : Type} [LinearOrder τ] {n : ℕ}

/-- `{t: predictor[t] for t in predictor.keys() if t >= start_date and t <= end_date}` (industry_portfolios.ipynb:223-224,
factor_portfolios.ipynb:217-218) -/
def betweenDates (start stop : τ) (d : Dict τ (Mat n)) : Dict τ (Mat n) := d.filter fun p => p.1 ≥ start ∧ p.1 ≤ stop

/-- `rf = rf_rate.loc[start_date:end_date].iloc[:-1]` (industry_portfolios.ipynb:627-629, factor_portfolios.ipynb:669-671) -/
def notebookRf (rfRate : Dict τ ℝ) (start stop : τ) : Dict τ ℝ := (locSlice rfRate start stop).dropLast

/-- the argument `rf` of `create_table`: `rf` itself (industry_portfolios.ipynb:715, 744, 935) or
`rf.loc[traders[names[0]].returns.index]` (industry_portfolios.ipynb:821, 910, 1186). -/
def tableRf (byDates : Bool) (rf : Dict τ ℝ) (names : List String) (traders : Dict String (DatedTrader τ n)) :
    Except Err (List ℝ) :=
  if byDates then do
    let name ← orIndexError names.head?
    let tr ← getItem traders name
    let r ← restrict rf tr.dates
    pure (r.map Prod.snd)
  else .ok (rf.map Prod.snd)

/-- The cells from the predictors to the table (industry_portfolios.ipynb:217-224, 627-629, 669 or 796 or 988 or 1041, 715 or
821): the traders after it and what was printed. -/
noncomputable def experiment (cvx : Cvx n) (st : Strategy τ n) (returns : List (τ × NRow n)) (predictors : List (Dict τ (Mat n)))
    (names : List String) (start stop : τ) (rfRate : Dict τ ℝ) (sigmaTar : Option ℝ) (excess byDates prescient : Bool)
    (means : Option (List (Dict τ (Vec n))) := none) :
    Except Err (Dict String (Trader n) × (List TableLine × Option Err)) := do
  let b ← backtestInit returns (predictors.map (betweenDates start stop)) names means (some start) (some stop)
  let traders ← b.run cvx st
  let rf ← tableRf byDates (notebookRf rfRate start stop) names traders
  createTable (traders.map fun p => (p.1, p.2.trader)) sigmaTar (some rf) excess prescient

end CovPred
