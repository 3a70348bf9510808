import Verif.Model.Experiment
import Verif.Model.CmIewma

/-
Model of the way from a table of returns to a portfolio in `/repo/experiments/industry_portfolios.ipynb` (and, alike,
`factor_portfolios.ipynb`, `stock_portfolios.ipynb`): fit CM-IEWMA, cut the predictions at the dates of the backtest, run it.

Simplifications: as in `CmIewma` and `Experiment`; one predictor (the traders of the others do not matter, C106, C111).
-/
namespace CovPred

variable {τ : Type} [LinearOrder τ] {n : ℕ} {L : Type} [DecidableEq L]

/-- industry_portfolios.ipynb:162-174 (the fit), 223-224 (the cut), 669, 796, 988 and 1041 (the backtest): the trader of
CM-IEWMA, called `name`. The backtest is that of portfolio_backtests.py:82-265. -/
noncomputable def cmPortfolio (label : XR × XR → L) (solvers : Solvers n) (cvx : Cvx n) (pairs : List (XR × XR))
    (returns : Dict τ (Vec n)) (start stop : τ) (st : Strategy τ n) (name : String)
    (mv mc : ℕ := 63) (lamda : ℝ := 0.05) (window : ℕ := 10) : Except Err (DatedTrader τ n) := do
  let cm ← cmIewma label solvers pairs returns mv mc lamda window
  let b ← backtestInit (returns.map fun p => (p.1, fun i => some (p.2 i))) [betweenDates start stop cm] [name] none
    (some start) (some stop)
  let traders ← b.run cvx st
  getItem traders name

end CovPred
