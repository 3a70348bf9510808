import Verif.Model.Backtests

/-
Model of `Trader.backtest` of `/repo/experiments/utils/trading_model.py` as a method that changes the object: which
exceptions it raises and what it leaves behind, for all portfolio types; and of the worker functions of `mean_variance` and
`risk_parity`.

Not modelled: the solve before the worker pool starts (lines 349, 475, 513), cvxpy's numerics (a parameter), an effect of the
shared default of `cons` on a later call (see `Session`).
-/
namespace CovPred
open Matrix

variable {τ : Type} [DecidableEq τ] {n : ℕ}

/-! ### The workers of `mean_variance` and `risk_parity` -/

/-- The values of the parameters of the `mean_variance` problem: `L_inv_param`, `r_hat_param` (one entry per asset, then
cash) and `rho_param` (`none`: there is no such parameter, or it has no value). (trading_model.py:390-397) -/
structure MvParams (n : ℕ) where
  LInv : Mat n
  rHat : Fin (n + 1) → ℝ
  rho : Option (Vec n)

/-- The arguments of one call of `solve_mean_variance` that differ between the dates. (trading_model.py:441-450) -/
structure MvTask (n : ℕ) where
  LInv : Mat n
  rHat : Vec n
  rho : Option (Vec n)

/-- trading_model.py:125-143, `solve_mean_variance`: the parameter values when `prob.solve` is called. Line 142 binds the
name `r_hat_param` to another object; the parameter keeps its value. -/
def solveMeanVarianceParams (store : MvParams n) (task : MvTask n) : MvParams n :=
  let store := match task.rho with
    | none => store
    | some rho => { store with rho := some rho }
  let store := { store with LInv := task.LInv }
  { store with rHat := Fin.snoc (α := fun _ => ℝ) task.rHat 0 }

/-- trading_model.py:441-450: the tasks given to `pool.starmap` by `mean_variance`; `zip` stops at the shortest list. -/
def meanVarianceTasks (LInvs : List (Mat n)) (rHats : List (Vec n)) (rhos : List (Option (Vec n))) : List (MvTask n) :=
  List.zipWith (fun L (p : Vec n × Option (Vec n)) => ⟨L, p.1, p.2⟩) LInvs (List.zip rHats rhos)

/-- trading_model.py:110-123, `solve_risk_parity`: the value of `L_inv_param` when the problem is solved. -/
def solveRiskParityParam (_store : Mat n) (LInv : Mat n) : Mat n := LInv

/-! ### `backtest` as a method -/

/-- A `Trader` with the attributes its constructor sets: the labels of the rows, the whiteners and the expected returns.
(trading_model.py:41-76) -/
structure TraderObj (τ : Type) (n : ℕ) where
  dates : List τ
  LInvs : List (Mat n)
  rHats : Option (List (Vec n))
  trader : Trader n

/-- The arguments of `backtest` (trading_model.py:246-256), without `cons` -/
structure BacktestArgs (τ : Type) (n : ℕ) where
  portfolioType : PType := .minRisk
  sigmaDes : Option ℝ := none
  adjustFactor : ℝ := 1
  additonalCons : ExtraCons := {}
  cSpeedup : Bool := false
  kappa : Option ℝ := none
  rhos : Option (Dict τ (Vec n)) := none

/-- cvxpy on the problems of all portfolio types, see `Cvx`; for `robust_min_risk` it gets `kappa` and both parameters.
(trading_model.py:90-108) -/
structure CvxAll (n : ℕ) extends Cvx n where
  robust : ℝ → ExtraCons → RiskParams n → Except Err (Vec n)

/-- `np.sqrt(np.diag(Sigma))`, trading_model.py:50 -/
noncomputable def volas (S : Mat n) : Vec n := fun i => Real.sqrt (S i i)

/-- trading_model.py:341-369: the weights of `min_risk` and `vol_cont`. With `C_speedup` the global name `cpg_solve` is
used (lines 103, 321), which is not defined. -/
def minRiskWeights (cvx : CvxAll n) (a : BacktestArgs τ n) (LInvs : List (Mat n)) : Except Err (List (List ℝ)) :=
  if a.cSpeedup then .error .other
  else LInvs.mapM fun L => do
    let w ← cvx.minRisk a.additonalCons L
    pure (List.ofFn w)

/-- trading_model.py:274-570: the rows of weights computed for a portfolio type, or the exception. For `vol_cont` only what
happens before line 381. `rhos` are the rows of `self.rhos`. For other names (`mean_variance2` too) no branch is taken and
`ws` is unbound at line 572. -/
noncomputable def TraderObj.weights (cvx : CvxAll n) (o : TraderObj τ n) (a : BacktestArgs τ n)
    (rhos : List (Option (Vec n))) : Except Err (List (List ℝ)) :=
  match a.portfolioType with
  | .eqWeighted => .ok (o.dates.map fun _ => List.ofFn fun _ : Fin n => (1 : ℝ) / n)
  | .minRisk => minRiskWeights cvx a o.LInvs
  | .volCont => do
    let ws ← minRiskWeights cvx a o.LInvs
    match a.sigmaDes with
    | none => .error .assertionError
    | some _ => pure ws
  | .robustMinRisk =>
    match a.kappa with
    | none => .error .assertionError
    | some kappa =>
      if a.cSpeedup then .error .other
      else match o.trader.sigmas with
        | [] => .error .indexError
        | S0 :: _ => o.LInvs.mapM fun L => do
          let w ← cvx.robust kappa a.additonalCons ⟨L, volas S0⟩
          pure (List.ofFn w)
  | .meanVariance =>
    match o.rHats, a.sigmaDes with
    | some rHats, some sigmaDes =>
      (meanVarianceTasks o.LInvs rHats rhos).mapM fun t => do
        let w ← cvx.meanVariance a.additonalCons (sigmaDes * a.adjustFactor) t.LInv t.rHat t.rho
        pure (List.ofFn w.1 ++ [w.2])
    | _, _ => .error .assertionError
  | .maxDiverse =>
    match a.additonalCons.upperBound with
    | none => .error .keyError
    | some M => (List.zip o.LInvs o.trader.sigmas).mapM fun p => do
      let z ← cvx.maxDiverse M p.1 (volas p.2)
      pure (List.ofFn (normalizeW z))
  | .riskParity => o.LInvs.mapM fun L => do
    let w ← cvx.riskParity L
    pure (List.ofFn (normalizeW w))
  | .maxSharpe =>
    match o.rHats with
    | none => .error .assertionError
    | some _ => match a.additonalCons.upperBound with
      | none => .error .keyError
      | some _ => .error .attributeError
  | .meanVariance2 => .error .other
  | .other => .error .other

/-- trading_model.py:246-572, `backtest`, for an object with at least one row: the object after the call, and whether an
exception was raised. The attributes of lines 263-266 are set first, `self.ws` last; the flag of line 381 is set before
the weights with cash are computed, which always raises, see `volContShape`. -/
noncomputable def TraderObj.backtest (cvx : CvxAll n) (o : TraderObj τ n) (a : BacktestArgs τ n) :
    TraderObj τ n × Except Err Unit :=
  let o := { o with trader := { o.trader with portfolioType := a.portfolioType, adjustFactor := a.adjustFactor } }
  match rhosAt a.rhos o.dates with
  | .error e => (o, .error e)
  | .ok rhos =>
    match o.weights cvx a rhos with
    | .error e => (o, .error e)
    | .ok ws =>
      if a.portfolioType = .volCont then
        let r := o.trader.backtestVolCont a.adjustFactor ws
        ({ o with trader := r.1 }, r.2)
      else ({ o with trader := { o.trader with ws := ws } }, .ok ())

/-- A user's session with one object: calls of `backtest` in order; exceptions are caught. Result: the object and what
each call did. (trading_model.py:246-572) -/
noncomputable def TraderObj.backtests (cvx : CvxAll n) (o : TraderObj τ n) :
    List (BacktestArgs τ n) → TraderObj τ n × List (Except Err Unit)
  | [] => (o, [])
  | a :: as =>
    let r := o.backtest cvx a
    let rest := TraderObj.backtests cvx r.1 as
    (rest.1, r.2 :: rest.2)

end CovPred
