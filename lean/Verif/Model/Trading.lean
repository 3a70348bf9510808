import Verif.Model.LinAlg
import Verif.Model.Combination
import Mathlib.Analysis.SpecialFunctions.Log.Basic
import Mathlib.Analysis.SpecialFunctions.Pow.Real
import Mathlib.Analysis.Real.Sqrt

/-
Model of `/repo/experiments/utils/trading_model.py` in exact real arithmetic: the whiteners, the objects handed to
cvxpy, and the bookkeeping of a `Trader` after a backtest.

Not modelled here: `construct_rho` (see `ReturnCombination`), the `C_speedup` branch (see `TradingCalls`), cvxpy's numerics,
the asset labels, and non-finite values.
-/
namespace CovPred
open Matrix

variable {τ : Type} [DecidableEq τ] {n : ℕ}

/-- trading_model.py:11-13, `_get_L_inv` -/
noncomputable def getLInv (covariance : Mat n) : Except Err (Mat n) := do
  let Theta ← inv? covariance
  let L ← chol? Theta
  inv? L

/-- The risk expression of all portfolio problems (trading_model.py:294, 394, 466, 507):
`cp.norm2(cp.sum(cp.multiply(L_inv_param, w.T), axis=1))`. -/
noncomputable def riskExpr (LInv : Mat n) (w : Vec n) : ℝ := Real.sqrt (∑ i, (∑ j, LInv i j * w j) ^ 2)

/-! ### The constructor -/

/-- trading_model.py:32-76, the checks and factors of `Trader.__init__`: the whiteners in the order of the index.
`returns` are the index labels, `sigmas` the items of the dictionary, `rHats` the index labels of the expected returns
(the columns are taken to agree). With `rhos` given the constructor reads the attribute `self.rhos`, which does not
exist yet. -/
noncomputable def traderInit (returns : List τ) (sigmas : List (τ × Mat n)) (rHats : Option (List τ) := none)
    (rhosGiven : Bool := false) : Except Err (List (τ × Mat n)) :=
  if returns ≠ sigmas.map Prod.fst then .error .assertionError
  else if rHats.isSome ∧ rHats ≠ some returns then .error .assertionError
  else if rhosGiven then .error .attributeError
  else sigmas.mapM fun p => do
    let L ← getLInv p.2
    pure (p.1, L)

/-! ### The problems -/

/-- The keys of `additonal_cons` (sic). (trading_model.py:252, 325-332) -/
structure ExtraCons where
  shortLim : Option ℝ := some (16 / 10)
  upperBound : Option ℝ := some (15 / 100)
  lowerBound : Option ℝ := some (-10 / 100)

/-- trading_model.py:323-332: the constraints a `min_risk`, `vol_cont` or `robust_min_risk` backtest adds on its own
variable `w`. -/
def minRiskCons (a : ExtraCons) (w : Vec n) : Prop :=
  ∑ i, w i = 1 ∧ (∀ s, a.shortLim = some s → ∑ i, |w i| ≤ s) ∧ (∀ u, a.upperBound = some u → ∀ i, w i ≤ u) ∧
    ∀ l, a.lowerBound = some l → ∀ i, l ≤ w i

/-- trading_model.py:385-412: the constraints a `mean_variance` backtest adds on its own variable, the weights `w` of the
assets and `c` of cash. `LInv` is the value of its parameter, `sigmaDes` the argument of the call. -/
def meanVarianceCons (a : ExtraCons) (adjustFactor sigmaDes : ℝ) (LInv : Mat n) (w : Vec n) (c : ℝ) : Prop :=
  ∑ i, w i + c = 1 ∧ riskExpr LInv w ≤ sigmaDes * adjustFactor / Real.sqrt 252 ∧
    (∀ s, a.shortLim = some s → ∑ i, |w i| ≤ s) ∧ (∀ u, a.upperBound = some u → ∀ i, w i ≤ u) ∧
    ∀ l, a.lowerBound = some l → ∀ i, l ≤ w i

/-- trading_model.py:396-400, 141, the objective of `mean_variance` (maximised); the expected return of cash is the 0 stacked
below the expected returns. -/
def meanVarianceRet (rHat : Vec n) (rho : Option (Vec n)) (w : Vec n) (c : ℝ) : ℝ :=
  (∑ i, rHat i * w i + 0 * c) - match rho with
    | none => 0
    | some rho => ∑ i, rho i * |w i|

/-- A value for every cvxpy variable; variables are numbered in the order of their creation, and a value is a list of
weights. (trading_model.py:283, 389) -/
abbrev Assignment := ℕ → List ℝ

/-- A list of cvxpy constraints, the object bound to `cons`. (trading_model.py:249, 324) -/
abbrev ConsList := List (Assignment → Prop)

/-- The interpreter state of one session that matters for `cons`: the number of the next variable and the contents of
the default list of `backtest` (trading_model.py:249), which is created once, when the function is defined. -/
structure Session where
  next : ℕ := 0
  default : ConsList := []

/-- trading_model.py:323-337 and 402-415: a call of `backtest` without the argument `cons`, for the portfolio types that
extend it. The new variable is `next`, the block `b` of constraints on its value is added by `cons += [...]`, which
extends the default list itself. Result: the state after the call and the constraints of the problem.
Simplification: the block counts as one constraint. -/
def Session.backtest (s : Session) (b : List ℝ → Prop) : Session × ConsList :=
  let cons := s.default ++ [fun v => b (v s.next)]
  ({ next := s.next + 1, default := cons }, cons)

/-- Several calls without the argument `cons`, in order. (trading_model.py:246-256) -/
def Session.run (s : Session) : List (List ℝ → Prop) → Session
  | [] => s
  | b :: bs => (s.backtest b).1.run bs

/-- A value of the variable `x` is feasible for a problem if some values of all the variables satisfy its
constraints. (trading_model.py:337, 415) -/
def FeasibleFor (cons : ConsList) (x : ℕ) (w : List ℝ) : Prop := ∃ v : Assignment, v x = w ∧ ∀ c ∈ cons, c v

/-- the block of a `min_risk`, `vol_cont` or `robust_min_risk` backtest on `n` assets, on the value of its
variable. (trading_model.py:324-332) -/
def minRiskBlock (n : ℕ) (a : ExtraCons) (l : List ℝ) : Prop := ∃ w : Vec n, l = List.ofFn w ∧ minRiskCons a w

/-- The values of the two parameters of a problem: `L_inv_param` and `sigma_hat_param` (or `sigma_param`).
(trading_model.py:284, 289, 462-463) -/
structure RiskParams (n : ℕ) where
  LInv : Mat n
  sigma : Vec n

/-- trading_model.py:90-108, `solve_min_risk`: the parameter values when `prob.solve` is called. The values not set stay
what they are. -/
def solveMinRiskParams (store : RiskParams n) (LInv : Mat n) (sigma : Option (Vec n) := none) : RiskParams n :=
  { LInv := LInv, sigma := sigma.getD store.sigma }

/-- trading_model.py:165-182, `solve_max_diverse`: both parameters are set. -/
def solveMaxDiverseParams (_store : RiskParams n) (LInv : Mat n) (sigma : Vec n) : RiskParams n :=
  { LInv := LInv, sigma := sigma }

/-- trading_model.py:361-369: the tasks given to `pool.starmap` by `min_risk`, `vol_cont` and `robust_min_risk`. `zip`
stops at the shortest list, of length `T`; the volatilities are not an argument of `zip` but two more elements of the
list of whiteners (`none`: an element of that list which is not a matrix), so no call gets volatilities. -/
def minRiskTasks (LInvs : List (Mat n)) : List (Option (Mat n)) :=
  ((LInvs.map some) ++ [none, none]).take LInvs.length

/-- `pool.starmap` (trading_model.py:361, 486): the tasks are cut into chunks of some size; every chunk is sent to a
worker process which works on it in order, on its own copies of the problem and of the parameters. The result of
a task is a function of the parameter values at the time it solves the problem. `step` sets them. -/
def runChunk {σ α β : Type} (solve : σ → β) (step : σ → α → σ) :
    σ → List α → List β
  | _, [] => []
  | store, a :: l => solve (step store a) :: runChunk solve step (step store a) l

/-- The results of all the chunks, each worked on with a copy of the same initial parameter values.
(trading_model.py:360-371) -/
def runPool {σ α β : Type} (solve : σ → β) (step : σ → α → σ) (store : σ)
    (chunks : List (List α)) : List β := (chunks.map (runChunk solve step store)).flatten

/-- trading_model.py:339-369: the parameter values with which a `robust_min_risk` backtest solves the problems of the
dates, in the order of the dates, for a way to cut the tasks into chunks. The initial values are those of the first date
(lines 346-348). -/
def robustPool {β : Type} (solve : RiskParams n → β) (store : RiskParams n) (chunks : List (List (Option (Mat n)))) :
    List β :=
  runPool solve (fun st o => match o with
    | some L => solveMinRiskParams st L
    | none => st) store chunks

/-- The risk minimised by `robust_min_risk` (trading_model.py:290-292) with given parameter values -/
noncomputable def robustRisk (kappa : ℝ) (p : RiskParams n) (w : Vec n) : ℝ :=
  riskExpr p.LInv w + kappa * (∑ i, p.sigma i * |w i|) ^ 2

/-- trading_model.py:468-469, the constraints of `max_diverse` -/
structure DiverseFeasible (M : ℝ) (sigma : Vec n) (z : Vec n) : Prop where
  nonneg : ∀ i, 0 ≤ z i
  upper : ∀ i, z i ≤ M * ∑ j, z j
  unit : ∑ i, sigma i * z i = 1

/-- `z` solves the problem of trading_model.py:465-470. -/
def DiverseOptimal (LInv : Mat n) (M : ℝ) (sigma : Vec n) (z : Vec n) : Prop :=
  DiverseFeasible M sigma z ∧ ∀ z', DiverseFeasible M sigma z' → riskExpr LInv z ≤ riskExpr LInv z'

/-- `w.value / np.sum(w.value)`, trading_model.py:121, 181, 205 -/
noncomputable def normalizeW (z : Vec n) : Vec n := fun i => z i / ∑ j, z j

/-- trading_model.py:507-508, the objective of `risk_parity`: `1/2 * risk - log(geo_mean(w))`, on positive weights. -/
noncomputable def parityObjective (LInv : Mat n) (w : Vec n) : ℝ :=
  1 / 2 * riskExpr LInv w - Real.log ((∏ i, w i) ^ ((1 : ℝ) / n))

/-- `w` solves that problem; the logarithm restricts it to positive weights. (trading_model.py:503-508) -/
def ParityOptimal (LInv : Mat n) (w : Vec n) : Prop :=
  (∀ i, 0 < w i) ∧ ∀ w', (∀ i, 0 < w' i) → parityObjective LInv w ≤ parityObjective LInv w'

/-! ### A trader after `backtest` -/

/-- `portfolio_type`. (trading_model.py:248, 274-528, 583-585) -/
inductive PType where
  | eqWeighted | minRisk | volCont | robustMinRisk | meanVariance | meanVariance2 | maxDiverse | riskParity | maxSharpe
  | other
  deriving DecidableEq

/-- The attributes of a `Trader` that the methods after `backtest` read and write. A row of weights has one entry per
asset, and one more for cash for the portfolio types that trade it. (trading_model.py:41-44, 225-226, 234, 244,
263-266, 572, 599, 609) -/
structure Trader (n : ℕ) where
  returns : List (Vec n)
  sigmas : List (Mat n)
  portfolioType : PType
  adjustFactor : ℝ := 1
  ws : List (List ℝ)
  diluted : Bool := false
  wsDiluted : Option (List (List ℝ)) := none
  rets : List ℝ := []
  retsAdjusted : List ℝ := []
  Vs : List ℝ := []
  VsAdjusted : List ℝ := []

/-- the first `n` entries of a row. (trading_model.py:219) -/
def firstN (n : ℕ) (w : List ℝ) : Vec n := fun i => (w[i.1]?).getD 0

/-- trading_model.py:216-223, one row of `dilute_with_cash` -/
noncomputable def diluteRow (sigmaDes : ℝ) (Sigma : Mat n) (w : List ℝ) : List ℝ :=
  let sigmaHat := Real.sqrt (firstN n w ⬝ᵥ (Sigma *ᵥ firstN n w))
  let theta := Real.sqrt (1 / 252) * (sigmaDes / sigmaHat)
  w.map (theta * ·) ++ [1 - theta]

/-- trading_model.py:208-226, `dilute_with_cash`; for rows with positive predicted risk. -/
noncomputable def Trader.diluteWithCash (s : Trader n) (sigmaDes : ℝ := 1 / 10) : Trader n :=
  if s.diluted then s
  else { s with
    wsDiluted := some (List.zipWith (diluteRow sigmaDes) s.sigmas s.ws)
    diluted := true }

/-- trading_model.py:147-163, `get_vol_cont_w`, for one row: the weights, the objective value (the risk) -/
noncomputable def volContRow (adjustFactor sigmaDes : ℝ) (w : List ℝ) (obj : ℝ) : List ℝ :=
  let sigma := sigmaDes * Real.sqrt adjustFactor / Real.sqrt 252
  let wCash := 1 - sigma / obj
  w.map ((1 - wCash) * ·) ++ [wCash]

/-- The end of every call of `backtest` that succeeds (trading_model.py:263-266, 572): the attributes it sets. The flag
`diluted` and the diluted weights of an earlier call stay. -/
def Trader.setBacktest (s : Trader n) (portfolioType : PType) (adjustFactor : ℝ) (ws : List (List ℝ)) : Trader n :=
  { s with portfolioType := portfolioType, adjustFactor := adjustFactor, ws := ws }

/-- The shape of numpy broadcasting of two arrays, given from the last axis to the first. (trading_model.py:160-161) -/
def broadcastRev : List ℕ → List ℕ → Except Err (List ℕ)
  | [], b => .ok b
  | a, [] => .ok a
  | x :: a, y :: b => do
    let r ← broadcastRev a b
    if x = y then pure (x :: r) else if x = 1 then pure (y :: r) else if y = 1 then pure (x :: r)
    else .error .valueError

/-- The shape of a product of two arrays. (trading_model.py:161) -/
def broadcast (a b : List ℕ) : Except Err (List ℕ) := do
  let r ← broadcastRev a.reverse b.reverse
  pure r.reverse

/-- The shape of `np.hstack([a, b])` for arrays with at least two axes: they are joined along the second one, so they
need the same number of axes and equal lengths along the others. (trading_model.py:163) -/
def hstackShape : List ℕ → List ℕ → Except Err (List ℕ)
  | x :: y :: a, x' :: y' :: b => if x = x' ∧ a = b then .ok (x :: (y + y') :: a) else .error .valueError
  | _, _ => .error .valueError

/-- trading_model.py:373-382 with 147-163, the shapes in a `vol_cont` backtest of `T` dates: every `w.value` has shape
`(n, 1)`, so `ws` has shape `(T, n, 1)`; `w_cash` has shape `(T, 1)`. -/
def volContShape (T n : ℕ) : Except Err (List ℕ) := do
  let ws ← broadcast [T, 1] [T, n, 1]
  hstackShape ws [T, 1]

/-- trading_model.py:379-382: the state left by a `vol_cont` backtest and its outcome. The flag is set before the
weights are computed; if that raises, `self.ws` is not set. `ok` stands for the weights if no exception is raised. -/
def Trader.backtestVolCont (s : Trader n) (adjustFactor : ℝ) (ok : List (List ℝ)) : Trader n × Except Err Unit :=
  let s := { s with portfolioType := .volCont, adjustFactor := adjustFactor, diluted := true }
  match volContShape s.returns.length n with
  | .error e => (s, .error e)
  | .ok _ => ({ s with ws := ok }, .ok ())

/-- `np.dot(w_t, r_t)`, which needs equal lengths (`ValueError`). (trading_model.py:598) -/
def npDot (w r : List ℝ) : Except Err ℝ :=
  if w.length = r.length then .ok (List.zipWith (· * ·) w r).sum else .error .valueError

/-- trading_model.py:593-597, the return of cash in row `t`: 0 without a risk-free series, else `rf.iloc[t]`, which is the
entry at position `t` (whatever its label) and raises `IndexError` beyond the end. -/
def cashReturn (rf : Option (List ℝ)) (t : ℕ) : Except Err ℝ :=
  match rf with
  | none => .ok 0
  | some rf => match rf[t]? with
    | none => .error .indexError
    | some f => .ok f

/-- trading_model.py:578-598, the loop of `get_total_returns` from row `t` on: the state and the list `rets` so far. -/
noncomputable def totalReturnsLoop (dilutedWithCash : Bool) (sigmaDes : Option ℝ) (rf : Option (List ℝ)) :
    List (Vec n) → ℕ → Trader n → List ℝ → Except Err (Trader n × List ℝ)
  | [], _, s, acc => .ok (s, acc)
  | r :: rest, t, s, acc => do
    let w := (s.ws[t]?).getD []
    let rl := List.ofFn r
    let (s, w, rl) ←
      if s.portfolioType = .volCont ∨ s.portfolioType = .meanVariance ∨ s.portfolioType = .meanVariance2
          ∨ dilutedWithCash then do
        let (s, w) ←
          if dilutedWithCash then do
            let s ← if s.diluted then pure s
              else match sigmaDes with
                | none => .error .assertionError
                | some x => pure (s.diluteWithCash x)
            match s.wsDiluted with
            | none => .error .attributeError
            | some wd => pure (s, (wd[t]?).getD [])
          else pure (s, w)
        let c ← cashReturn rf t
        pure (s, w, rl ++ [c])
      else pure (s, w, rl)
    let x ← npDot w rl
    totalReturnsLoop dilutedWithCash sigmaDes rf rest (t + 1) s (acc ++ [x])

/-- trading_model.py:574-599, `get_total_returns` -/
noncomputable def Trader.getTotalReturns (s : Trader n) (dilutedWithCash : Bool := false) (sigmaDes : Option ℝ := none)
    (rf : Option (List ℝ) := none) : Except Err (Trader n) := do
  let (s, rets) ← totalReturnsLoop dilutedWithCash sigmaDes rf s.returns 0 s []
  pure { s with rets := rets }

/-- trading_model.py:606-609: the values after the first one. -/
noncomputable def growth (adjustFactor : ℝ) (rets : List ℝ) : List ℝ :=
  (rets.foldl (fun (acc : List ℝ × ℝ) r => (acc.1 ++ [acc.2 * (1 + r / adjustFactor)], acc.2 * (1 + r / adjustFactor)))
    ([], 1)).1

/-- trading_model.py:601-609, `get_portfolio_growth` -/
noncomputable def Trader.getPortfolioGrowth (s : Trader n) : Trader n := { s with Vs := growth s.adjustFactor s.rets }

open Classical in
/-- trading_model.py:615-623, the loop of `compute_max_drawdown`: the running peak and the largest drawdown. -/
noncomputable def drawdownLoop : List ℝ → ℝ → ℝ → ℝ
  | [], _, maxDD => maxDD
  | V :: rest, peak, maxDD =>
    let peak := if V > peak then V else peak
    let dd := (peak - V) / peak
    drawdownLoop rest peak (if dd > maxDD then dd else maxDD)

/-- trading_model.py:611-623, `compute_max_drawdown`; `self.Vs[0]` of an empty history raises `IndexError`. -/
noncomputable def maxDrawdown (Vs : List ℝ) : Except Err ℝ :=
  match Vs with
  | [] => .error .indexError
  | V0 :: _ => .ok (drawdownLoop Vs V0 0)

/-- `np.mean`. (trading_model.py:646, 651) -/
noncomputable def npMean (l : List ℝ) : ℝ := l.sum / l.length

/-- `np.std` (`ddof = 0`). (trading_model.py:232, 647, 652) -/
noncomputable def npStd (l : List ℝ) : ℝ := Real.sqrt (npMean (l.map fun x => (x - npMean l) ^ 2))

/-- trading_model.py:228-234, `get_risk_adj_returns` -/
noncomputable def Trader.getRiskAdjReturns (s : Trader n) (sigmaDes : ℝ := 1 / 10) : Trader n :=
  let a := sigmaDes / (Real.sqrt 252 * npStd s.rets)
  { s with retsAdjusted := s.rets.map (a * ·) }

/-- trading_model.py:236-244, `get_risk_adj_portfolio_growth` -/
noncomputable def Trader.getRiskAdjPortfolioGrowth (s : Trader n) (sigmaDes : ℝ := 1 / 10) : Trader n :=
  let s := s.getRiskAdjReturns sigmaDes
  { s with VsAdjusted := growth s.adjustFactor s.retsAdjusted }

/-- trading_model.py:16, `metrics` -/
structure Metrics where
  meanReturn : ℝ
  risk : ℝ
  sharpe : ℝ
  drawdown : ℝ

/-- trading_model.py:625-657, `get_metrics`: the state after it and the result. Simplification: numpy would also
broadcast a risk-free series of length 1. -/
noncomputable def Trader.getMetrics (s : Trader n) (dilutedWithCash : Bool := false) (sigmaDes : Option ℝ := some (1 / 10))
    (rf : Option (List ℝ) := none) (excess : Bool := false) : Except Err (Trader n × Metrics) := do
  let s ← s.getTotalReturns dilutedWithCash sigmaDes rf
  let s := s.getPortfolioGrowth
  let (mean, stdev) ←
    if excess then
      match rf with
      | none => .error .assertionError
      | some rf =>
        if rf.length ≠ s.rets.length then .error .valueError
        else
        let ex := List.zipWith (fun x f => x / s.adjustFactor - f) s.rets rf
        pure (npMean ex * 252, npStd s.rets * Real.sqrt 252)
    else
      let adj := s.rets.map (· / s.adjustFactor)
      pure (npMean adj * 252, npStd adj * Real.sqrt 252)
  let dd ← maxDrawdown s.Vs
  pure (s, { meanReturn := mean, risk := stdev, sharpe := mean / stdev, drawdown := dd })

end CovPred
