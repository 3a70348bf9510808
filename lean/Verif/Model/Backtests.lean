import Verif.Model.Trading
import Verif.Model.ExpUtils
import Verif.Model.FromEwmas

/-
Model of `/repo/experiments/utils/portfolio_backtests.py`: the pairing of predictions and returns, the five backtests and
the printed table, on top of the model of `trading_model.py`.

Simplifications: the index of the returns has distinct labels, all labels count as true (`start_date or ...`), all frames
have the same columns, expected returns and uncertainties are finite. The text formatting of numbers is not modelled.
-/
namespace CovPred
open Matrix

variable {τ : Type} [DecidableEq τ] {n : ℕ}

/-! ### `_get_causal` -/

/-- `frame.loc[start:stop]` for labels of the index: the rows from the one labelled `start` up to and including the one
labelled `stop`. (portfolio_backtests.py:19) -/
def locSlice {A : Type} (rows : List (τ × A)) (start stop : τ) : List (τ × A) :=
  (rows.take ((rows.map Prod.fst).idxOf stop + 1)).drop ((rows.map Prod.fst).idxOf start)

open Classical in
/-- `frame.dropna()` of one row: kept if nothing is missing. (portfolio_backtests.py:19) -/
noncomputable def dropnaRow (p : τ × NRow n) : Option (τ × Vec n) :=
  if ∀ i, (p.2 i).isSome then some (p.1, fun i => (p.2 i).getD 0) else none

/-- `d[t]` of a dictionary, and `frame.loc[t]`. (portfolio_backtests.py:20, 23) -/
def getItem {A : Type} (d : Dict τ A) (t : τ) : Except Err A :=
  match d.lookup t with
  | none => .error .keyError
  | some a => .ok a

/-- `{time: d[time] for time in times}`. (portfolio_backtests.py:20, 23) -/
def restrict {A : Type} (d : Dict τ A) (times : List τ) : Except Err (Dict τ A) :=
  times.mapM fun t => do
    let a ← getItem d t
    pure (t, a)

/-- what `_get_causal` returns. (portfolio_backtests.py:24, 26) -/
structure Causal (τ : Type) (n : ℕ) where
  returns : List (τ × Vec n)
  sigmas : Dict τ (Mat n)
  mus : Option (Dict τ (Vec n))

/-- portfolio_backtests.py:15-26, `_get_causal` -/
noncomputable def getCausal (returns : List (τ × NRow n)) (sigmas : Dict τ (Mat n)) (startDate endDate : τ)
    (mus : Option (Dict τ (Vec n)) := none) : Except Err (Causal τ n) := do
  let returnsTemp := (shiftBack (locSlice returns startDate endDate)).filterMap dropnaRow
  let sigmasTemp ← restrict sigmas (returnsTemp.map Prod.fst)
  match mus with
  | none => pure { returns := returnsTemp, sigmas := sigmasTemp, mus := none }
  | some mus => do
    let musTemp ← restrict mus (returnsTemp.map Prod.fst)
    pure { returns := returnsTemp, sigmas := sigmasTemp, mus := some musTemp }

/-! ### The constructor -/

/-- a `PortfolioBacktest` object. (portfolio_backtests.py:113-118) -/
structure Backtest (τ : Type) (n : ℕ) where
  returns : List (τ × NRow n)
  covPredictors : List (Dict τ (Mat n))
  names : List String
  meanPredictors : Option (List (Dict τ (Vec n)))
  startDate : τ
  endDate : τ

/-- `xs[i]` of the first or last key, `IndexError` if there is none. (portfolio_backtests.py:117-118, 242, 255) -/
def orIndexError {A : Type} : Option A → Except Err A
  | none => .error .indexError
  | some a => .ok a

/-- portfolio_backtests.py:83-118, `PortfolioBacktest.__init__`. After the loop of lines 105-106 the variable
`cov_predictor` is the last predictor; without predictors it is unbound (an exception, `other`). -/
def backtestInit (returns : List (τ × NRow n)) (covPredictors : List (Dict τ (Mat n))) (names : List String)
    (meanPredictors : Option (List (Dict τ (Vec n))) := none) (startDate endDate : Option τ := none) :
    Except Err (Backtest τ n) :=
  if ¬ ∀ c ∈ covPredictors, ∀ t ∈ c.keys, t ∈ returns.map Prod.fst then .error .assertionError
  else match covPredictors.getLast? with
    | none => .error .other
    | some last =>
      if ¬ ∀ ms, meanPredictors = some ms → ∀ m ∈ ms, ∀ t ∈ last.keys, t ∈ m.keys then .error .assertionError
      else if ¬ ∀ t, startDate = some t → t ∈ last.keys then .error .assertionError
      else if ¬ ∀ t, endDate = some t → t ∈ last.keys then .error .assertionError
      else do
        let s ← orIndexError (startDate.or last.keys.head?)
        let e ← orIndexError (endDate.or last.keys.getLast?)
        pure { returns := returns, covPredictors := covPredictors, names := names, meanPredictors := meanPredictors,
               startDate := s, endDate := e }

/-! ### The strategies -/

/-- The five classes, with the arguments of their method `backtest`. (portfolio_backtests.py:125-257) -/
inductive Strategy (τ : Type) (n : ℕ) where
  | eqWeighted
  | minRisk (cons : ExtraCons)
  | maxDiverse (cons : ExtraCons)
  | riskParity
  | meanVariance (cons : ExtraCons) (sigmaTar : ℝ) (rhos : Option (Dict τ (Vec n)))

/-- The argument `portfolio_type`. (portfolio_backtests.py:141, 164, 189, 213, 249) -/
def Strategy.ptype : Strategy τ n → PType
  | .eqWeighted => .eqWeighted
  | .minRisk _ => .minRisk
  | .maxDiverse _ => .maxDiverse
  | .riskParity => .riskParity
  | .meanVariance .. => .meanVariance

/-- cvxpy on the four problems of `Trader.backtest`: the value of the variable for the values of the parameters, or an
exception (also if the problem has no solution). The result is taken to be a function of the parameter values; `C82`
shows that the worker pool sets them as needed. The solve of the first problem before the pool starts is not
modelled. (trading_model.py:349, 475, 513 and the workers, 90-182) -/
structure Cvx (n : ℕ) where
  minRisk : ExtraCons → Mat n → Except Err (Vec n)
  maxDiverse : ℝ → Mat n → Vec n → Except Err (Vec n)
  riskParity : Mat n → Except Err (Vec n)
  meanVariance : ExtraCons → ℝ → Mat n → Vec n → Option (Vec n) → Except Err (Vec n × ℝ)

/-- The data of one date: covariance, whitener, expected returns, uncertainties. (trading_model.py:361-369,
438-451, 486-496) -/
structure DayData (n : ℕ) where
  sigma : Mat n
  LInv : Mat n
  mu : Option (Vec n)
  rho : Option (Vec n)

/-- trading_model.py:274-572 for one date, with `adjust_factor = 1`: the row of weights. -/
noncomputable def dayWeights (cvx : Cvx n) : Strategy τ n → DayData n → Except Err (List ℝ)
  | .eqWeighted, _ => .ok (List.ofFn fun _ : Fin n => (1 : ℝ) / n)
  | .minRisk cons, d => do
    let w ← cvx.minRisk cons d.LInv
    pure (List.ofFn w)
  | .maxDiverse cons, d =>
    match cons.upperBound with
    | none => .error .keyError
    | some M => do
      let z ← cvx.maxDiverse M d.LInv fun i => Real.sqrt (d.sigma i i)
      pure (List.ofFn (normalizeW z))
  | .riskParity, d => do
    let w ← cvx.riskParity d.LInv
    pure (List.ofFn (normalizeW w))
  | .meanVariance cons sigmaTar _, d =>
    match d.mu with
    | none => .error .assertionError
    | some mu => do
      let w ← cvx.meanVariance cons (sigmaTar * 1) d.LInv mu d.rho
      pure (List.ofFn w.1 ++ [w.2])

/-- A `Trader` with the labels of its rows. (trading_model.py:41-44) -/
structure DatedTrader (τ : Type) (n : ℕ) where
  dates : List τ
  trader : Trader n

/-- trading_model.py:268-272: `rhos.loc[self.returns.index]` -/
def rhosAt (rhos : Option (Dict τ (Vec n))) (times : List τ) : Except Err (List (Option (Vec n))) :=
  match rhos with
  | none => .ok (times.map fun _ => none)
  | some rhos => do
    let d ← restrict rhos times
    pure (d.map fun p => some p.2)

/-- the argument `rhos` of a strategy. (portfolio_backtests.py:238-254) -/
def Strategy.rhos : Strategy τ n → Option (Dict τ (Vec n))
  | .meanVariance _ _ rhos => rhos
  | _ => none

/-- the rows of the expected returns, if there are any. (portfolio_backtests.py:23) -/
def muRows (c : Causal τ n) : List (Option (Vec n)) :=
  match c.mus with
  | none => c.sigmas.map fun _ => none
  | some m => m.map fun p => some p.2

/-- The data of all dates, in order. (trading_model.py:438-451, 486-496) -/
def dayData (c : Causal τ n) (LInvs : List (τ × Mat n)) (rhos : List (Option (Vec n))) : List (DayData n) :=
  List.zipWith (fun (p : Mat n × Mat n) (q : Option (Vec n) × Option (Vec n)) => ⟨p.1, p.2, q.1, q.2⟩)
    (List.zip (c.sigmas.map Prod.snd) (LInvs.map Prod.snd))
    (List.zip (muRows c) rhos)

/-- portfolio_backtests.py:136-141, 159-167, 184-192, 209-213, 242-254: one predictor. Without a single date the
constructor of `Trader` (or, for one asset, `backtest`) raises an exception; which one is not modelled (`other`). -/
noncomputable def backtestOne (cvx : Cvx n) (st : Strategy τ n) (b : Backtest τ n) (sigmas : Dict τ (Mat n))
    (mus : Option (Dict τ (Vec n))) : Except Err (DatedTrader τ n) := do
  let c ← getCausal b.returns sigmas b.startDate b.endDate mus
  if c.returns = [] then .error .other
  else do
    let LInvs ← traderInit (c.returns.map Prod.fst) c.sigmas (c.mus.map Dict.keys)
    let rhos ← rhosAt st.rhos (c.returns.map Prod.fst)
    let ws ← (dayData c LInvs rhos).mapM (dayWeights cvx st)
    pure { dates := c.returns.map Prod.fst
           trader := { returns := c.returns.map Prod.snd, sigmas := c.sigmas.map Prod.snd, portfolioType := st.ptype,
                       adjustFactor := 1, ws := ws } }

/-- portfolio_backtests.py:242: the expected returns of predictor `i`, used by `MeanVariance` only -/
def meanPredictor (st : Strategy τ n) (b : Backtest τ n) (i : ℕ) : Except Err (Option (Dict τ (Vec n))) :=
  match st with
  | .meanVariance .. => match b.meanPredictors with
    | none => .error .typeError
    | some ms => do
      let m ← orIndexError ms[i]?
      pure (some m)
  | _ => .ok none

/-- one pass of the loop over the predictors: the name and the trader. (portfolio_backtests.py:134-143, 157-168,
182-193, 207-214, 241-255) -/
noncomputable def backtestItem (cvx : Cvx n) (st : Strategy τ n) (b : Backtest τ n) (p : Dict τ (Mat n) × ℕ) :
    Except Err (String × DatedTrader τ n) := do
  let mus ← meanPredictor st b p.2
  let tr ← backtestOne cvx st b p.1 mus
  let name ← orIndexError b.names[p.2]?
  pure (name, tr)

/-- portfolio_backtests.py:131-145, 154-170, 179-195, 204-216, 238-257: the methods `backtest` -/
noncomputable def Backtest.run (cvx : Cvx n) (st : Strategy τ n) (b : Backtest τ n) :
    Except Err (Dict String (DatedTrader τ n)) := do
  let items ← (b.covPredictors.zipIdx 0).mapM (backtestItem cvx st b)
  pure (dictOf items)

/-! ### The table -/

/-- One printed row: the name and the numbers (the first, second and fourth are percentages).
(portfolio_backtests.py:37-45) -/
structure TableRow where
  name : String
  meanReturn : ℝ
  risk : ℝ
  sharpe : ℝ
  drawdown : ℝ

/-- A line of the body of the table. (portfolio_backtests.py:37-46) -/
inductive TableLine where
  | row (r : TableRow)
  | hline

/-- portfolio_backtests.py:37-45, 49-57: a row -/
noncomputable def tableRow (name : String) (m : Metrics) : TableRow :=
  ⟨name, m.meanReturn * 100, m.risk * 100, m.sharpe, m.drawdown * 100⟩

/-- portfolio_backtests.py:29-59, `_create_table_helper`: the lines printed between `\midrule` and `\bottomrule`, and
the exception if one is raised. The name in the last row is the variable of the loop of line 35, after the loop. -/
noncomputable def createTableHelper (metrics : Dict String Metrics) (prescient : Bool := true) :
    List TableLine × Option Err :=
  let body := ((metrics.filter fun p => p.1 ≠ "PRESCIENT").map fun p => TableLine.row (tableRow p.1 p.2)) ++ [.hline]
  if prescient then
    match metrics.lookup "PRESCIENT" with
    | none => (body, some .keyError)
    | some m => match metrics.getLast? with
      | none => (body, some .other)
      | some p => (body ++ [.row (tableRow p.1 m)], none)
  else (body, none)

open Classical in
/-- portfolio_backtests.py:71-78: the metrics of one trader and its state after the call. The target `0` counts as
false, like `None`. -/
noncomputable def tableMetrics (sigmaTar : Option ℝ) (rf : Option (List ℝ)) (excess : Bool) (s : Trader n) :
    Except Err (Trader n × Metrics) :=
  match sigmaTar with
  | none => s.getMetrics (dilutedWithCash := false) (rf := rf) (excess := excess)
  | some x => if x = 0 then s.getMetrics (dilutedWithCash := false) (rf := rf) (excess := excess)
    else s.getMetrics (dilutedWithCash := true) (sigmaDes := some x) (rf := rf) (excess := excess)

/-- portfolio_backtests.py:62-79, `create_table`: the states of the traders after the call and what was printed.
Simplification: if a metric raises, the states are lost. -/
noncomputable def createTable (traders : Dict String (Trader n)) (sigmaTar : Option ℝ) (rf : Option (List ℝ))
    (excess : Bool) (prescient : Bool := true) :
    Except Err (Dict String (Trader n) × (List TableLine × Option Err)) := do
  let l ← traders.mapM fun p => do
    let m ← tableMetrics sigmaTar rf excess p.2
    pure (p.1, m)
  pure (l.map fun p => (p.1, p.2.1), createTableHelper (l.map fun p => (p.1, p.2.2)) prescient)

end CovPred
