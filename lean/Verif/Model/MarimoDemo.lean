import Verif.Model.FromEwmas

/-
Model of the demo notebook of the package, `/repo/book/marimo/demo.py`: returns from prices, `from_ewmas`, the table of
weights.

`pct_change` has its defaults; with the pandas of the lock file (2.2.3) missing prices are replaced by the last price before
them. (A pandas without that default would leave them missing.) Prices are numbers or missing; `nan` for missing.
-/
namespace CovPred

variable {τ : Type} [LinearOrder τ] {m n : ℕ} {L : Type} [DecidableEq L]

/-- a row without entries. (demo.py:35) -/
def missingRow : Arr (Fin m) XR := Arr.ofFn fun _ => XR.nan

/-- `prices.ffill()` after a row whose filled entries are `last`. (demo.py:35, inside `pct_change`) -/
def ffillRows : Arr (Fin m) XR → Frame τ (Fin m) XR → Frame τ (Fin m) XR
  | _, [] => []
  | last, (t, row) :: rest =>
    let row := Arr.ofFn fun i => if (row i).isNaN then last i else row i
    (t, row) :: ffillRows row rest

/-- `data / data.shift(1) - 1` after the row `prev`. (demo.py:35, inside `pct_change`) -/
noncomputable def changeRows : Arr (Fin m) XR → Frame τ (Fin m) XR → Frame τ (Fin m) XR
  | _, [] => []
  | prev, (t, row) :: rest => (t, Arr.ofFn fun i => row i / prev i - XR.fin 1) :: changeRows row rest

/-- `prices.pct_change()`. (demo.py:35) -/
noncomputable def pctChange (prices : Frame τ (Fin m) XR) : Frame τ (Fin m) XR :=
  changeRows missingRow (ffillRows missingRow prices)

/-- `prices.pct_change().dropna(axis=0, how="all")[columns]`. (demo.py:35) -/
noncomputable def demoReturns (columns : Fin n → Fin m) (prices : Frame τ (Fin m) XR) : Frame τ (Fin n) XR :=
  ((pctChange prices).filter fun p => !(p.2.all XR.isNaN)).map fun p => (p.1, Arr.ofFn fun i => p.2 (columns i))

/-- `result.time: result.weights`; `None` (a solver failure) has no attribute `time`. (demo.py:53) -/
def timeAndWeights : Option (EwmaResult L τ n) → Except Err (τ × List (L × ℝ))
  | none => .error .attributeError
  | some r => .ok (r.time, r.weights)

/-- the rows of the table of weights. (demo.py:53) -/
def weightRows (tr : Trace (EwmaResult L τ n)) : Except Err (Dict τ (List (L × ℝ))) :=
  match tr.items.mapM timeAndWeights, tr.err with
  | .error e, _ => .error e
  | .ok _, some e => .error e
  | .ok items, none => .ok (dictOf items)

/-- demo.py:35-53: the table `weights`, for any prices, columns ("GOOG", "AAPL", "FB" of 20 in the notebook), pairs
((10, 10), (21, 21), (21, 63)), `min_periods_vola` and `min_periods_cov` (20, the defaults, combination.py:103), clip bound
(4.2), `mean` (`True`) and window (10). -/
noncomputable def demoWeights (label : XR × XR → L) (solver : (K : ℕ) → Solver n K) (columns : Fin n → Fin m)
    (pairs : List (XR × XR)) (mv mc : Int) (clipAt : Option XR) (mean : Bool) (window : ℕ)
    (prices : Frame τ (Fin m) XR) : Except Err (Dict τ (List (L × ℝ))) := do
  let combinations ← fromEwmas label (demoReturns columns prices) pairs mv mc clipAt mean
  weightRows (combinations.solve solver (some window))

end CovPred
