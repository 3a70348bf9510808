import Verif.Model.Trading
import Verif.Num.XR

/-
Model of `yearly_SR` of `/repo/experiments/utils/experiment_utils.py` with `plot=False`. Every label of the index has a
calendar year. Simplification: the result is labelled with the year, in the code with its last day.
-/
namespace CovPred

variable {τ : Type}

/-- `Series.mean()`; `nan` without values. (experiment_utils.py:54) -/
noncomputable def pdMean (l : List ℝ) : XR := if l = [] then .nan else .fin (l.sum / l.length)

/-- `Series.std()` (`ddof = 1`); `nan` for fewer than two values. (experiment_utils.py:55) -/
noncomputable def pdStd (l : List ℝ) : XR :=
  if l.length < 2 then .nan
  else .fin (Real.sqrt ((l.map fun x => (x - l.sum / l.length) ^ 2).sum / (l.length - 1)))

/-- the values of the rows of one year. (experiment_utils.py:52, 54-55) -/
def valuesOfYear (year : τ → ℤ) (rets : List (τ × ℝ)) (y : ℤ) : List ℝ :=
  (rets.filter fun p => year p.1 = y).map Prod.snd

/-- The bins of `resample("Y")`: all years from the first to the last one of the index. (experiment_utils.py:54-55) -/
def yearBins (years : List ℤ) : List ℤ :=
  match years.min?, years.max? with
  | some a, some b => (List.range (b - a + 1).toNat).map fun k : ℕ => a + k
  | _, _ => []

/-- experiment_utils.py:48-57, 69, `yearly_SR(trader, plot=False)`: `index` is the index of the returns, `rets` the flattened
array of portfolio returns. `pd.Series` needs equal lengths (`ValueError`). -/
noncomputable def yearlySR (year : τ → ℤ) (index : List τ) (rets : List ℝ) : Except Err (List (ℤ × XR)) :=
  if rets.length ≠ index.length then .error .valueError
  else
    let rets := List.zip index rets
    let rets := rets.filter fun p => 100 < (valuesOfYear year rets (year p.1)).length
    .ok ((yearBins (rets.map fun p => year p.1)).map fun y =>
      let mean := pdMean (valuesOfYear year rets y) * .fin 252
      let std := pdStd (valuesOfYear year rets y) * .fin (Real.sqrt 252)
      (y, mean / std))

end CovPred
