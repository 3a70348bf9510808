import Verif.Model.Smoothing
import Verif.Model.Regrets

/-
Model of the cells of `/repo/experiments/extensions/smoothing.ipynb` that evaluate the smoothed covariances: how often they change
(lines 736-737) and the average regrets, divided by the one without smoothing (lines 248-256).

The names of the two lists of lines 736-737 are swapped: the means of the 0/1 lists `updates` are update frequencies, their reciprocals
the days per update (which is what the axis of the plot says).
-/
namespace CovPred

/-- `np.mean` of a list; `nan` without entries. (smoothing.ipynb:736) -/
noncomputable def updateMean (updates : List ℕ) : XR :=
  if updates.length = 0 then .nan else .fin ((updates.map fun u : ℕ => (u : ℝ)).sum / updates.length)

/-- smoothing.ipynb:736, `mean_days_between_updates`, the name notwithstanding: update frequencies, `1` for no smoothing -/
noncomputable def meanDaysBetweenUpdates (allUpdates : List (List ℕ)) : List XR := .fin 1 :: allUpdates.map updateMean

/-- smoothing.ipynb:737, `mean_updates_every`: the reciprocals (of NumPy numbers: `1/0` is `inf`) -/
noncomputable def meanUpdatesEvery (means : List XR) : List XR := means.map fun m => .fin 1 / m

/-- `Series.mean()`; `nan` without values. (smoothing.ipynb:250) -/
noncomputable def seriesMean (vs : List (Option ℝ)) : XR :=
  match nanMean vs with
  | none => .nan
  | some m => .fin m

/-- smoothing.ipynb:248-256, the normalised `avg_regrets`; `KeyError` without a series called `No smoothing` -/
noncomputable def normalisedRegrets (regrets : Dict String (List (Option ℝ))) : Except Err (Dict String XR) := do
  let avg := regrets.map fun p => (p.1, seriesMean p.2)
  let base ← getItem avg "No smoothing"
  pure (avg.map fun p => (p.1, p.2 / base))

end CovPred
