import Verif.Model.FactorModel

/-
Model of the cell that fits CM-IEWMA in the experiment notebooks, and of `fit_cm_iewma`, which the sampling
experiment calls: `/repo/experiments/extensions/generative_mode.ipynb:241-256` (`run_sampling_experiment` is in Model/Generative). The same cell
is in `factor_portfolios.ipynb:156-168`, `industry_portfolios.ipynb:162-174`, `stock_portfolios.ipynb:154-166`,
`extensions/smoothing.ipynb:48-60`, `extensions/realized_covariance.ipynb:70-82`, `extensions/nonzero_means.ipynb:88-97`
(and 949-958 with `min_periods` 1 and 6) and, without the regularisation (here `lamda = 0`) and with `min_periods` 63 and
250, in `extensions/large_universes.ipynb:74-80`. Line numbers are those of the notebook files.

The returns have no missing entries. Not modelled: the numerics of cvxpy, a parameter.
-/
namespace CovPred

variable {τ : Type} [LinearOrder τ] {n : ℕ} {L : Type} [DecidableEq L]

/-- `cm_iewma_pairs`. (generative_mode.ipynb:241) -/
def cmIewmaPairs : List (ℝ × ℝ) := [(5, 10), (10, 21), (21, 63), (63, 125), (125, 250)]

/-- generative_mode.ipynb:244-245 for one pair: its label and the dictionary of its covariances. -/
noncomputable def cmDict (label : XR × XR → L) (mv mc : ℕ) (frame : Frame τ (Fin n) XR) (pair : XR × XR) :
    Except Err (L × Dict τ (Arr (Fin n × Fin n) XR)) := do
  let rs ← iteratedEwma frame
    { volaHalflife := pair.1, covHalflife := pair.2, minPeriodsVola := mv, minPeriodsCov := mc }
  pure (label pair, dictOf (rs.map fun r => (r.time, r.covariance)))

/-- generative_mode.ipynb:244-253: the dictionary `cm_iewma`. `label` is the formatting of a pair. Simplification:
`LinAlgError` for a non-finite covariance is raised before `add_to_diagonal` (which keeps `nan`s). -/
noncomputable def cmIewma (label : XR × XR → L) (solvers : Solvers n) (pairs : List (XR × XR)) (returns : Dict τ (Vec n))
    (mv mc : ℕ := 63) (lamda : ℝ := 0.05) (window : ℕ := 10) : Except Err (Dict τ (Mat n)) := do
  let frame : Frame τ (Fin n) XR := returns.map fun p => (p.1, Arr.ofFn fun i => XR.fin (p.2 i))
  -- lines 244, 245
  let results ← pairs.mapM (cmDict label mv mc frame)
  let sigmas := dictOf results
  let labels := sigmas.map Prod.fst
  let dict (i : Fin labels.length) : Dict τ (Arr (Fin n × Fin n) XR) := (sigmas[i.1]?.map Prod.snd).getD []
  -- lines 248, 249
  match pairs with
  | [] => throw .indexError
  | fast :: _ =>
    let sigmas ← finM fun i => finiteCovs (dict i)
    let sigmas := fun i : Fin labels.length =>
      if labels[i.1] = label fast then addToDiagonal (sigmas i) lamda else sigmas i
    -- lines 251-254
    let comb ← fromSigmas sigmas returns none
    listDict (comb.solve (solvers labels.length) (some window) none)

/-- `[*d.values()][-1]`: `IndexError` if there is none. (generative_mode.ipynb:256) -/
def lastValue {A : Type} (d : Dict τ A) : Except Err A :=
  match d.getLast? with
  | some q => .ok q.2
  | none => .error .indexError

/-- generative_mode.ipynb:243-256, `fit_cm_iewma`; the global `cm_iewma_pairs` is the argument `pairs`. -/
noncomputable def fitCmIewma (label : XR × XR → L) (solvers : Solvers n) (pairs : List (XR × XR))
    (returns : Dict τ (Vec n)) : Except Err (Mat n) := do
  let d ← cmIewma label solvers pairs returns
  lastValue d

/-- `fit_cm_iewma` as the argument `fit` of `runSamplingExperiment` (Model/Generative), for tables without missing entries.
(generative_mode.ipynb:271) -/
noncomputable def fitTable (label : XR × XR → L) (solvers : Solvers n) (pairs : List (XR × XR))
    (table : Frame τ (Fin n) XR) : Except Err (Arr (Fin n × Fin n) XR) := do
  let S ← fitCmIewma label solvers pairs (table.map fun p => (p.1, fun i => (p.2 i).toReal))
  pure (Arr.ofFn fun q => XR.fin (S q.1 q.2))

end CovPred
