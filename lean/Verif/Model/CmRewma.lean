import Verif.Model.RealizedEwma
import Verif.Model.FactorModel

/-
Model of the cells of `/repo/experiments/extensions/realized_covariance.ipynb` that compound intraday returns to daily ones
(line 55) and fit CM-REWMA: experts from `realized_ewma`, combined by `from_sigmas` (lines 91-99). Line numbers are those of the
notebook file.

The intraday returns have no missing entries. Line 55 is modelled as pandas 1 evaluates it (the grouped `cumprod` keeps the index
of its argument); pandas 2 adds the group key as a second index level named `Date`, and the second `groupby("Date")` fails. Not
modelled: the numerics of cvxpy, a parameter.
-/
namespace CovPred

variable {τ : Type} [LinearOrder τ] {n K : ℕ}

/-- `(1 + x).cumprod()` of the rows of a group; the first argument is the product so far. (realized_covariance.ipynb:55) -/
def cumprod (acc : Vec n) : List (Vec n) → List (Vec n)
  | [] => []
  | r :: rs => acc * (1 + r) :: cumprod (acc * (1 + r)) rs

/-- the keys of `groupby`: the labels, sorted. (realized_covariance.ipynb:55) -/
def groupKeys {A : Type} (rows : List (τ × A)) : List τ := (uniqueLabels rows).mergeSort fun a b => decide (a ≤ b)

/-- realized_covariance.ipynb:55, `daily_returns`: the last row of `(1 + x).cumprod() - 1` of each group. -/
noncomputable def dailyReturns (rows : List (τ × Vec n)) : Dict τ (Vec n) :=
  (groupKeys rows).filterMap fun t => ((cumprod 1 (rowsAt rows t)).map fun r => r - 1).getLast?.map fun r => (t, r)

/-- realized_covariance.ipynb:94-95, the dictionary of one half-life. -/
noncomputable def rewmaExpert (rows : List (τ × Vec n)) (halflife : ℝ) : Except Err (Dict τ (Mat n)) := do
  let ewma ← realizedEwma rows (XR.fin halflife)
  let items ← genDict ewma
  finiteCovs (dictOf items)

/-- realized_covariance.ipynb:91-99: the dictionary `cm_ewma_real`, for `K` half-lives (1, 5, 10, 21 and 63 in the notebook)
with different names, and any window (21 in the notebook). Simplification: `LinAlgError` for a non-finite covariance is raised
before `from_sigmas` looks at the others. -/
noncomputable def cmRewma (solver : Solver n K) (halflives : Fin K → ℝ) (window : ℕ) (rows : List (τ × Vec n)) :
    Except Err (Dict τ (Mat n)) := do
  let experts ← finM fun i => rewmaExpert rows (halflives i)
  let comb ← fromSigmas experts (dailyReturns rows) none
  listDict (comb.solve solver (some window) none)

end CovPred
