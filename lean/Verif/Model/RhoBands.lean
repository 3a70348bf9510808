import Verif.Model.Tune
import Verif.Model.FactorModel

/-
Model of the cells of `/repo/experiments/industry_portfolios.ipynb` that build a forecast of the returns with an uncertainty
for each entry from several exponentially weighted averages: the mean and half the range of three averages (lines 1258-1277)
and the largest deviation of clipped averages from one of them (lines 1230-1240). (The notebook's lists of half-lives are
arguments here.) The returns have no missing entries.
-/
namespace CovPred

variable {τ : Type} [LinearOrder τ] {n : ℕ}

/-- `returns.ewm(halflife=h).mean()`, column by column; pandas rejects a half-life that is not positive.
(industry_portfolios.ipynb:1258-1262) -/
noncomputable def ewmFrame (returns : Dict τ (Vec n)) (h : ℝ) : Except Err (Dict τ (Vec n)) :=
  if h ≤ 0 then .error .valueError
  else .ok ((List.range returns.length).zip (returns.map Prod.fst) |>.map fun p =>
    (p.2, fun i => (pandasEwm h (returns.map fun r => r.2 i))[p.1]?.getD 0))

/-- The entries of `np.array(frames)` at row `k` and column `i`. (industry_portfolios.ipynb:1239, 1273) -/
def stackEntry (frames : List (Dict τ (Vec n))) (k : ℕ) (i : Fin n) : List ℝ :=
  frames.map fun f => (f[k]?.map fun p => p.2 i).getD 0

/-- `np.max` of the entries of one position. (industry_portfolios.ipynb:1239, 1273) -/
noncomputable def listMax : List ℝ → ℝ
  | [] => 0
  | x :: xs => xs.foldl max x

/-- `np.min` of the entries of one position. (industry_portfolios.ipynb:1273) -/
noncomputable def listMin : List ℝ → ℝ
  | [] => 0
  | x :: xs => xs.foldl min x

/-- `pd.DataFrame(values, index=returns.index, columns=returns.columns)`. (industry_portfolios.ipynb:1240, 1277) -/
def frameOf (returns : Dict τ (Vec n)) (values : ℕ → Vec n) : Dict τ (Vec n) :=
  (List.range returns.length).zip (returns.map Prod.fst) |>.map fun p => (p.2, values p.1)

/-- industry_portfolios.ipynb:1258-1278: `(predictor, rhos)`, the mean and half the range of the averages with the
half-lives `hs`. Without any, `np.max` raises `ValueError`. -/
noncomputable def rangeBand (returns : Dict τ (Vec n)) (hs : List ℝ) : Except Err (Dict τ (Vec n) × Dict τ (Vec n)) := do
  let frames ← hs.mapM (ewmFrame returns)
  if frames.length = 0 then .error .valueError
  else
    let rhos := fun k i => (listMax (stackEntry frames k i) - listMin (stackEntry frames k i)) / 2
    let predictor := fun k i => (stackEntry frames k i).sum / (frames.length : ℝ)
    .ok (frameOf returns predictor, frameOf returns rhos)

/-- `tune_returns(returns.ewm(halflife=h).mean(), lower, upper)`. (industry_portfolios.ipynb:1230-1234) -/
noncomputable def tunedEwm (returns : Dict τ (Vec n)) (lower upper h : ℝ) : Except Err (Dict τ (Vec n)) := do
  let f ← ewmFrame returns h
  tuneReturns f lower upper

/-- industry_portfolios.ipynb:1230-1240: the clipped average with half-life `base` and the largest deviations of those with
the half-lives `others` from it. Without any, `np.max` raises `ValueError`. -/
noncomputable def deviationBand (returns : Dict τ (Vec n)) (lower upper : ℝ) (others : List ℝ) (base : ℝ) :
    Except Err (Dict τ (Vec n) × Dict τ (Vec n)) := do
  let frames ← others.mapM (tunedEwm returns lower upper)
  let center ← tunedEwm returns lower upper base
  if frames.length = 0 then .error .valueError
  else
    let deviation := fun k i =>
      listMax ((stackEntry frames k i).map fun v => |v - (center[k]?.map fun p => p.2 i).getD 0|)
    .ok (center, frameOf returns deviation)

end CovPred
