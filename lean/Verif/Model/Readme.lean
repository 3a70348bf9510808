import Verif.Model.FactorModel

/-
Model of the second documented use of the package, `/repo/README.md:112-138`: experts from pandas'
`returns.ewm(halflife, min_periods).cov()`, combined by `from_sigmas`. (Every piece but pandas is a function of
`/repo/cvx/covariance/combination.py`, modelled in Model/Combination; the experts are also those of
`/repo/tests/test_from_sigmas.py`.)

The returns have no missing entries and distinct labels. Not modelled: the numerics of cvxpy, a parameter.
-/
namespace CovPred

variable {τ : Type} [LinearOrder τ] {n K : ℕ}

open Classical in
/-- the loop of pandas' `ewmcov` of two series (`adjust=True`, `bias=False`) on values without `nan`, after the first pair:
the two means, covariance, total weight, total squared weight, old weight. A denominator that is not positive gives
`nan`. (README.md:121; pandas/_libs/window/aggregations.pyx) -/
noncomputable def ewmCovLoop (factor : ℝ) : ℝ → ℝ → ℝ → ℝ → ℝ → ℝ → List (ℝ × ℝ) → List (Option ℝ)
  | _, _, _, _, _, _, [] => []
  | meanX, meanY, cov, sumWt, sumWt2, oldWt, (x, y) :: rest =>
    let sumWt := sumWt * factor
    let sumWt2 := sumWt2 * (factor * factor)
    let oldWt := oldWt * factor
    let oldX := meanX
    let oldY := meanY
    let meanX := if meanX ≠ x then (oldWt * oldX + x) / (oldWt + 1) else meanX
    let meanY := if meanY ≠ y then (oldWt * oldY + y) / (oldWt + 1) else meanY
    let cov := (oldWt * (cov + (oldX - meanX) * (oldY - meanY)) + (x - meanX) * (y - meanY)) / (oldWt + 1)
    let sumWt := sumWt + 1
    let sumWt2 := sumWt2 + 1
    let oldWt := oldWt + 1
    let num := sumWt * sumWt
    let den := num - sumWt2
    (if den > 0 then some (num / den * cov) else none) :: ewmCovLoop factor meanX meanY cov sumWt sumWt2 oldWt rest

/-- the values of pandas' `ewmcov` before `min_periods` is applied; with `bias=False` the first row is `nan`. (README.md:121;
pandas/_libs/window/aggregations.pyx) -/
noncomputable def ewmCovValues (halflife : ℝ) : List (ℝ × ℝ) → List (Option ℝ)
  | [] => []
  | (x, y) :: rest => none :: ewmCovLoop (1 - (1 - Real.exp (-Real.log 2 / halflife))) x y 0 1 1 1 rest

/-- the series `x.ewm(halflife=h, min_periods=m).cov(y)` on values without `nan`: missing before `m` observations (at least
one is needed), and on the first row. (README.md:121) -/
noncomputable def pandasEwmCov (halflife : ℝ) (minPeriods : ℕ) (xy : List (ℝ × ℝ)) : List (Option ℝ) :=
  let values := ewmCovValues halflife xy
  (List.range values.length).zip values |>.map fun p => if p.1 + 1 < max minPeriods 1 then none else p.2

/-- `returns.ewm(halflife=h, min_periods=m).cov()`: for every row of the returns a square of entries; the entries below the
diagonal are copied from above it (`flex_binary_moment`). (README.md:121) -/
noncomputable def ewmCovFrame (halflife : ℝ) (minPeriods : ℕ) (returns : Dict τ (Vec n)) :
    List (τ × (Fin n → Fin n → Option ℝ)) :=
  (List.range returns.length).zip (returns.map Prod.fst) |>.map fun p =>
    (p.2, fun i j => (pandasEwmCov halflife minPeriods (returns.map fun r => (r.2 (min i j), r.2 (max i j))))[p.1]?.join)

open Classical in
/-- README.md:121-122 for one time: `dropna` removes the rows (assets) with a missing entry. A time without rows left is no
key of the expert; if some are left but not all, the matrix is not square and `from_sigmas` raises `LinAlgError`. -/
noncomputable def expertItem (p : τ × (Fin n → Fin n → Option ℝ)) : Except Err (Option (τ × Mat n)) :=
  if ∀ i j, (p.2 i j).isSome then .ok (some (p.1, Matrix.of fun i j => (p.2 i j).getD 0))
  else if ∀ i, ∃ j, (p.2 i j).isNone then .ok none
  else .error .linAlgError

/-- README.md:121-122, the expert of one half-life; pandas raises `ValueError` for a half-life that is not positive. -/
noncomputable def readmeExpert (returns : Dict τ (Vec n)) (minPeriods : ℕ) (halflife : ℝ) : Except Err (Dict τ (Mat n)) :=
  if halflife ≤ 0 then .error .valueError
  else do
    let items ← (ewmCovFrame halflife minPeriods returns).mapM expertItem
    pure (items.filterMap id)

/-- README.md:134-137: the dictionary filled in the loop over the generator, which stops at the first `None`. -/
def resultDict (tr : Trace (Result τ n K)) : Except Err (Dict τ (Mat n)) :=
  match tr.items.mapM timeAndCov, tr.err with
  | .error e, _ => .error e
  | .ok _, some e => .error e
  | .ok items, none => .ok (dictOf items)

/-- README.md:121-137: `covariance_predictors`, for `K` half-lives (2, namely 21 and 63, in the text), any `min_periods`
(`5 n` in the text) and window (10). -/
noncomputable def readmePredictors (solver : Solver n K) (halflives : Fin K → ℝ) (minPeriods window : ℕ)
    (returns : Dict τ (Vec n)) : Except Err (Dict τ (Mat n)) := do
  let experts ← finM fun i => readmeExpert returns minPeriods (halflives i)
  let comb ← fromSigmas experts returns none
  resultDict (comb.solve solver (some window) none)

end CovPred
