import Verif.Model.Combination
import Mathlib.Data.List.OfFn

/-
Model of the functions that rescale predicted returns, from `/repo/experiments/industry_portfolios.ipynb` (`tune_returns`
is also in `factor_portfolios.ipynb:1085-1097`, `stock_portfolios.ipynb:883-895`, `extensions/nonzero_means.ipynb:229-241`
and `extensions/realized_covariance.ipynb:782-794`, there with the fixed arguments 0.4 and 0.6) and
`extensions/nonzero_means.ipynb`. Rows are rows of numbers without `nan`; line numbers are those of the notebook files.
-/
namespace CovPred

variable {τ : Type} {n : ℕ}

/-- The values of a row in increasing order. (industry_portfolios.ipynb:1096) -/
noncomputable def sortedRow (r : Vec n) : List ℝ := (List.ofFn r).mergeSort fun a b => decide (a ≤ b)

/-- pandas' `series.quantile(q)` of a series that is not empty, `0 <= q <= 1`: numpy's linear interpolation at the virtual
index `(n - 1) q`, the last value if that is `n - 1`. (industry_portfolios.ipynb:1096) -/
noncomputable def quantileAt (r : Vec n) (q : ℝ) : ℝ :=
  let virtual := ((n : ℝ) - 1) * q
  let s := sortedRow r
  if virtual ≥ (n : ℝ) - 1 then s[n - 1]?.getD 0
  else
    let previous := ⌊virtual⌋₊
    let a := s[previous]?.getD 0
    let b := s[previous + 1]?.getD 0
    a + (b - a) * (virtual - previous)

/-- `series.quantile(q)`: `ValueError` unless `0 <= q <= 1`. (industry_portfolios.ipynb:1096) -/
noncomputable def quantile (r : Vec n) (q : ℝ) : Except Err ℝ :=
  if 0 ≤ q ∧ q ≤ 1 then .ok (quantileAt r q) else .error .valueError

/-- `np.clip(series, a_min=lo, a_max=hi)`, which calls pandas' `Series.clip`: that exchanges the bounds if they are in the
wrong order, cuts above and then below. (industry_portfolios.ipynb:1096) -/
noncomputable def clipSeries (r : Vec n) (lo hi : ℝ) : Vec n := fun i =>
  let lower := min lo hi
  let upper := max lo hi
  let x := if r i ≤ upper then r i else upper
  if lower ≤ x then x else lower

/-- one turn of the loop of `tune_returns`. (industry_portfolios.ipynb:1095-1096) -/
noncomputable def tuneRow (lower upper : ℝ) (p : τ × Vec n) : Except Err (τ × Vec n) := do
  let lo ← quantile p.2 lower
  let hi ← quantile p.2 upper
  pure (p.1, clipSeries p.2 lo hi)

/-- industry_portfolios.ipynb:1086-1098, `tune_returns` -/
noncomputable def tuneReturns (returns : List (τ × Vec n)) (lower : ℝ := 0.4) (upper : ℝ := 0.6) :
    Except Err (List (τ × Vec n)) := returns.mapM (tuneRow lower upper)

open Classical in
/-- one turn of the loop of `tune_returns2`. (nonzero_means.ipynb:251-252) -/
noncomputable def tuneRow2 (p : τ × Vec n) : Except Err (τ × Vec n) := do
  let hi ← quantile p.2 0.9
  let lo ← quantile p.2 0.1
  pure (p.1, fun i => if p.2 i > hi then 1 else if p.2 i < lo then -1 else 0)

/-- nonzero_means.ipynb:243-254, `tune_returns2` -/
noncomputable def tuneReturns2 (returns : List (τ × Vec n)) : Except Err (List (τ × Vec n)) := returns.mapM tuneRow2

end CovPred
