import Verif.Model.ExpUtils
import Verif.Model.FromEwmas

/-
Model of the prescient predictors of the experiment notebooks: `/repo/experiments/factor_portfolios.ipynb:177-184`, the
same cell in `industry_portfolios.ipynb:183-190`, `stock_portfolios.ipynb:175-182`, `extensions/smoothing.ipynb:69-76`
and `extensions/realized_covariance.ipynb:145-151`, and the variant with means, `extensions/nonzero_means.ipynb:858-871`.
-/
namespace CovPred

variable {τ : Type} {n : ℕ}

/-- The year and the month of a time stamp, `t.year` and `t.month`. (factor_portfolios.ipynb:181-182) -/
structure Calendar (τ : Type) where
  year : τ → ℤ
  month : τ → ℤ

/-- factor_portfolios.ipynb:181, `(t.month-1)//3 + 1` -/
def Calendar.quarter (c : Calendar τ) (t : τ) : ℤ := (c.month t - 1) / 3 + 1

/-- pandas' `index.quarter`, read at factor_portfolios.ipynb:182 -/
def Calendar.indexQuarter (c : Calendar τ) (t : τ) : ℤ := (c.month t - 1) / 3 + 1

/-- factor_portfolios.ipynb:182-183, `returns.loc[(returns.index.year == t.year) & (returns.index.quarter == quarter)].values` -/
def quarterRows (c : Calendar τ) (returns : List (τ × Vec n)) (t : τ) : List (Vec n) :=
  (returns.filter fun p => c.year p.1 = c.year t ∧ c.indexQuarter p.1 = c.quarter t).map Prod.snd

/-- `np.mean(rows, axis=0)`. (factor_portfolios.ipynb:183) -/
noncomputable def npMean0 (rs : List (Vec n)) : Vec n := (1 / (rs.length : ℝ)) • rs.sum

/-- `np.cov(rows, rowvar=False)` with the default `ddof=1`; `none` is the matrix of `nan`s that a single row gives
(`0 * inf`; NumPy 2.2.2 of uv.lock transposes a single row). (factor_portfolios.ipynb:182) -/
noncomputable def npCov (rs : List (Vec n)) : Option (Mat n) :=
  if rs.length = 1 then none
  else some ((1 / ((rs.length : ℝ) - 1)) • (rs.map fun r => outerR (r - npMean0 rs)).sum)

/-- The body of the loop, factor_portfolios.ipynb:179-184: the value stored for a date. -/
noncomputable def prescientAt (c : Calendar τ) (returns : List (τ × Vec n)) (t : τ) : Option (Mat n) :=
  (npCov (quarterRows c returns t)).map fun cov =>
    cov + outerR (npMean0 (quarterRows c returns t))

/-- factor_portfolios.ipynb:177-184: the dictionary `prescient`. -/
noncomputable def prescient [DecidableEq τ] (c : Calendar τ) (returns : List (τ × Vec n)) : Dict τ (Option (Mat n)) :=
  dictOf (returns.map fun p => (p.1, prescientAt c returns p.1))

/-- nonzero_means.ipynb:858-871: the dictionaries `covs` and `means`. -/
noncomputable def prescientMeans [DecidableEq τ] (c : Calendar τ) (returns : List (τ × Vec n)) :
    Dict τ (Option (Mat n)) × Dict τ (Vec n) :=
  (dictOf (returns.map fun p => (p.1, npCov (quarterRows c returns p.1))),
   dictOf (returns.map fun p => (p.1, npMean0 (quarterRows c returns p.1))))

end CovPred
