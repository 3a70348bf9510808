import Verif.Model.Backtests
import Verif.Model.Prescient
import Mathlib.Data.List.Range
import Mathlib.Data.Finset.Sort
import Mathlib.Data.Finset.Lattice.Fold

/-
Model of the cells of `/repo/experiments/industry_portfolios.ipynb` that score the predictors by their log-likelihood and
their regret: the log-likelihoods and regrets (lines 368-380; the same cell is factor_portfolios.ipynb:443-455,
stock_portfolios.ipynb:379-391 and extensions/realized_covariance.ipynb:269-281), the quarterly means (498-499), the share
of quarters in which one predictor is better (521) and the table (593-609).

Simplifications: the returns have no missing entries; a covariance is a matrix or a matrix of `nan`s (what the notebooks
store for a quarter with one row), `none`; the rounding of the printed numbers is not modelled.
-/
namespace CovPred

variable {τ : Type} [LinearOrder τ] {n : ℕ}

/-- A series of numbers with labels; `none` is `nan`. (industry_portfolios.ipynb:376) -/
abbrev NSeries (τ : Type) := List (τ × Option ℝ)

/-- One entry of `log_likelihood(returns_temp, Sigmas_temp)`; a matrix of `nan`s gives `nan` (its inverse is a matrix of
`nan`s). (industry_portfolios.ipynb:376) -/
noncomputable def llEntry (p : Vec n × Option (Mat n)) : Except Err (Option ℝ) :=
  match p.2 with
  | none => .ok none
  | some S => do
    let l ← logLikelihood [(p.1, S)]
    pure l.head?

/-- The body of the loop, industry_portfolios.ipynb:372-376: the series stored for a predictor. `np.stack` of an empty
predictor raises `ValueError`. -/
noncomputable def llCell (returns : List (τ × Vec n)) (predictor : Dict τ (Option (Mat n))) : Except Err (NSeries τ) := do
  let rows ← restrict returns (predictor.map Prod.fst)
  let returnsTemp := (rows.map Prod.snd).drop 1
  let times := (predictor.map Prod.fst).drop 1
  if predictor.length = 0 then .error .valueError
  else do
    let sigmasTemp := (predictor.map Prod.snd).dropLast
    let ll ← (List.zip returnsTemp sigmasTemp).mapM llEntry
    pure (List.zip times ll)

/-- One turn of the loop, industry_portfolios.ipynb:370-376. `names[i]` is read first (371). -/
noncomputable def llItem (returns : List (τ × Vec n)) (names : List String) (p : Dict τ (Option (Mat n)) × ℕ) :
    Except Err (String × NSeries τ) := do
  let name ← orIndexError names[p.2]?
  let ll ← llCell returns p.1
  pure (name, ll)

/-- industry_portfolios.ipynb:368-376: the dictionary `log_likelihoods` -/
noncomputable def logLikelihoods (returns : List (τ × Vec n)) (names : List String)
    (predictors : List (Dict τ (Option (Mat n)))) : Except Err (Dict String (NSeries τ)) := do
  let items ← (predictors.zipIdx 0).mapM (llItem returns names)
  pure (dictOf items)

/-- the difference of two entries, `nan` if one of them is. (industry_portfolios.ipynb:380) -/
noncomputable def nsub : Option ℝ → Option ℝ → Option ℝ
  | some x, some y => some (x - y)
  | _, _ => none

/-- `a - b` of two series with distinct labels: pandas aligns them, on the common index if they are equal and else on the
sorted union, with `nan` where one of them has no entry. (industry_portfolios.ipynb:380) -/
noncomputable def seriesSub (a b : NSeries τ) : NSeries τ :=
  let index := if a.map Prod.fst = b.map Prod.fst then a.map Prod.fst
    else ((a.map Prod.fst).toFinset ∪ (b.map Prod.fst).toFinset).sort (· ≤ ·)
  index.map fun t => (t, nsub ((a.lookup t).getD none) ((b.lookup t).getD none))

/-- One turn of the loop, industry_portfolios.ipynb:379-380 -/
noncomputable def regretItem (lls : Dict String (NSeries τ)) (p : String × NSeries τ) :
    Except Err (String × NSeries τ) := do
  let best ← getItem lls "PRESCIENT"
  pure (p.1, seriesSub best p.2)

/-- industry_portfolios.ipynb:378-380: the dictionary `regrets` -/
noncomputable def regretsOf (lls : Dict String (NSeries τ)) : Except Err (Dict String (NSeries τ)) :=
  lls.mapM (regretItem lls)

/-- The number of the quarter of a date, counted from the year 0: the bins of `resample("Q")`.
(industry_portfolios.ipynb:498) -/
def Calendar.quarterNo (c : Calendar τ) (t : τ) : ℤ := 4 * c.year t + (c.month t - 1) / 3

/-- `mean()` of values, without the `nan`s; `nan` if there is none. (industry_portfolios.ipynb:498, 521) -/
noncomputable def nanMean (vs : List (Option ℝ)) : Option ℝ :=
  let xs := vs.filterMap id
  if xs.length = 0 then none else some (xs.sum / xs.length)

/-- `series.resample("Q").mean()`: all quarters from that of the first to that of the last date; `nan` for a quarter
without entries. (industry_portfolios.ipynb:498-499) -/
noncomputable def quarterlyMean (c : Calendar τ) (s : NSeries τ) : List (ℤ × Option ℝ) :=
  match s with
  | [] => []
  | p :: rest =>
    let first := rest.foldl (fun q r => min q (c.quarterNo r.1)) (c.quarterNo p.1)
    let last := rest.foldl (fun q r => max q (c.quarterNo r.1)) (c.quarterNo p.1)
    (List.range (last - first + 1).toNat).map fun k : ℕ =>
      (first + (k : ℤ), nanMean ((s.filter fun r => c.quarterNo r.1 = first + (k : ℤ)).map Prod.snd))

/-- `x < 0` of an entry; `nan < 0` is false. (industry_portfolios.ipynb:521) -/
noncomputable def isNeg : Option ℝ → Bool
  | some x => decide (x < 0)
  | none => false

/-- industry_portfolios.ipynb:498-499, 521: `(regret_cm_iewma - regret_mgarch < 0).mean()` -/
noncomputable def advantage (c : Calendar τ) (regrets : Dict String (NSeries τ)) (name other : String) :
    Except Err (Option ℝ) := do
  let regretOther ← getItem regrets other
  let regret ← getItem regrets name
  let d := seriesSub (quarterlyMean c regret) (quarterlyMean c regretOther)
  pure (nanMean (d.map fun p => some (if isNeg p.2 then 1 else 0)))

/-- A printed row: mean, standard deviation and maximum. (industry_portfolios.ipynb:602-604) -/
structure RegretRow where
  name : String
  mean : Option ℝ
  std : Option ℝ
  max : Option ℝ

/-- `np.std` of a series, which calls `Series.std(ddof=0)`: without the `nan`s. (industry_portfolios.ipynb:603) -/
noncomputable def nanStd (vs : List (Option ℝ)) : Option ℝ :=
  let xs := vs.filterMap id
  (nanMean vs).map fun m => Real.sqrt ((xs.map fun x => (x - m) ^ 2).sum / xs.length)

/-- `np.max` of a series, which calls `Series.max`: without the `nan`s. (industry_portfolios.ipynb:603) -/
noncomputable def nanMax (vs : List (Option ℝ)) : Option ℝ :=
  match vs.filterMap id with
  | [] => none
  | x :: xs => some (xs.foldl max x)

/-- industry_portfolios.ipynb:599-604: the rows of the table (every predictor but `PRESCIENT`; its row is printed as
zeros, 607) -/
noncomputable def regretTable (c : Calendar τ) (regrets : Dict String (NSeries τ)) : List RegretRow :=
  (regrets.filter fun p => p.1 ≠ "PRESCIENT").map fun p =>
    let vs := (quarterlyMean c p.2).map Prod.snd
    { name := p.1, mean := nanMean vs, std := nanStd vs, max := nanMax vs }

end CovPred
