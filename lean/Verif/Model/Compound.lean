import Verif.Model.ExpUtils
import Verif.Model.YearlySR

/-
Model of the cell that turns daily returns into yearly ones, `/repo/experiments/extensions/nonzero_means.ipynb:907-918`:
`frame.resample('Y').apply(lambda x: (x + 1).prod() - 1)`, applied to the returns (line 910) and to the risk-free rate (line 918).

Simplification: the result is labelled with the year, in the code with its last day (the labels of the two results are the same
function of the year).
-/
namespace CovPred

variable {τ : Type} {n : ℕ}

/-- `Series.prod()`: the product of the values that are not `nan`; `1` without any. (nonzero_means.ipynb:910) -/
def nanProd (vs : List (Option ℝ)) : ℝ := (vs.filterMap id).prod

/-- nonzero_means.ipynb:910, 918: `lambda x: (x + 1).prod() - 1` on a column of one year -/
def compound (vs : List (Option ℝ)) : ℝ := nanProd (vs.map (Option.map (· + 1))) - 1

/-- nonzero_means.ipynb:910, 918: one row for every year from the first to the last one of the index, column by column -/
def compoundYears (year : τ → ℤ) (frame : List (τ × NRow n)) : List (ℤ × Vec n) :=
  (yearBins (frame.map fun p => year p.1)).map fun y =>
    (y, fun i => compound ((frame.filter fun p => year p.1 = y).map fun p => p.2 i))

end CovPred
