import Mathlib.Analysis.SpecialFunctions.Pow.Real

/-
The textbook quantities that the tables of the experiments report.
-/
namespace CovPred

/-- the average of a list of numbers -/
noncomputable def average (l : List ℝ) : ℝ := l.sum / l.length

/-- the standard deviation of a list of numbers around their average, with denominator `T` -/
noncomputable def deviation (l : List ℝ) : ℝ := Real.sqrt ((l.map fun y => (y - average l) ^ 2).sum / l.length)

/-- what one unit of money has become after row `t`, if the rows earn `rets` percent (`adjust = 100`) or fractions (`adjust = 1`) -/
noncomputable def wealth (adjust : ℝ) (rets : List ℝ) (t : ℕ) : ℝ := ((rets.take (t + 1)).map fun r => 1 + r / adjust).prod

/-- `dd` is the largest relative loss `(V s - V t) / V s` between a row and a later (or the same) row, if the wealth stays positive -/
def LargestLoss (V : ℕ → ℝ) (T : ℕ) (dd : ℝ) : Prop :=
  (∀ t, t < T → 0 < V t) → IsGreatest {y | ∃ s t, s ≤ t ∧ t < T ∧ y = (V s - V t) / V s} dd

end CovPred
