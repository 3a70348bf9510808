import Verif.Spec.Ewma

/-
How many equally weighted observations an exponentially weighted average is worth.
-/
namespace CovPred
open Finset

/-- `(sum of the weights)² / sum of the squared weights`, the weights of rows `0, ..., t` being halved every `h` rows -/
noncomputable def effectiveObs (h : ℝ) (t : ℕ) : ℝ :=
  (∑ k ∈ range (t + 1), (2 : ℝ) ^ (-((t - k : ℕ) : ℝ) / h)) ^ 2 /
    ∑ k ∈ range (t + 1), ((2 : ℝ) ^ (-((t - k : ℕ) : ℝ) / h)) ^ 2

end CovPred
