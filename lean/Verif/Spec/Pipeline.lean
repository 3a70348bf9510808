import Verif.Model.Pipeline
import Verif.Spec.CmIewma
import Verif.Spec.PortfolioRun
import Verif.Props.Portfolio2

/-
The vocabulary of the theorems about the way from returns to a portfolio.
-/
namespace CovPred
open Matrix

variable {τ : Type} {n : ℕ}

/-- `w` is what the strategy is meant to hold if `S` is the covariance of the returns. -/
def Strategy.Chooses : Strategy τ n → Mat n → Vec n → Prop
  | .eqWeighted, _, w => ∀ i, w i = 1 / n
  | .minRisk cons, S, w => WithinLimits cons w ∧ ∀ v, WithinLimits cons v → predictedStd S w ≤ predictedStd S v
  | .maxDiverse cons, S, w => ∃ M, cons.upperBound = some M ∧ LongOnly M w ∧ ∀ v, LongOnly M v → divRatio S v ≤ divRatio S w
  | .riskParity, S, w => (∀ i, 0 < w i) ∧ ∑ i, w i = 1 ∧ ∀ i j, w i * (S *ᵥ w) i = w j * (S *ᵥ w) j
  | .meanVariance .., _, _ => False

end CovPred
