import Verif.Spec.FactorModel
import Verif.Spec.RunErrors

/-
Which exception one block of the factor model raises (experiments/utils/factor_model.py:15-49).
-/
namespace CovPred
open Matrix

variable {τ : Type} [LinearOrder τ] {n k : ℕ} {L : Type} [DecidableEq L]

/-- Why `construct_factor_covariance` fails on the factor returns `f` of the rows before `N`, with predictions from row `s0 + 10`
on: `LinAlgError` if an expert's covariance is not finite or not positive definite, else that of the list of the results. -/
def FactorFails (label : XR × XR → L) (solvers : Solvers k) (pairs : List (ℝ × ℝ)) (tm : ℕ → τ) (f : ℕ → Vec k) (s0 N : ℕ)
    (e : Err) : Prop :=
  (e = .linAlgError ∧ (¬ FiniteExperts label pairs f s0 N ∨
    ∃ s, s0 ≤ s ∧ s < N ∧ ∃ i, ¬ (expertCov label pairs f s i).PosDef)) ∨
  (FiniteExperts label pairs f s0 N ∧ (∀ s, s0 ≤ s → s < N → ∀ i, (expertCov label pairs f s i).PosDef) ∧
    (factorPanel label pairs tm f s0 N).FailsList (solvers _) 10 e)

end CovPred
