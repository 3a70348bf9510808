import Verif.Spec.Iewma

/-
Returns, and results of `iterated_ewma`, that differ by factors close to one.
-/
namespace CovPred
open XR

variable {τ ι : Type} [Ix ι]

/-- `y` is `x` times a factor between `1 / ρ` and `ρ`. -/
def FactorClose (ρ x y : ℝ) : Prop := ∃ q, ρ⁻¹ ≤ q ∧ q ≤ ρ ∧ y = q * x

/-- Two results for the same time. The volatilities `v`, `v'` are numbers within the factor `ρ`; a covariance is `nan` in both or a number
in both, and then the covariances differ by at most `ρ^10 - 1` in units of the product of the volatilities, and the correlations by at most
`ρ^8 - 1`. -/
structure CloseResults (ρ : ℝ) (r r' : IEWMA τ ι XR) : Prop where
  time : r'.time = r.time
  close : ∃ v v' : ι → ℝ, r.volatility = finRow v ∧ r'.volatility = finRow v' ∧ (∀ i, v' i ≤ ρ * v i ∧ v i ≤ ρ * v' i) ∧
    ∀ i k, (r.covariance (i, k) = nan ∧ r'.covariance (i, k) = nan) ∨ ∃ s s' : ℝ, r.covariance (i, k) = fin s ∧ r'.covariance (i, k) = fin s' ∧
      |s' - s| ≤ (ρ ^ 10 - 1) * (v i * v k) ∧ |s' / (v' i * v' k) - s / (v i * v k)| ≤ ρ ^ 8 - 1

end CovPred
