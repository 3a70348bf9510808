import Verif.Model.Trading

/-
The portfolios the statements compare with: the limits of a call as a user reads them, and the return a mean-variance
portfolio is judged by. Written without the constraints and the objective of the model.
-/
namespace CovPred
open Matrix

variable {n : ℕ}

/-- `w` is a portfolio within the limits `a`: everything is invested, the absolute weights add up to at most the short limit,
and every weight is between the lower and the upper bound; a limit that is not given does not restrict. -/
def WithinLimits (a : ExtraCons) (w : Vec n) : Prop :=
  ∑ i, w i = 1 ∧ (∀ s, a.shortLim = some s → ∑ i, |w i| ≤ s) ∧ (∀ u, a.upperBound = some u → ∀ i, w i ≤ u) ∧
    ∀ l, a.lowerBound = some l → ∀ i, l ≤ w i

/-- The weights `w` and the cash `c` together are a portfolio within the limits `a`; the limits are those of the weights. -/
def WithinLimitsCash (a : ExtraCons) (w : Vec n) (c : ℝ) : Prop :=
  ∑ i, w i + c = 1 ∧ (∀ s, a.shortLim = some s → ∑ i, |w i| ≤ s) ∧ (∀ u, a.upperBound = some u → ∀ i, w i ≤ u) ∧
    ∀ l, a.lowerBound = some l → ∀ i, l ≤ w i

/-- The expected return of `w`, reduced by `rho i` for every unit of asset `i`, held or sold short. -/
def cautiousReturn (mu : Vec n) (rho : Option (Vec n)) (w : Vec n) : ℝ :=
  ∑ i, (mu i * w i - ((rho.map fun r => r i).getD 0) * |w i|)

theorem minRiskCons_iff {a : ExtraCons} {w : Vec n} : minRiskCons a w ↔ WithinLimits a w := Iff.rfl

theorem meanVarianceRet_eq (mu : Vec n) (rho : Option (Vec n)) (w : Vec n) (c : ℝ) :
    meanVarianceRet mu rho w c = cautiousReturn mu rho w := by
  unfold meanVarianceRet cautiousReturn
  rw [Finset.sum_sub_distrib, zero_mul, add_zero]
  rcases rho with _ | rho
  · simp
  · simp

end CovPred
