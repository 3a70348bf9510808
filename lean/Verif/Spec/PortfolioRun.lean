import Verif.Spec.Backtests

/-
The vocabulary of the theorems about backtests that go through, rescaled predictions and reordered assets.
-/
namespace CovPred
open Matrix

variable {τ : Type} {n : ℕ}

/-- A solver which solves every problem that has a solution. -/
structure Cvx.Solves (cvx : Cvx n) : Prop where
  minRisk : ∀ a L, (∃ w, minRiskCons a w ∧ ∀ w', minRiskCons a w' → riskExpr L w ≤ riskExpr L w') →
    ∃ w, cvx.minRisk a L = .ok w
  maxDiverse : ∀ M L s, (∃ z, DiverseOptimal L M s z) → ∃ z, cvx.maxDiverse M L s = .ok z
  riskParity : ∀ L, (∃ w, ParityOptimal L w) → ∃ w, cvx.riskParity L = .ok w
  meanVariance : ∀ a s L mu rho, (∃ (w : Vec n) (c : ℝ), meanVarianceCons a 1 s L w c ∧
      ∀ w' c', meanVarianceCons a 1 s L w' c' → meanVarianceRet mu rho w' c' ≤ meanVarianceRet mu rho w c) →
    ∃ w, cvx.meanVariance a s L mu rho = .ok w

/-- The strategies that use the covariances only. -/
def Strategy.RiskOnly : Strategy τ n → Prop
  | .meanVariance .. => False
  | _ => True

/-- The limits of the strategy leave room for a portfolio of `n` assets. -/
def Strategy.Room : Strategy τ n → Prop
  | .minRisk cons => ∃ w : Vec n, WithinLimits cons w
  | .maxDiverse cons => ∃ M, cons.upperBound = some M ∧ 1 ≤ n * M
  | _ => True

/-- The limits allow not to invest. -/
structure ExtraCons.AllowsNothing (a : ExtraCons) : Prop where
  short : ∀ s, a.shortLim = some s → 0 ≤ s
  upper : ∀ u, a.upperBound = some u → 0 ≤ u
  lower : ∀ l, a.lowerBound = some l → l ≤ 0

/-- `c'` predicts what `c` does, for the assets in the order `e`, up to a positive factor which may be another one at
every time. -/
def Rescaled [BEq τ] (e : Equiv.Perm (Fin n)) (c c' : Dict τ (Mat n)) : Prop :=
  ∀ t, ∃ k : ℝ, 0 < k ∧ c'.lookup t = (c.lookup t).map fun S i j => k * S (e i) (e j)

/-- all the predicted matrices are symmetric -/
def AllSymmetric [BEq τ] (covs : List (Dict τ (Mat n))) : Prop :=
  ∀ c ∈ covs, ∀ t S, c.lookup t = some S → ∀ i j, S i j = S j i

end CovPred
