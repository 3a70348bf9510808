import Verif.Spec.CmIewma

/-
The bounds under which CM-IEWMA forgets the past.
-/
namespace CovPred

variable {n : ℕ} {L : Type} [DecidableEq L]

/-- Bounds on a history of `T` rows and on what the experts of the CM-IEWMA make of it: returns at most `M`; volatilities at least `v0`; second moments of
the volatility-adjusted returns at least `d0`; determinants of the experts' covariances at least `p0`; and, over the `W` rows up to each row where there is
a prediction, the Gram determinant of the standardised returns of the experts at least `g0` (the experts differ in the window). -/
structure CmBounds (label : XR × XR → L) (pairs : List (ℝ × ℝ)) (mv mc W : ℕ) (lamda : ℝ) (T : ℕ) (x : ℕ → Vec n) (M v0 d0 p0 g0 : ℝ) : Prop where
  ret : ∀ t < T, ∀ i, |x t i| ≤ M
  vola : ∀ p ∈ pairs, ∀ t < T, mv - 1 ≤ t → ∀ i, v0 ≤ vol (cmArgs mv mc p) x t i
  moment : ∀ p ∈ pairs, ∀ t < T, mv + mc - 2 ≤ t → ∀ i, d0 ≤ covAt (cmArgs mv mc p) (t + 1) x (t + 1 - mv) (i, i)
  det : ∀ t < T, mv + mc - 2 ≤ t → ∀ i, p0 ≤ (cmExpert label pairs mv mc lamda x t i).det
  gram : ∀ t < T, mv + mc - 2 + W ≤ t →
    g0 ≤ ((cmPanel label pairs mv mc lamda (fun t : ℕ => t) x T).gram W (t - (mv + mc - 2))).det

end CovPred
