import Verif.Spec.Combination

/-
Vocabulary for property C195: the same experts' covariances, with other returns and means.
-/
namespace CovPred

variable {τ : Type} {n K : ℕ}

/-- `Q` has the length, the times and the covariances of `P`; returns and means may differ. -/
structure Panel.SameCovariances (P Q : Panel τ n K) : Prop where
  len : Q.len = P.len
  time : ∀ t < P.len, Q.time t = P.time t
  cov : ∀ t < P.len, ∀ k, Q.cov t k = P.cov t k

/-- The squared length of the return of position `s` standardised by expert `k`, `(r - mu)ᵀ S⁻¹ (r - mu)`. -/
noncomputable def Panel.surprise (P : Panel τ n K) (s : ℕ) (k : Fin K) : ℝ :=
  (P.ret s - P.mean (s - 1) k) ⬝ᵥ ((P.cov (s - 1) k)⁻¹.mulVec (P.ret s - P.mean (s - 1) k))

end CovPred
