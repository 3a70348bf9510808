import Verif.Spec.LinAlg
import Mathlib.Analysis.SpecialFunctions.Log.Basic
import Mathlib.Analysis.SpecialFunctions.Sqrt
import Mathlib.LinearAlgebra.Matrix.Trace

/-
Vocabulary of statements about `regularization.py`, written without reference to the model of the code.
-/
namespace CovPred
open Matrix

variable {n r k : ℕ}

/-- `(lam, Q)` are the `r` largest eigenvalues (with multiplicity, ascending) of the symmetric matrix `M` with
orthonormal eigenvectors: the last `r` columns of some orthonormal eigenbasis sorted by eigenvalue. -/
def TopEigen (M : Mat n) (lam : Vec r) (Q : Matrix (Fin n) (Fin r) ℝ) : Prop :=
  ∃ (hr : r ≤ n) (U : Mat n) (mu : Vec n), Uᵀ * U = 1 ∧ M = U * diagonal mu * Uᵀ ∧ Monotone mu ∧
    (∀ j : Fin r, lam j = mu ⟨n - r + j, by omega⟩) ∧ ∀ i, ∀ j : Fin r, Q i j = U i ⟨n - r + j, by omega⟩

/-- The `r`-th largest eigenvalue of the symmetric matrix `M` is larger than the next one (for `r >= 1`). -/
def EigenGap (M : Mat n) (r : ℕ) : Prop :=
  ∀ (lam : Vec (r + 1)) (Q : Matrix (Fin n) (Fin (r + 1)) ℝ), TopEigen M lam Q → lam 0 < lam 1

/-- The squared Frobenius norm. -/
def frob (M : Mat n) : ℝ := ∑ i, ∑ j, M i j ^ 2

/-- The correlation matrix of the covariance matrix `S`. -/
noncomputable def corrOf (S : Mat n) : Mat n :=
  Matrix.of fun i j => S i j / (Real.sqrt (S i i) * Real.sqrt (S j j))

/-- The covariance matrix of the factor model `x = F s + e`: loadings `F`, idiosyncratic variances `d`. -/
def factorCov (F : Matrix (Fin n) (Fin k) ℝ) (d : Vec n) : Mat n := F * Fᵀ + diagonal d

/-- Twice the Gaussian log-likelihood per observation (up to a constant) of data with second moment `S` under the
factor model. -/
noncomputable def factorLogLik (S : Mat n) (F : Matrix (Fin n) (Fin k) ℝ) (d : Vec n) : ℝ :=
  -Real.log (factorCov F d).det - (S * (factorCov F d)⁻¹).trace

/-- The maximum-likelihood equations of the factor model for data with second moment `S`: the model reproduces the
variances, and `S Σ̂⁻¹ F = F`. (The derivatives of the likelihood with respect to `d` and `F` vanish.) -/
def LikelihoodEquations (S : Mat n) (F : Matrix (Fin n) (Fin k) ℝ) (d : Vec n) : Prop :=
  (∀ i, factorCov F d i i = S i i) ∧ S * (factorCov F d)⁻¹ * F = F

end CovPred
