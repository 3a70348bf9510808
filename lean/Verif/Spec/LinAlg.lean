import Mathlib.LinearAlgebra.Matrix.PosDef
import Mathlib.LinearAlgebra.Matrix.Block
import Mathlib.Algebra.Order.Star.Real
import Mathlib.Data.Real.Star
import Mathlib.Data.Real.Basic

/-
Vocabulary of linear algebra used by statements about `combination.py` and `regularization.py`.
-/
namespace CovPred
open Matrix

/-- real square matrices -/
abbrev Mat (n : ℕ) := Matrix (Fin n) (Fin n) ℝ
/-- real vectors -/
abbrev Vec (n : ℕ) := Fin n → ℝ

/-- `L` is lower triangular -/
def LowerTri {n : ℕ} (L : Mat n) : Prop := ∀ i j, i < j → L i j = 0

/-- `L` is the Cholesky factor of `M`: lower triangular, positive diagonal, `L Lᵀ = M`. -/
structure IsChol {n : ℕ} (L M : Mat n) : Prop where
  lower : LowerTri L
  pos : ∀ i, 0 < L i i
  eq : L * Lᵀ = M

/-- `w` is a vector of weights: non-negative, sum one. -/
structure Simplex {K : ℕ} (w : Vec K) : Prop where
  nonneg : ∀ k, 0 ≤ w k
  sum_one : ∑ k, w k = 1

/-- The symmetric matrix described by the lower triangle of `M` (`np.linalg.cholesky` does not read the upper
triangle). -/
def symLower {n : ℕ} (M : Mat n) : Mat n := Matrix.of fun i j => if j ≤ i then M i j else M j i

/-- A covariance matrix `_cholesky_precision` accepts: invertible, and the lower triangle of the inverse describes a
positive definite matrix. -/
structure Usable {n : ℕ} (S : Mat n) : Prop where
  invertible : S.det ≠ 0
  posDef : (symLower S⁻¹).PosDef

end CovPred
