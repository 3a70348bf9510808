import Verif.Spec.LinAlg
import Verif.Model.Arr

/-
Contracts of the numpy routines called by `/repo/cvx/covariance/combination.py` (lines 34, 244, 280, 281) in exact
real arithmetic.
-/
namespace CovPred
open Matrix

open Classical in
/-- `np.linalg.inv`: the inverse, `LinAlgError` for a singular matrix. (combination.py:34, 280-284;
trading_model.py:12-13) -/
noncomputable def inv? {n : ℕ} (M : Mat n) : Except Err (Mat n) :=
  if M.det = 0 then .error .linAlgError else .ok M⁻¹

open Classical in
/-- `np.linalg.cholesky`: a lower triangular factor with positive diagonal of the matrix described by the lower
triangle, `LinAlgError` if there is none. (combination.py:34, 244; trading_model.py:13) -/
noncomputable def chol? {n : ℕ} (M : Mat n) : Except Err (Mat n) :=
  if h : ∃ L, IsChol L (symLower M) then .ok h.choose else .error .linAlgError

end CovPred
