import Verif.Model.ExpUtils

/-
Model of the vectorised helpers of `/repo/experiments/utils/iterated_ewma_vec.py` in exact real arithmetic. An array with a
time axis is the list of its rows or matrices.

Not modelled: non-finite entries, correlation matrices of size zero.
-/
namespace CovPred
open Matrix

variable {n : ℕ}

/-- iterated_ewma_vec.py:102-114, `_get_realized_covs`: `returns @ returns.transpose(0, 2, 1)` on columns -/
def getRealizedCovs (returns : List (Vec n)) : List (Mat n) := returns.map outerR

/-- iterated_ewma_vec.py:117-136, `_get_realized_vars` -/
def getRealizedVars (returns : List (Vec n)) : List (Vec n) := returns.map fun r i => r i ^ 2

/-- iterated_ewma_vec.py:139-147, `_refactor_to_corr`, for positive variances (otherwise numpy gives `nan` or `inf`). -/
noncomputable def refactorToCorr (sigmas : List (Mat n)) : List (Mat n) :=
  sigmas.map fun S =>
    let v : Vec n := fun i => Real.sqrt (S i i)
    Matrix.of fun i j => S i j / (v i * v j)

/-- The number of entries of an axis of length `n` that the slice `:r` keeps. (iterated_ewma_vec.py:172-173) -/
def sliceStop (n : ℕ) (r : Int) : ℕ := if r < 0 then (n + r).toNat else min r.toNat n

theorem sliceStop_le (n : ℕ) (r : Int) : sliceStop n r ≤ n := by
  unfold sliceStop
  split <;> omega

/-- iterated_ewma_vec.py:150-182, `_regularize_correlation` for one matrix of the stack: `np.linalg.eigh` gives all the
eigenvalues, ascending; they are reversed, the slice `:r` is kept. -/
noncomputable def regularizeCorrelationRow (eigh : Eigh) (R : Mat n) (r : Int) : Mat n :=
  let lamda : Vec n := fun j => (eigh n R n).1 j.rev
  let Q : Mat n := Matrix.of fun i j => (eigh n R n).2 i j.rev
  let lamdaR : Vec (sliceStop n r) := fun j => lamda (Fin.castLE (sliceStop_le n r) j)
  let Qr : Matrix (Fin n) (Fin (sliceStop n r)) ℝ := Matrix.of fun i j => Q i (Fin.castLE (sliceStop_le n r) j)
  let Rlo : Mat n := Qr * diagonal lamdaR * Qrᵀ
  let D : Mat n := diagonal fun i => (R - Rlo) i i
  Rlo + D

/-- iterated_ewma_vec.py:150-182, `_regularize_correlation` of the vectorised code. `np.stack` of no arrays raises
`ValueError`. -/
noncomputable def regularizeCorrelationVec (eigh : Eigh) (R : List (Mat n)) (r : Int) : Except Err (List (Mat n)) :=
  if R = [] then .error .valueError else .ok (R.map fun R => regularizeCorrelationRow eigh R r)

/-- iterated_ewma_vec.py:280-283, the Engle formula: `D * R * D` with the rows `D` of volatilities. -/
def engle (D : List (Vec n)) (R : List (Mat n)) : List (Mat n) :=
  List.zipWith (fun d R => Matrix.of fun i j => d i * R i j * d j) D R

end CovPred
