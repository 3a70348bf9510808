import Verif.Model.LinAlg
import Verif.Model.Combination
import Verif.Spec.Regularization

/-
Model of `/repo/cvx/covariance/regularization.py`, function by function, in exact real arithmetic.

Not modelled: pandas labels of the assets (rows are identified by position), frames of different sizes in one
dictionary, empty frames (`n = 0`), non-finite entries.
-/
namespace CovPred
open Matrix

variable {τ : Type} [LinearOrder τ] {n k : ℕ}

/-- The eigenvalue routine `sc.linalg.eigh(a=R, subset_by_index=[n - r, n - 1])` for `1 <= r <= n`
(regularization.py:29); which orthonormal eigenvectors it returns is up to LAPACK. -/
abbrev Eigh := ∀ n : ℕ, Mat n → (r : ℕ) → Vec r × Matrix (Fin n) (Fin r) ℝ

/-- The contract of `eigh`: it reads the lower triangle and returns the `r` largest eigenvalues, ascending, and
orthonormal eigenvectors. (regularization.py:29) -/
def Eigh.Correct (eigh : Eigh) : Prop :=
  ∀ (n : ℕ) (M : Mat n) (r : ℕ), 1 ≤ r → r ≤ n → TopEigen (symLower M) (eigh n M r).1 (eigh n M r).2

/-- regularization.py:11, `LowRank` -/
structure LowRank (n r : ℕ) where
  loading : Matrix (Fin n) (Fin r) ℝ
  lambda : Vec r
  D : Mat n
  approximation : Mat n

/-- regularization.py:12, `LowRankDiag` -/
structure LowRankDiag (n k : ℕ) where
  F : Matrix (Fin n) (Fin k) ℝ
  d : Vec n

/-- regularization.py:15-44, `_regularize_correlation`; a rank outside `1..n` makes `subset_by_index` invalid
(`ValueError`). A negative rank, which fails in the same way, is not modelled. -/
noncomputable def regularizeCorrelation (eigh : Eigh) (R : Mat n) (r : ℕ) : Except Err (LowRank n r) :=
  if r < 1 ∨ n < r then .error .valueError
  else
    let lamda0 := (eigh n R r).1
    let Q0 := (eigh n R r).2
    -- `lamda[::-1]` and `Q[:, ::-1]`
    let lamda : Vec r := fun j => lamda0 j.rev
    let Q : Matrix (Fin n) (Fin r) ℝ := Matrix.of fun i j => Q0 i j.rev
    let Rlo : Mat n := Q * diagonal lamda * Qᵀ
    let D : Mat n := diagonal fun i => (R - Rlo) i i
    .ok { loading := Q, lambda := lamda, D := D, approximation := Rlo + D }

/-- What `regularize_covariance` yields for one time. (regularization.py:62-74) -/
inductive RegOut (n r : ℕ) where
  | dense (cov : Mat n)
  | lowRank (x : LowRankDiag n r)

open Classical in
/-- regularization.py:57-75, the body of the loop of `regularize_covariance`. A variance that is not positive gives
a `nan` in `R` (`sqrt` of a negative number, or `inf * 0`), and `eigh` rejects it with `ValueError`. Simplification:
`np.sqrt` of a negative eigenvalue (line 66) is `nan`, here `0`; the theorems about the low-rank format assume a
positive semidefinite matrix. -/
noncomputable def regularizeOne (eigh : Eigh) (sigma : Mat n) (r : ℕ) (lowRankFormat : Bool) :
    Except Err (RegOut n r) :=
  if ∃ i, sigma i i ≤ 0 then .error .valueError
  else
    let vola : Vec n := fun i => Real.sqrt (sigma i i)
    let R : Mat n := Matrix.of fun i j => 1 / vola i * sigma i j * (1 / vola j)
    do
      let R ← regularizeCorrelation eigh R r
      if lowRankFormat then
        pure (.lowRank
          { F := Matrix.of fun i j => vola i * R.loading i j * Real.sqrt (R.lambda j)
            d := fun i => vola i * R.D i i * vola i })
      else
        pure (.dense (Matrix.of fun i j => vola i * R.approximation i j * vola j))

/-- A generator that yields `f x` for each item and stops at the first exception. (regularization.py:56-74, 124-126) -/
def genMap {A B : Type} (f : A → Except Err B) : List A → List B × Option Err
  | [] => ([], none)
  | a :: as =>
    match f a with
    | .error e => ([], some e)
    | .ok b => (b :: (genMap f as).1, (genMap f as).2)

/-- regularization.py:48-75, `regularize_covariance` -/
noncomputable def regularizeCovariance (eigh : Eigh) (sigmas : Dict τ (Mat n)) (r : ℕ) (lowRankFormat : Bool := false) :
    List (τ × RegOut n r) × Option Err :=
  genMap (fun p => do
    let x ← regularizeOne eigh p.2 r lowRankFormat
    pure (p.1, x)) sigmas

/-- The three values `_e_step` returns. (regularization.py:80-87) -/
structure EStep (n k : ℕ) where
  Cxx : Mat n
  Cxs : Matrix (Fin n) (Fin k) ℝ
  Css : Mat k

open Classical in
/-- regularization.py:80-87, `_e_step`. A zero in `d` (an infinite reciprocal) is outside the model. -/
noncomputable def eStep (Sigma : Mat n) (x : LowRankDiag n k) : Except Err (EStep n k) :=
  if ∃ i, x.d i = 0 then .error .other
  else do
    -- `F.T * (1 / d)`: column `i` of `F.T` divided by `d_i`
    let FTd : Matrix (Fin k) (Fin n) ℝ := Matrix.of fun j i => x.Fᵀ j i * (1 / x.d i)
    let G ← inv? (FTd * x.F + 1)
    let L : Matrix (Fin k) (Fin n) ℝ := Matrix.of fun j i => (G * x.Fᵀ) j i * (1 / x.d i)
    pure { Cxx := Sigma, Cxs := Sigma * Lᵀ, Css := L * (Sigma * Lᵀ) + G }

/-- regularization.py:90-94, `_m_step` -/
noncomputable def mStep (e : EStep n k) : Except Err (LowRankDiag n k) := do
  let CssInv ← inv? e.Css
  let F := e.Cxs * CssInv
  pure
    { F := F
      d := fun i => e.Cxx i i - 2 * (∑ j, e.Cxs i j * F i j) + ∑ j, F i j * (F * e.Css) i j }

/-- One pass of the loop of `_em_low_rank_approximation` (regularization.py:109-110) -/
noncomputable def emStep (sigma : Mat n) (x : LowRankDiag n k) : Except Err (LowRankDiag n k) := do
  let e ← eStep sigma x
  mStep e

/-- `m` passes of that loop. (regularization.py:109-110) -/
noncomputable def emLoop (sigma : Mat n) : ℕ → LowRankDiag n k → Except Err (LowRankDiag n k)
  | 0, x => pure x
  | m + 1, x => do
    let y ← emStep sigma x
    emLoop sigma m y

/-- regularization.py:97-112, `_em_low_rank_approximation`: five passes -/
noncomputable def emLowRankApproximation (sigma : Mat n) (initial : LowRankDiag n k) : Except Err (LowRankDiag n k) :=
  emLoop sigma 5 initial

/-- regularization.py:115-126, `em_regularize_covariance` -/
noncomputable def emRegularizeCovariance (sigmas : Dict τ (Mat n)) (initial : Dict τ (LowRankDiag n k)) :
    List (τ × LowRankDiag n k) × Option Err :=
  genMap (fun p =>
    match initial.lookup p.1 with
    | none => .error .keyError
    | some x => do
      let y ← emLowRankApproximation p.2 x
      pure (p.1, y)) sigmas

end CovPred
