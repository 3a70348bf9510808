import Verif.Model.LinAlg
import Verif.Model.Combination
import Verif.Model.Regularization
import Mathlib.Analysis.SpecialFunctions.Log.Basic
import Mathlib.Analysis.Real.Pi.Bounds

/-
Model of `/repo/experiments/utils/experiment_utils.py`, function by function, in exact real arithmetic.

`yearly_SR` is in Model/YearlySR.lean. Not modelled: plotting, the asset labels of the frames.
-/
namespace CovPred
open Matrix

variable {τ : Type} [LinearOrder τ] {n : ℕ}

/-- `np.outer(x, x)` of a real vector, `x.reshape(-1, 1) @ x.reshape(1, -1)`. (experiment_utils.py:41, 256) -/
def outerR (x : Vec n) : Mat n := Matrix.of fun i j => x i * x j

/-- Row `t` of an array of rows; only used for rows that exist. (experiment_utils.py:39-42, 73-86) -/
def rowAt (rows : List (τ × Vec n)) (t : ℕ) : Vec n := (rows[t]?.map Prod.snd).getD 0

/-- experiment_utils.py:255-270: `Sigmas[t]` of `rolling_window`. -/
noncomputable def rollingSigma (rows : List (τ × Vec n)) (memory : ℕ) : ℕ → Mat n
  | 0 => outerR (rowAt rows 0)
  | s + 1 =>
    let t := s + 1
    let alphaOld : ℝ := 1 / (min (t + 1) memory : ℕ)
    let alphaNew : ℝ := 1 / (min (t + 2) memory : ℕ)
    if t ≥ memory then
      (alphaNew / alphaOld) • rollingSigma rows memory s
        + alphaNew • (outerR (rowAt rows t) - outerR (rowAt rows (t - memory)))
    else
      (alphaNew / alphaOld) • rollingSigma rows memory s + alphaNew • outerR (rowAt rows t)

/-- experiment_utils.py:247-278, `rolling_window`. `returns[0]` of an empty frame raises `IndexError`; a memory of `0`
divides by zero (`Err.other` is `ZeroDivisionError`) as soon as there is a second row. A negative memory is not
modelled. -/
noncomputable def rollingWindow (rows : List (τ × Vec n)) (memory : ℕ) (minPeriods : Int := 20) :
    Except Err (Dict τ (Mat n)) :=
  let minPeriods := max minPeriods 1
  if rows.length = 0 then .error .indexError
  else if memory = 0 ∧ 2 ≤ rows.length then .error .other
  else
    let sigmas := (List.range rows.length).map (rollingSigma rows memory)
    .ok (List.zip ((rows.map Prod.fst).drop (minPeriods - 1).toNat) (sigmas.drop (minPeriods - 1).toNat))

/-- The positions of the `True` entries of `np.triu(np.ones((n, n)))` in the order in which numpy assigns to them: row
by row. (experiment_utils.py:288) -/
def upperPositions (n : ℕ) : List (Fin n × Fin n) :=
  ((List.finRange n).flatMap fun i => (List.finRange n).map fun j => (i, j)).filter fun p => p.1 ≤ p.2

/-- experiment_utils.py:281-294, `from_row_to_covariance`. A row of the wrong length raises `ValueError`, except that
numpy repeats a single value. -/
def fromRowToCovariance (row : List ℝ) (n : ℕ) : Except Err (Mat n) :=
  let pos := upperPositions n
  if row.length = pos.length ∨ row.length = 1 then
    let row := if row.length = pos.length then row else List.replicate pos.length (row.headD 0)
    -- the matrix is zero, then its upper triangle is set
    let upper : Mat n := Matrix.of fun i j => if i ≤ j then (row[pos.idxOf (i, j)]?).getD 0 else 0
    -- then its lower triangle is set from the transposed matrix
    .ok (Matrix.of fun i j => if j ≤ i then upperᵀ i j else upper i j)
  else .error .valueError

/-- experiment_utils.py:297-305, `from_row_matrix_to_covariance` -/
def fromRowMatrixToCovariance (M : List (List ℝ)) (n : ℕ) : Except Err (List (Mat n)) :=
  M.mapM fun row => fromRowToCovariance row n

/-- experiment_utils.py:308-318, `add_to_diagonal`. It assigns into the dictionary it is given and returns it; the
model returns the dictionary after the call, which is both the result and the new state of the argument. -/
def addToDiagonal (sigmas : Dict τ (Mat n)) (lamda : ℝ) : Dict τ (Mat n) :=
  sigmas.map fun p => (p.1, p.2 + lamda • diagonal (fun i => p.2 i i))

/-- experiment_utils.py:72-86, `turnover` of `T >= 2` rows of weights with non-zero absolute sums (otherwise numpy gives
`nan` or `inf`). -/
noncomputable def turnover (weights : List (Vec n)) : ℝ :=
  let daily := List.zipWith (fun old new => (∑ i, |new i - old i|) / ∑ i, |old i|) weights weights.tail
  252 * (daily.sum / daily.length) * 100

/-- experiment_utils.py:89-97, `_single_log_likelihood`, for a positive determinant (otherwise `np.log` gives `nan` or
`-inf`); a singular matrix raises `LinAlgError`. -/
noncomputable def singleLogLikelihood (r : Vec n) (Sigma : Mat n) (m : Vec n) : Except Err ℝ := do
  let SigmaInv ← inv? Sigma
  let det := Sigma.det
  pure (-(n : ℝ) / 2 * Real.log (2 * Real.pi) - 1 / 2 * Real.log det
    - 1 / 2 * ((r - m) ᵥ* SigmaInv ⬝ᵥ (r - m)))

/-- experiment_utils.py:180-212, `log_likelihood`: the rows of the three arrays. `np.linalg.inv` of the stack raises
`LinAlgError` if one of the matrices is singular. -/
noncomputable def logLikelihood (rows : List (Vec n × Mat n)) (means : Option (List (Vec n)) := none)
    (scale : ℝ := 1) : Except Err (List ℝ) :=
  let means := means.getD (rows.map fun _ => 0)
  (List.zip rows means).mapM fun p => do
    let r := scale • p.1.1
    let m := scale • p.2
    let S := (scale ^ 2) • p.1.2
    let Sinv ← inv? S
    pure (-(n : ℝ) / 2 * Real.log (2 * Real.pi) - 1 / 2 * Real.log S.det
      - 1 / 2 * ((r - m) ᵥ* Sinv ⬝ᵥ (r - m)))

/-- experiment_utils.py:215-244, `log_likelihood_sequential`: the local array `ll` after the loop, and what the function
returns (it has no `return` statement, so `None`). -/
noncomputable def logLikelihoodSequential (rows : List (Vec n × Mat n)) (means : Option (List (Vec n)) := none)
    (scale : ℝ := 1) : Except Err (List ℝ × Option (List ℝ)) := do
  let ll ← logLikelihood rows means scale
  pure (ll, none)

/-- A row of returns; `none` is `nan`. (experiment_utils.py:36, 112, 147) -/
abbrev NRow (n : ℕ) := Fin n → Option ℝ

/-- `returns.shift(-1)`: the row labelled `t` holds the values of the next row, the last row is `nan`.
(experiment_utils.py:36, 112, 147) -/
def shiftBack (rows : List (τ × NRow n)) : List (τ × NRow n) :=
  List.zip (rows.map Prod.fst) ((rows.map Prod.snd).tail ++ [fun _ => none])

open Classical in
/-- `_single_log_likelihood` of a row that may contain `nan`: then the quadratic form is `nan` (`none`).
(experiment_utils.py:89-97) -/
noncomputable def singleLogLikelihoodN (r : NRow n) (Sigma : Mat n) (m : Vec n) : Except Err (Option ℝ) := do
  let ll ← singleLogLikelihood (fun i => (r i).getD 0) Sigma m
  pure (if ∀ i, (r i).isSome then some ll else none)

/-- The loop body shared by experiment_utils.py:119-131, 155-164 and 166-175: skip the time if the first asset of the
next row is missing, else append its log-likelihood. `returns.loc[time]` and `means.loc[time]` may raise `KeyError`.
`n + 1` assets: a frame without columns raises `IndexError`. -/
noncomputable def llStep (shifted : List (τ × NRow (n + 1))) (means : Option (Dict τ (Vec (n + 1)))) (time : τ)
    (cov : Mat (n + 1)) : Except Err (Option (τ × Option ℝ)) :=
  match shifted.lookup time with
  | none => .error .keyError
  | some r =>
    if (r 0).isNone then .ok none
    else do
      let m ← match means with
        | none => .ok 0
        | some ms => match ms.lookup time with
          | none => .error .keyError
          | some m => .ok m
      let ll ← singleLogLikelihoodN r cov m
      pure (some (time, ll))

/-- A sequence of loop bodies that append at most one item each. (experiment_utils.py:119-131) -/
def appendM {A B : Type} (f : A → Except Err (Option B)) (l : List A) : Except Err (List B) := do
  let xs ← l.mapM f
  pure (xs.filterMap id)

/-- experiment_utils.py:100-133, `log_likelihood_low_rank` -/
noncomputable def logLikelihoodLowRank {k : ℕ} (returns : List (τ × NRow (n + 1)))
    (sigmas : Dict τ (LowRankDiag (n + 1) k)) (means : Option (Dict τ (Vec (n + 1))) := none) :
    Except Err (List (τ × Option ℝ)) :=
  appendM (fun p => llStep (shiftBack returns) means p.1 (p.2.F * p.2.Fᵀ + diagonal p.2.d)) sigmas

/-- experiment_utils.py:136-177, `log_likelihood_regularized`. With a rank the covariances are regularised first (a
generator: its exceptions come in the order of the loop). -/
noncomputable def logLikelihoodRegularized (eigh : Eigh) (returns : List (τ × NRow (n + 1)))
    (sigmas : Dict τ (Mat (n + 1))) (means : Option (Dict τ (Vec (n + 1))) := none) (r : Option ℕ := none) :
    Except Err (List (τ × Option ℝ)) :=
  match r with
  | none => appendM (fun p => llStep (shiftBack returns) means p.1 p.2) sigmas
  | some r => appendM (fun p => do
      let x ← regularizeOne eigh p.2 r false
      match x with
      | .dense cov => llStep (shiftBack returns) means p.1 cov
      | .lowRank _ => .error .other) sigmas

/-- the dictionary of a generator, if it does not raise. (experiment_utils.py:329-330) -/
def genDict {A : Type} (g : List A × Option Err) : Except Err (List A) :=
  match g.2 with
  | none => .ok g.1
  | some e => .error e

/-- the low-rank results of a dictionary of results. (experiment_utils.py:328-332) -/
def onlyLowRank {r : ℕ} (l : List (τ × RegOut n r)) : Dict τ (LowRankDiag n r) :=
  l.filterMap fun p => match p.2 with
    | .lowRank x => some (p.1, x)
    | .dense _ => none

/-- experiment_utils.py:328-332, `em_low_rank_log_likelihood` -/
noncomputable def emLowRankLogLikelihood (eigh : Eigh) (returns : List (τ × NRow (n + 1)))
    (sigmas : Dict τ (Mat (n + 1))) (rank : ℕ) : Except Err (List (τ × Option ℝ)) := do
  let low ← genDict (regularizeCovariance eigh sigmas rank true)
  let em ← genDict (emRegularizeCovariance sigmas (onlyLowRank low))
  logLikelihoodLowRank returns em

/-- The labels in the order of their first occurrence, `index.unique()`. (experiment_utils.py:12, 31) -/
def uniqueLabels {A : Type} (rows : List (τ × A)) : List τ := (rows.map Prod.fst).reverse.dedup.reverse

/-- `frame.loc[time]`: the rows with that label. (experiment_utils.py:13, 32) -/
def rowsAt {A : Type} (rows : List (τ × A)) (t : τ) : List A := (rows.filter fun p => p.1 = t).map Prod.snd

/-- experiment_utils.py:11-16, `_realized_covariance`: `cov(ddof=0) * T` per label. A label with a single row gives a
`Series`, whose `cov` needs an argument (`TypeError`). -/
noncomputable def realizedCovariance (rows : List (τ × Vec n)) : Except Err (List (τ × Mat n)) :=
  (uniqueLabels rows).mapM fun t =>
    let rs := rowsAt rows t
    let T := rs.length
    if T = 1 then .error .typeError
    else
      let mean : Vec n := (1 / (T : ℝ)) • rs.sum
      .ok (t, (T : ℝ) • ((1 / (T : ℝ)) • (rs.map fun r => outerR (r - mean)).sum))

/-- experiment_utils.py:30-32, `realized_volas` for labels with several rows (for a single row `sum(axis=0)` of the
`Series` is a number, the sum over the assets; that case is not modelled: `Err.other`). -/
noncomputable def realizedVolas (rows : List (τ × Vec n)) : Except Err (List (τ × Vec n)) :=
  (uniqueLabels rows).mapM fun t =>
    let rs := rowsAt rows t
    if rs.length = 1 then .error .other
    else .ok (t, fun i => Real.sqrt (rs.map fun r => r i ^ 2).sum)

open Classical in
/-- experiment_utils.py:35-45, `MSE`; `none` is `nan`. -/
noncomputable def mse (returns : List (τ × NRow n)) (covariances : Dict τ (Mat n)) :
    Except Err (List (τ × Option ℝ)) :=
  covariances.mapM fun p =>
    match (shiftBack returns).lookup p.1 with
    | none => .error .keyError
    | some r => .ok (p.1,
        if ∀ i, (r i).isSome then
          some (Real.sqrt (∑ i, ∑ j, (p.2 i j - outerR (fun i => (r i).getD 0) i j) ^ 2) ^ 2)
        else none)

/-- experiment_utils.py:321-325, `ecdf` -/
noncomputable def ecdf (data : List ℝ) : List ℝ × List ℝ :=
  (data.mergeSort (fun a b => decide (a ≤ b)), (List.range data.length).map fun k => ((k + 1 : ℕ) : ℝ) / data.length)

end CovPred
