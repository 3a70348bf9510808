import Verif.Model.FromEwmas
import Verif.Model.ExpUtils

/-
Model of `/repo/experiments/utils/factor_model.py`, function by function, for finite returns, in exact real arithmetic
(the iterated EWMAs with the special values of floats, as in `Verif.Model.Ewma`).

Not modelled: the numerics of `pca` (`cvx.linalg`, another package) and of cvxpy; both are parameters.
-/
namespace CovPred
open Matrix

variable {τ : Type} [LinearOrder τ] {n k : ℕ} {L : Type} [DecidableEq L]

/-- `pca(returns_train, n_components=k).exposure` (factor_model.py:85-86) of the rows it is given: the exposures, one
row per factor, or an exception. -/
abbrev Pca (n k : ℕ) := List (Vec n) → Except Err (Matrix (Fin k) (Fin n) ℝ)

/-- cvxpy's solver for each number of experts. (factor_model.py:60-103) -/
abbrev Solvers (k : ℕ) := ∀ K : ℕ, Solver k K

/-- `np.linalg.inv`/`cholesky` of a dictionary of covariances need finite entries, see `finiteCov`.
(factor_model.py:60-103) -/
noncomputable def finiteCovs (d : Dict τ (Arr (Fin k × Fin k) XR)) : Except Err (Dict τ (Mat k)) :=
  d.mapM fun q => do
    let S ← finiteCov q.2
    pure (q.1, S)

/-- `result.time, result.covariance` (factor_model.py:47); `None` (a solver failure) has no attribute `time` -/
def timeAndCov {K : ℕ} : Option (Result τ k K) → Except Err (τ × Mat k)
  | none => .error .attributeError
  | some r => .ok (r.time, r.covariance)

/-- factor_model.py:45-47: the dictionary of the results. `list` first runs the generator to its end. -/
def listDict {K : ℕ} (tr : Trace (Result τ k K)) : Except Err (Dict τ (Mat k)) :=
  match tr.err with
  | some e => .error e
  | none => do
    let items ← tr.items.mapM timeAndCov
    pure (dictOf items)

/-- factor_model.py:17-33 for one pair: its label and the dictionary of its covariances -/
noncomputable def iewmaDict (label : XR × XR → L) (frame : Frame τ (Fin k) XR) (pair : XR × XR) :
    Except Err (L × Dict τ (Arr (Fin k × Fin k) XR)) := do
  let rs ← iteratedEwma frame
    { volaHalflife := pair.1, covHalflife := pair.2, minPeriodsVola := k, minPeriodsCov := 2 * k }
  pure (label pair, dictOf (rs.map fun r => (r.time, r.covariance)))

/-- factor_model.py:15-49, `construct_factor_covariance`. `label` is the formatting of a pair. Simplification:
`LinAlgError` for a non-finite covariance is raised before `add_to_diagonal` (which keeps `nan`s). -/
noncomputable def constructFactorCovariance (label : XR × XR → L) (solvers : Solvers k) (factors : Dict τ (Vec k))
    (pairs : List (XR × XR)) (startDate : τ) : Except Err (Dict τ (Mat k)) := do
  let frame : Frame τ (Fin k) XR := factors.map fun p => (p.1, Arr.ofFn fun i => XR.fin (p.2 i))
  -- lines 17-33
  let results ← pairs.mapM (iewmaDict label frame)
  -- lines 36-39
  let kept := (dictOf results).map fun q => (q.1, q.2.filter fun p => startDate ≤ p.1)
  let labels := kept.map Prod.fst
  let dict (i : Fin labels.length) : Dict τ (Arr (Fin k × Fin k) XR) := (kept[i.1]?.map Prod.snd).getD []
  -- lines 42-44
  match pairs with
  | [] => throw .indexError
  | fast :: _ =>
    let sigmas ← finM fun i => finiteCovs (dict i)
    let sigmas := fun i : Fin labels.length =>
      if labels[i.1] = label fast then addToDiagonal (sigmas i) 0.05 else sigmas i
    -- line 45
    let comb ← fromSigmas sigmas factors none
    listDict (comb.solve (solvers labels.length) (some 10) none)

/-- factor_model.py:52-54, the namedtuple `FactorModel` -/
structure FactorModel (τ : Type) (n k : ℕ) where
  time : τ
  exposure : Matrix (Fin k) (Fin n) ℝ
  factorCov : Mat k
  diagonal : Vec n

/-- `times[i]` with a possibly negative index. (factor_model.py:74-78) -/
def pyGet {A : Type} (l : List A) (i : Int) : Except Err A :=
  let j := if i < 0 then l.length + i else i
  if j < 0 then .error .indexError
  else match l[j.toNat]? with
    | some a => .ok a
    | none => .error .indexError

/-- The adjusted exponential average of pandas, `series.ewm(halflife=h, min_periods=0).mean()`, on values without
`nan`: the loop keeps the average and the total weight. (factor_model.py:97) -/
noncomputable def pandasEwmLoop (factor : ℝ) : ℝ → ℝ → List ℝ → List ℝ
  | _, _, [] => []
  | weighted, oldWt, x :: rest =>
    let oldWt := oldWt * factor
    let weighted := (oldWt * weighted + x) / (oldWt + 1)
    weighted :: pandasEwmLoop factor weighted (oldWt + 1) rest

/-- the same from the first value on; `factor` is `1 - alpha`, `alpha = 1 - exp(-ln 2 / halflife)`.
(factor_model.py:97) -/
noncomputable def pandasEwm (halflife : ℝ) : List ℝ → List ℝ
  | [] => []
  | x :: rest => x :: pandasEwmLoop (1 - (1 - Real.exp (-Real.log 2 / halflife))) x 1 rest

/-- `(unexplained**2).ewm(halflife=21, min_periods=0).mean()` (factor_model.py:97), column by column -/
noncomputable def ewmSquares (rows : Dict τ (Vec n)) : Dict τ (Vec n) :=
  (List.range rows.length).zip (rows.map Prod.fst) |>.map fun p =>
    (p.2, fun i => (pandasEwm 21 (rows.map fun r => r.2 i ^ 2))[p.1]?.getD 0)

/-- factor_model.py:99-103: `diag_temp.loc[time]` and the item -/
def factorItem (exposure : Matrix (Fin k) (Fin n) ℝ) (diag : Dict τ (Vec n)) (q : τ × Mat k) :
    Except Err (FactorModel τ n k) :=
  match diag.lookup q.1 with
  | none => .error .keyError
  | some d => .ok { time := q.1, exposure := exposure, factorCov := q.2, diagonal := d }

/-- factor_model.py:74-103, the body of the loop for one `t`: everything that is computed before the first `yield`,
then the items (`diag_temp.loc[time]` may raise `KeyError`). -/
noncomputable def factorBlock (label : XR × XR → L) (pca : Pca n k) (solvers : Solvers k) (returns : Dict τ (Vec n))
    (pairs : List (XR × XR)) (updateFrequency memory t : ℕ) : List (FactorModel τ n k) × Option Err :=
  let times := returns.map Prod.fst
  let prep : Except Err (Matrix (Fin k) (Fin n) ℝ × Dict τ (Mat k) × Dict τ (Vec n)) := do
    let trainEnd ← pyGet times ((t : Int) - 1)
    let trainStart ← pyGet times ((t : Int) - memory)
    let testStart ← pyGet times ((t : Int) - 10)
    let testEnd ← pyGet times (min ((t : Int) + updateFrequency - 1) ((times.length : Int) - 1))
    let train := returns.filter fun p => p.1 ≤ trainEnd ∧ trainStart ≤ p.1
    let test := returns.filter fun p => p.1 ≤ testEnd
    let exposure ← pca (train.map Prod.snd)
    let factors := test.map fun p => (p.1, exposure *ᵥ p.2)
    let unexplained := test.map fun p => (p.1, p.2 - (exposure *ᵥ p.2) ᵥ* exposure)
    let cov ← constructFactorCovariance label solvers factors pairs testStart
    pure (exposure, cov, ewmSquares unexplained)
  match prep with
  | .error e => ([], some e)
  | .ok (exposure, cov, diag) =>
    genMap (factorItem exposure diag) cov

/-- The loop of a generator over blocks: the items of the blocks in order, until one of them raises.
(factor_model.py:73-103) -/
def genBlocks {A B : Type} (f : A → List B × Option Err) : List A → List B × Option Err
  | [] => ([], none)
  | a :: rest =>
    match f a with
    | (items, some e) => (items, some e)
    | (items, none) =>
      let out := genBlocks f rest
      (items ++ out.1, out.2)

/-- `range(memory, T, update_frequency)` for a positive step. (factor_model.py:73) -/
def blockStarts (memory T step : ℕ) : List ℕ :=
  (List.range ((T - memory + step - 1) / step)).map fun j => memory + j * step

/-- factor_model.py:57-103, `construct_cmiewma_factor_model`. A step of 0 raises `ValueError`; negative arguments are
not modelled. -/
noncomputable def constructFactorModel (label : XR × XR → L) (pca : Pca n k) (solvers : Solvers k)
    (returns : Dict τ (Vec n)) (pairs : List (XR × XR)) (updateFrequency : ℕ := 20) (memory : ℕ := 250) :
    List (FactorModel τ n k) × Option Err :=
  if updateFrequency = 0 then ([], some .valueError)
  else genBlocks (factorBlock label pca solvers returns pairs updateFrequency memory)
    (blockStarts memory returns.length updateFrequency)

/-- factor_model.py:112-114 and 130-132, the covariance of one item -/
def FactorModel.full (m : FactorModel τ n k) : Mat n :=
  m.exposureᵀ * m.factorCov * m.exposure + Matrix.diagonal m.diagonal

/-- factor_model.py:106-116, `from_factor_to_full_covariance` -/
def fromFactorToFullCovariance (ms : List (FactorModel τ n k)) : Dict τ (Mat n) :=
  dictOf (ms.map fun m => (m.time, m.full))

/-- factor_model.py:119-138, `factor_log_likelihood` -/
noncomputable def factorLogLikelihood (returns : List (τ × NRow n)) (ms : List (FactorModel τ n k)) :
    Except Err (List (τ × Option ℝ)) :=
  ms.mapM fun m => match (shiftBack returns).lookup m.time with
    | none => .error .keyError
    | some r => do
      let ll ← singleLogLikelihoodN r m.full 0
      pure (m.time, ll)

end CovPred
