import Verif.Model.FactorModel
import Verif.Model.Backtests

/-
Model of `/repo/experiments/utils/return_combination.py` and of `construct_rho` (trading_model.py:19-29), function by
function, in exact real arithmetic.

Simplifications: the indices are increasing; `memory` is positive; all predictors of `fit` have the same number of columns.
Not modelled: the text around `trange`, the numerics of cvxpy (a parameter).
-/
namespace CovPred
open Matrix

variable {τ : Type} [LinearOrder τ] {n K : ℕ}

/-! ### Predictors -/

open Classical in
/-- `x[x < 0] = 0` (a missing value compares as false). (return_combination.py:15) -/
noncomputable def dropNegative (x : Option ℝ) : Option ℝ :=
  match x with
  | none => none
  | some v => if v < 0 then some 0 else some v

open Classical in
/-- `x[x > 0] = 0`. (return_combination.py:16) -/
noncomputable def dropPositive (x : Option ℝ) : Option ℝ :=
  match x with
  | none => none
  | some v => if v > 0 then some 0 else some v

/-- return_combination.py:7-17, `feature_engineer`: the positive parts, then the negative parts -/
noncomputable def featureEngineer (rows : List (τ × NRow K)) : List (τ × NRow (K + K)) :=
  rows.map fun p => (p.1, Fin.append (fun k => dropNegative (p.2 k)) (fun k => dropPositive (p.2 k)))

/-- `series.shift(lag)`: row `t` is row `t - lag`, missing if there is none. (return_combination.py:383) -/
def shiftSeries (x : List (Option ℝ)) (lag : Int) : List (Option ℝ) :=
  (List.range x.length).map fun (t : ℕ) =>
    if (t : Int) < lag then none else (x[((t : Int) - lag).toNat]?).join

/-- return_combination.py:374-386, `daily_predictors`: the columns by lag (a lag given twice makes one column). Dropping the
missing rows and aligning with the index puts them back as missing. -/
def dailyPredictors (returns : List (τ × Option ℝ)) (lags : List Int) : Dict Int (List (τ × Option ℝ)) :=
  dictOf (lags.map fun lag => (lag, List.zip (returns.map Prod.fst) (shiftSeries (returns.map Prod.snd) lag)))

open Classical in
/-- return_combination.py:389-403, `ewma_predictors` of finite returns: the columns by half-life. pandas raises `ValueError`
for a half-life that is not positive; `shift(1).dropna()` leaves the rows from the second one on, which are the rows of the
result. -/
noncomputable def ewmaPredictors (returns : List (τ × ℝ)) (halflives : List ℝ) : Except Err (Dict ℝ (List (τ × ℝ))) :=
  if ∃ h ∈ halflives, h ≤ 0 then .error .valueError
  else .ok (dictOf (halflives.map fun h =>
    (h, List.zip (returns.map Prod.fst).tail (pandasEwm h (returns.map Prod.snd)).dropLast)))

/-! ### Ridge regression -/

/-- `series.ewm(com).mean()` on values without `nan`: the first positional argument of pandas' `ewm` is the centre
of mass. (return_combination.py:173) -/
noncomputable def pandasEwmCom (com : ℝ) : List ℝ → List ℝ
  | [] => []
  | x :: rest => x :: pandasEwmLoop (1 - 1 / (1 + com)) x 1 rest

/-- return_combination.py:162-180, `_get_scales` for one predictor; the scales of the first row are missing. -/
noncomputable def getScales (preds : Dict τ (Vec K)) (halflife : ℝ := 250) : Dict τ (Option (Vec K)) :=
  (List.range preds.length).zip (preds.map Prod.fst) |>.map fun p =>
    (p.2, if p.1 = 0 then none
      else some fun k => (pandasEwmCom halflife (preds.map fun r => r.2 k ^ 2))[p.1 - 1]?.getD 0)

/-- return_combination.py:143-147, the weights of the rows -/
noncomputable def decayWeights (weightedHf : ℝ) (N : ℕ) : List ℝ :=
  let beta := Real.exp (Real.log (1 / 2) / weightedHf)
  let w := (List.range N).map fun i => beta ^ i
  (w.map fun v => v / w.sum * N).reverse

open Classical in
/-- return_combination.py:132-158, `_get_weights`; `np.linalg.solve` raises `LinAlgError` for a singular matrix, and the
product with `returns` raises `ValueError` if there is not one return for each row. -/
noncomputable def getWeights (returns : List ℝ) (preds : List (Vec K)) (scale : Vec K) (alpha : ℝ)
    (weightedHf : ℝ := 500) : Except Err (Vec K) :=
  let b := decayWeights weightedHf preds.length
  let A := (List.zipWith (fun c x => c • vecMulVec x x) b preds).sum + alpha • Matrix.diagonal scale
  if returns.length ≠ preds.length then .error .valueError
  else
    let v := (List.zipWith (fun (p : ℝ × Vec K) y => (p.1 * y) • p.2) (List.zip b preds) returns).sum
    if A.det = 0 then .error .linAlgError else .ok (A⁻¹ *ᵥ v)

/-- `frame.loc[start:stop]` of an increasing index. (return_combination.py:211) -/
def locRange {A : Type} (d : Dict τ A) (start stop : τ) : Dict τ A := d.filter fun p => start ≤ p.1 ∧ p.1 ≤ stop

/-- return_combination.py:214-221: the weights of asset `i` for `t_next`. (The scales of the first row are missing; for a
positive `memory` they are not used.) -/
noncomputable def fitAsset (returns : Dict τ (Vec n)) (preds : List (Dict τ (Vec K))) (alpha : ℝ) (tStart tEnd tNext : τ)
    (i : Fin n) : Except Err (Vec K) := do
  let p ← orIndexError preds[i.1]?
  let scale ← getItem (getScales p) tNext
  match scale with
  | none => .error .other
  | some scale =>
    getWeights ((locRange returns tStart tEnd).map fun r => r.2 i) ((locRange p tStart tEnd).map Prod.snd) scale alpha

/-- return_combination.py:207-221: one pass of the loop over `t` -/
noncomputable def fitRow (returns : Dict τ (Vec n)) (preds : List (Dict τ (Vec K))) (memory : ℕ) (alpha : ℝ) (times : List τ)
    (t : ℕ) : Except Err (τ × (Fin n → Vec K)) := do
  let tStart ← orIndexError times[t - memory]?
  let tEnd ← orIndexError times[t - 1]?
  let tNext ← orIndexError times[t]?
  let w ← finM (fitAsset returns preds alpha tStart tEnd tNext)
  pure (tNext, w)

/-- `(times == index).all()`. (return_combination.py:194) -/
def sameIndex (times index : List τ) : Except Err Unit :=
  if times.length ≠ index.length then .error .valueError
  else if times ≠ index then .error .assertionError else .ok ()

/-- return_combination.py:223-226: the predicted returns of one date -/
noncomputable def hatRow (preds : List (Dict τ (Vec K))) (w : τ × (Fin n → Vec K)) : Except Err (τ × Vec n) := do
  let x ← finM fun i : Fin n => do
    let p ← orIndexError preds[i.1]?
    let r ← getItem p w.1
    pure (∑ k, r k * w.2 i k)
  pure (w.1, x)

/-- return_combination.py:182-231, `ReturnCombinator.fit`: the predicted returns and the weights of every asset. -/
noncomputable def combinatorFit (returns : Dict τ (Vec n)) (preds : List (Dict τ (Vec K))) (memory : ℕ) (alpha : ℝ) :
    Except Err (Dict τ (Vec n) × Dict τ (Fin n → Vec K)) :=
  match preds with
  | [] => .error .indexError
  | p0 :: _ => do
    let times := p0.map Prod.fst
    let _ ← preds.mapM fun p => sameIndex times (p.map Prod.fst)
    if ¬ ∀ t ∈ times, t ∈ returns.map Prod.fst then .error .assertionError
    else do
      let ws ← (List.range' memory (times.length - memory)).mapM (fitRow returns preds memory alpha times)
      if preds.length ≠ n then .error .valueError
      else do
        let hats ← ws.mapM (hatRow preds)
        pure (hats, ws)

/-! ### Lasso regression -/

/-- cvxpy on the problem of `_combinator_problem`: the weights for the value of the two parameters and the
constant `alpha`. (return_combination.py:66-95) -/
abbrev LassoSolver (K : ℕ) := List ℝ → List (Vec K) → ℝ → Except Err (Vec K)

/-- return_combination.py:282-292, 359-367: one pass of the loop over `t`. A value of the wrong shape raises `ValueError`
when it is assigned to a parameter. -/
noncomputable def lassoRow (solver : LassoSolver K) (alpha : ℝ) (returns : Dict τ ℝ) (preds : Dict τ (Vec K)) (memory : ℕ)
    (times : List τ) (t : ℕ) : Except Err (τ × Vec K) := do
  let tStart ← orIndexError times[t - memory]?
  let tEnd ← orIndexError times[t - 1]?
  let y := (locRange returns tStart tEnd).map Prod.snd
  let X := (locRange preds tStart tEnd).map Prod.snd
  if y.length ≠ memory then .error .valueError
  else if X.length ≠ memory then .error .valueError
  else do
    let w ← solver y X alpha
    let tNext ← orIndexError times[t]?
    pure (tNext, w)

/-- the predicted return of one date. (return_combination.py:294-296) -/
noncomputable def lassoHat (preds : Dict τ (Vec K)) (w : τ × Vec K) : Except Err (τ × ℝ) := do
  let r ← getItem preds w.1
  pure (w.1, ∑ k, r k * w.2 k)

/-- return_combination.py:245-298, `ReturnCombinatorOld.fit` after `build(memory, K, alpha)`: the predicted returns and the
weights -/
noncomputable def oldFit (solver : LassoSolver K) (memory : ℕ) (alpha : ℝ) (returns : Dict τ ℝ) (preds : Dict τ (Vec K)) :
    Except Err (Dict τ ℝ × Dict τ (Vec K)) :=
  let times := preds.map Prod.fst
  if ¬ ∀ t ∈ times, t ∈ returns.map Prod.fst then .error .assertionError
  else do
    let ws ← (List.range' memory (times.length - memory)).mapM (lassoRow solver alpha returns preds memory times)
    let hats ← ws.mapM (lassoHat preds)
    pure (hats, ws)

/-- return_combination.py:343-371, `ewma_return_combination`, for predictions with the index of the returns -/
noncomputable def ewmaReturnCombination (solver : LassoSolver K) (returns : Dict τ ℝ) (preds : Dict τ (Vec K)) (alpha : ℝ)
    (memory : ℕ) : Except Err (Dict τ ℝ × Dict τ (Vec K)) := do
  let times := returns.map Prod.fst
  let ws ← (List.range' memory (times.length - memory)).mapM (lassoRow solver alpha returns preds memory times)
  let hats ← ws.mapM (lassoHat preds)
  pure (hats, ws)

/-! ### `tune_alpha` -/

open Classical in
/-- `np.corrcoef(x, y)[0, 1]` of two lists of the same length (numpy divides by `N - 1`, which cancels); `nan` if one of them
is constant or empty. (return_combination.py:33-38) -/
noncomputable def npCorr (x y : List ℝ) : Option ℝ :=
  let mx := npMean x
  let my := npMean y
  let sx := (x.map fun a => (a - mx) ^ 2).sum
  let sy := (y.map fun b => (b - my) ^ 2).sum
  if sx = 0 ∨ sy = 0 then none
  else some ((List.zipWith (fun a b => (a - mx) * (b - my)) x y).sum / (Real.sqrt sx * Real.sqrt sy))

/-- `np.sqrt(np.mean((x - y) ** 2))`; `nan` for no values. (return_combination.py:39-48) -/
noncomputable def npRmse (x y : List ℝ) : Option ℝ :=
  match List.zipWith (fun a b => (a - b) ^ 2) x y with
  | [] => none
  | l => some (Real.sqrt (npMean l))

/-- `frame.values.flatten()`. (return_combination.py:35) -/
def flattenRows (d : Dict τ (Vec n)) : List ℝ := d.flatMap fun p => List.ofFn p.2

/-- return_combination.py:20-52, the entries of `tune_alpha` for one `alpha`: correlation, error, weights -/
noncomputable def tuneOne (returns : Dict τ (Vec n)) (preds : List (Dict τ (Vec K))) (memory : ℕ) (alpha : ℝ) :
    Except Err (Option ℝ × Option ℝ × Dict τ (Fin n → Vec K)) := do
  let (hats, ws) ← combinatorFit returns preds memory alpha
  let actual ← restrict returns (hats.map Prod.fst)
  let x := flattenRows hats
  let y := flattenRows actual
  pure (npCorr x y, npRmse x y, ws)

/-- return_combination.py:20-52, `tune_alpha` -/
noncomputable def tuneAlpha (returns : Dict τ (Vec n)) (preds : List (Dict τ (Vec K))) (alphas : List ℝ) (memory : ℕ := 1000) :
    Except Err (List ℝ × List (Option ℝ) × List (Option ℝ) × List (Dict τ (Fin n → Vec K))) := do
  let l ← alphas.mapM (tuneOne returns preds memory)
  pure (alphas, l.map fun r => r.1, l.map fun r => r.2.1, l.map fun r => r.2.2)

/-! ### `construct_rho` -/

open Classical in
/-- the loop of pandas' `ewmcov` of a series with itself (`adjust=True`, `bias=False`) on values without `nan`, after the
first value: mean, covariance, total weight, total squared weight, old weight. A denominator that is not positive gives
`nan`. (trading_model.py:20) -/
noncomputable def ewmVarLoop (factor : ℝ) : ℝ → ℝ → ℝ → ℝ → ℝ → List ℝ → List (Option ℝ)
  | _, _, _, _, _, [] => []
  | mean, cov, sumWt, sumWt2, oldWt, x :: rest =>
    let sumWt := sumWt * factor
    let sumWt2 := sumWt2 * (factor * factor)
    let oldWt := oldWt * factor
    let oldMean := mean
    let mean := if mean ≠ x then (oldWt * oldMean + x) / (oldWt + 1) else mean
    let cov := (oldWt * (cov + (oldMean - mean) * (oldMean - mean)) + (x - mean) * (x - mean)) / (oldWt + 1)
    let sumWt := sumWt + 1
    let sumWt2 := sumWt2 + 1
    let oldWt := oldWt + 1
    let num := sumWt * sumWt
    let den := num - sumWt2
    (if den > 0 then some (num / den * cov) else none) :: ewmVarLoop factor mean cov sumWt sumWt2 oldWt rest

/-- `series.ewm(halflife=h).std()` on values without `nan`; the first value is `nan`. (trading_model.py:20) -/
noncomputable def pandasEwmStd (halflife : ℝ) : List ℝ → List (Option ℝ)
  | [] => []
  | x :: rest => none :: (ewmVarLoop (1 - (1 - Real.exp (-Real.log 2 / halflife))) x 0 1 1 1 rest).map (Option.map Real.sqrt)

/-- trading_model.py:19-29, `construct_rho`, for finite returns (at least one row; `stdevs.iloc[0] = 0` raises `IndexError` for
an empty frame). -/
noncomputable def constructRho (returns : Dict τ (Vec n)) (nDevs : ℝ := 2) : Except Err (Dict τ (Vec n)) :=
  match returns with
  | [] => .error .indexError
  | _ => .ok ((List.range returns.length).zip (returns.map Prod.fst) |>.map fun p =>
      (p.2, fun i => nDevs * (shiftSeries (pandasEwmStd 125 (returns.map fun r => r.2 i)) 1 |>.map (·.getD 0))[p.1]?.getD 0))

end CovPred
