import Verif.Model.FactorModel

/-
Model of the cells of `/repo/experiments/extensions/nonzero_means.ipynb` that fit CM-IEWMA with means: lines 107-119 and 971-988
(`Sigmas`, `mus`, `from_sigmas(..., means=mus)` and the three tables). Line numbers are those of the notebook file.

The returns have no missing entries. Not modelled: the numerics of cvxpy, a parameter.
-/
namespace CovPred

variable {τ : Type} [LinearOrder τ] {n K : ℕ}

/-- nonzero_means.ipynb:976-978 (111-113), the entries `Sigmas[i]` and `mus[i]`; both lists of pairs may be too short. -/
noncomputable def meanExpert (covPairs meanPairs : List (ℝ × ℝ)) (mv mc : ℕ) (frame : Frame τ (Fin n) XR) (i : Fin K) :
    Except Err (Dict τ (Arr (Fin n × Fin n) XR) × Dict τ (Arr (Fin n) XR)) := do
  let cov ← pyGet covPairs i.1
  let mu ← pyGet meanPairs i.1
  let iewma ← iteratedEwma frame
    { volaHalflife := XR.fin cov.1, covHalflife := XR.fin cov.2, minPeriodsVola := mv, minPeriodsCov := mc, mean := true,
      muHalflife1 := some (XR.fin mu.1), muHalflife2 := some (XR.fin mu.2) }
  pure (dictOf (iewma.map fun r => (r.time, r.covariance)), dictOf (iewma.map fun r => (r.time, r.mean)))

/-- the tables `cm_iewma_ff_with_mean`, `means` and `weights_ff_with_mean`. (nonzero_means.ipynb:986-988) -/
structure MeanTables (τ : Type) (n K : ℕ) where
  covariances : Dict τ (Mat n)
  means : Dict τ (Vec n)
  weights : Dict τ (Vec K)

/-- `result.time`, `result.covariance`, ... of an item; `None` (a solver failure) has no attributes.
(nonzero_means.ipynb:986-988) -/
def theResult : Option (Result τ n K) → Except Err (Result τ n K)
  | none => .error .attributeError
  | some r => .ok r

/-- nonzero_means.ipynb:984-988: the list of the results, then the tables. -/
def meanTables (tr : Trace (Result τ n K)) : Except Err (MeanTables τ n K) :=
  match tr.err with
  | some e => .error e
  | none => do
    let results ← tr.items.mapM theResult
    pure { covariances := dictOf (results.map fun r => (r.time, r.covariance))
           means := dictOf (results.map fun r => (r.time, r.mean))
           weights := dictOf (results.map fun r => (r.time, r.weights)) }

/-- nonzero_means.ipynb:976-988, for `K` experts (`range(K)`), any `min_periods` (1 and 6; 63 and 63 in line 111), `lamda`
(0.05) and window (10). Simplifications: `LinAlgError` for a non-finite covariance is raised before `add_to_diagonal` (which
keeps `nan`s); the means are read as real numbers (those of finite returns are finite, see `itemAt`). -/
noncomputable def cmMean (solver : Solver n K) (covPairs meanPairs : List (ℝ × ℝ)) (returns : Dict τ (Vec n)) (mv mc : ℕ)
    (lamda : ℝ) (window : ℕ) : Except Err (MeanTables τ n K) := do
  let frame : Frame τ (Fin n) XR := returns.map fun p => (p.1, Arr.ofFn fun i => XR.fin (p.2 i))
  -- lines 976-978
  let experts ← finM fun i : Fin K => meanExpert covPairs meanPairs mv mc frame i
  -- lines 981, 982
  if K = 0 then throw .keyError
  let sigmas ← finM fun i => finiteCovs (experts i).1
  let sigmas := fun i : Fin K => if i.1 = 0 then addToDiagonal (sigmas i) lamda else sigmas i
  let mus := fun i : Fin K => (experts i).2.map fun q => (q.1, fun j => (q.2 j).toReal)
  -- line 984
  let comb ← fromSigmas sigmas returns (some fun i => some (mus i))
  meanTables (comb.solve solver (some window) none)

end CovPred
