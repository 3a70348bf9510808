import Verif.Model.Combination
import Verif.Model.Ewma
import Verif.Spec.Iewma

/-
Model of `from_ewmas`, `/repo/cvx/covariance/combination.py:103-139`, on top of the models of `iterated_ewma`
(`Verif.Model.Ewma`, in real arithmetic with the special values of floats) and of `_CovarianceCombination`
(`Verif.Model.Combination`), and of `solve` for frames of returns with missing entries.

Not modelled: infinite returns (`Err.other`).
-/
namespace CovPred

variable {τ : Type} [LinearOrder τ] {n : ℕ} {L : Type} [DecidableEq L]

/-- A Python dict comprehension: the items in the order of the first insertion of their keys, each with the last value
given for its key. (combination.py:119-133) -/
def dictOf {A : Type} (items : List (L × A)) : List (L × A) :=
  items.foldl (fun d p => if p.1 ∈ d.map Prod.fst then d.map (fun q => if q.1 = p.1 then p else q) else d ++ [p]) []

/-- all entries are finite. (combination.py:34, its input) -/
def allFinite {κ : Type} (a : κ → XR) : Prop := ∀ i, ∃ r, a i = XR.fin r

open Classical in
/-- combination.py:34 on a covariance of `iterated_ewma`. A covariance with non-finite entries has `nan` in a whole row
and column (or everywhere); its `np.linalg.inv` is `nan` and `np.linalg.cholesky` raises `LinAlgError`. -/
noncomputable def finiteCov (M : Arr (Fin n × Fin n) XR) : Except Err (Mat n) :=
  if allFinite M.get then .ok (Matrix.of fun i j => (M (i, j)).toReal) else .error .linAlgError

/-- The object `from_ewmas` returns: the keys of the experts, the combination, and the times of the returns with
missing entries (whose entries count as 0 in `comb.returns`, see `Comb.solveNan`). (combination.py:103-139) -/
structure EwmaComb (L τ : Type) (n : ℕ) where
  labels : List L
  comb : Comb τ n labels.length
  missing : List τ

open Classical in
/-- `from_ewmas`, combination.py:103-139. `label` is the formatting of the pair, `f"{pair[0]}-{pair[1]}"`. The
remaining arguments of `iterated_ewma` have their defaults. The dictionaries `sigmas` and `means` have the same keys
by construction (line 135, 136; `_map_nested_dicts` is `List.map` on the values). Simplification: `LinAlgError` for a
non-finite covariance is raised before the check of the means, which always succeeds here. -/
noncomputable def fromEwmas (label : XR × XR → L) (returns : Frame τ (Fin n) XR) (pairs : List (XR × XR))
    (minPeriodsVola minPeriodsCov : Int := 20) (clipAt : Option XR := none) (mean : Bool := false) :
    Except Err (EwmaComb L τ n) :=
  if ∀ p ∈ returns, ∀ i, (∃ r, p.2 i = XR.fin r) ∨ p.2 i = XR.nan then do
    let results ← pairs.mapM fun pair => do
      let rs ← iteratedEwma returns
        { volaHalflife := pair.1, covHalflife := pair.2, minPeriodsVola := minPeriodsVola,
          minPeriodsCov := minPeriodsCov, clipAt := clipAt, mean := mean }
      pure (label pair, dictOf (rs.map fun r => (r.time, r)))
    let results := dictOf results
    let labels := results.map Prod.fst
    let dict (k : Fin labels.length) : Dict τ (IEWMA τ (Fin n) XR) := (results[k.1]?.map Prod.snd).getD []
    let sigmas ← finM fun k => (dict k).mapM fun q => do
      let S ← finiteCov q.2.covariance
      pure (q.1, S)
    let means := fun k => (dict k).map fun q => (q.1, fun i => (q.2.mean i).toReal)
    let comb ← fromSigmas sigmas (returns.map fun p => (p.1, fun i => (p.2 i).toReal)) (some fun k => some (means k))
    pure { labels := labels, comb := comb,
           missing := (returns.filter fun p => ∃ i, p.2 i = XR.nan).map Prod.fst }
  else .error .other

open Classical in
/-- combination.py:242-244 when the returns at the times `missing` have `nan` entries: then all entries of the `B`
matrix of such a time are `nan` (line 42: `L.T @ r`), so is every sum `P` of a window that contains it, and
`np.linalg.cholesky` raises `LinAlgError`. -/
noncomputable def pCholsNan {K : ℕ} (missing : List τ) (w : ℕ) (times : List τ) (prods : List (τ × Mat K)) :
    Except Err (List (Mat K)) :=
  (windowEnds w times).mapM fun ab =>
    if ∃ t ∈ labelSlice (prods.map fun q : τ × Mat K => (q.1, q.1)) ab.1 ab.2, t ∈ missing then .error .linAlgError
    else chol? (labelSlice prods ab.1 ab.2).sum

/-- `solvePrep` for returns with missing entries (combination.py:214-254). The sums of windows without missing entries
do not depend on them. -/
noncomputable def solvePrepNan {K : ℕ} (c : Comb τ n K) (missing : List τ) (window : Option ℕ)
    (times : Option (List τ)) : Except Err (ℕ × List (τ × Params n K)) := do
  let shifted := shiftRows c.rows
  let w := cappedWindow window shifted.length
  let obs ← shifted.mapM (obsOf c.returns)
  let ts ← solveTimes (obs.map Obs.time) w times
  let prods ← prodBs obs ts
  if w = 0 then throw .indexError
  let cs ← pCholsNan missing w ts prods
  let ends := windowEnds w ts
  pure (w, List.zipWith (fun ab C => (ab.2, { A := truncA obs ab.1 ab.2, C := C })) ends cs)

/-- `solve`, combination.py:203-266, for returns with missing entries. -/
noncomputable def Comb.solveNan {K : ℕ} (c : Comb τ n K) (missing : List τ) (solver : Solver n K)
    (window : Option ℕ := none) (times : Option (List τ) := none) : Trace (Result τ n K) :=
  match solvePrepNan c missing window times with
  | .error e => ⟨[], some e⟩
  | .ok (w, ps) => solveLoop solver c.rows w [] ps

/-- The result of the object `from_ewmas` returns: its weights are a series indexed by the keys of the experts.
(combination.py:94-96, 268-286) -/
structure EwmaResult (L τ : Type) (n : ℕ) where
  time : τ
  mean : Vec n
  covariance : Mat n
  weights : List (L × ℝ)

/-- A result of `solve` with the weights labelled by the keys of the experts. (combination.py:94-96, 286) -/
def EwmaComb.labelled (c : EwmaComb L τ n) (r : Result τ n c.labels.length) : EwmaResult L τ n where
  time := r.time
  mean := r.mean
  covariance := r.covariance
  weights := List.ofFn fun k => (c.labels.get k, r.weights k)

/-- `solve` of the object `from_ewmas` returns, combination.py:203-266. The solver is given for every number of
experts. -/
noncomputable def EwmaComb.solve (c : EwmaComb L τ n) (solver : (K : ℕ) → Solver n K) (window : Option ℕ := none)
    (times : Option (List τ) := none) : Trace (EwmaResult L τ n) :=
  let tr := c.comb.solveNan c.missing (solver _) window times
  ⟨tr.items.map (Option.map c.labelled), tr.err⟩

end CovPred
