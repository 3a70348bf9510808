import Verif.Model.EwmaVecHelpers

/-
Model of `iterated_ewma` of `/repo/experiments/utils/iterated_ewma_vec.py` up to the first value it takes for an array and that
is not one. Python decides at run time what an operation does to a value, so the values carry their type here.

The function `ewma` of that file (lines 66-95) contains `yield`: calling it makes a generator and runs none of its code.
-/
namespace CovPred

variable {n : ℕ}

/-- The values this function handles: arrays with `n` columns and generators. (iterated_ewma_vec.py:66-95, 221-238) -/
inductive VecVal (n : ℕ) where
  | array (rows : List (Vec n))
  | generator

/-- `a - b` of numpy. A generator is an array of one object; the subtraction is done entry by entry and raises `TypeError`
at the first, so not for an array with no entry. Arrays of other shapes do not occur. (iterated_ewma_vec.py:230) -/
noncomputable def VecVal.sub : VecVal n → VecVal n → Except Err (VecVal n)
  | .array a, .array b => .ok (.array (List.zipWith (fun x y i => x i - y i) a b))
  | .array a, .generator => if a = [] ∨ n = 0 then .ok (.array a) else .error .typeError
  | .generator, _ => .error .typeError

/-- `np.sqrt`: of a generator it raises `TypeError`. (iterated_ewma_vec.py:231) -/
noncomputable def VecVal.sqrt : VecVal n → Except Err (VecVal n)
  | .array a => .ok (.array (a.map fun r i => Real.sqrt (r i)))
  | .generator => .error .typeError

/-- `_get_realized_vars`; a generator has no attribute `shape`. (iterated_ewma_vec.py:117-136) -/
def VecVal.realizedVars : VecVal n → Except Err (VecVal n)
  | .array a => .ok (.array (getRealizedVars a))
  | .generator => .error .attributeError

/-- The function `ewma` the code calls: what it makes of an array, a half-life, `clip_at` and `min_periods`.
(iterated_ewma_vec.py:66) -/
abbrev EwmaFn (n : ℕ) := VecVal n → ℝ → Option ℝ → Option Int → VecVal n

/-- iterated_ewma_vec.py:66-95, the call of the generator function `ewma` -/
def ewmaCall : EwmaFn n := fun _ _ _ _ => .generator

/-- iterated_ewma_vec.py:185-238, `iterated_ewma` with the function `ewma` as a parameter; `rest` are the lines 239-312, which
use the returns, the means and `D`. Returns are finite numbers. -/
noncomputable def iteratedVec {A : Type} (ewma : EwmaFn n) (rest : VecVal n → VecVal n → VecVal n → Except Err A)
    (returns : List (Vec n)) (volaHalflife : ℝ) (minPeriodsVola : Int) (mean : Bool) (clipAt : Option ℝ) : Except Err A := do
  let minPeriodsVola := max 1 minPeriodsVola
  let minPeriodsVola := if mean then max minPeriodsVola 2 else minPeriodsVola
  let returnsMean : VecVal n :=
    if mean then ewma (.array returns) volaHalflife none none else .array (returns.map fun _ _ => 0)
  let clipAtVar := (clipAt.filter (· ≠ 0)).map fun c => c ^ 2
  let centred ← VecVal.sub (.array returns) returnsMean
  let realizedVars ← centred.realizedVars
  let D ← (ewma realizedVars volaHalflife clipAtVar (some minPeriodsVola)).sqrt
  rest (.array returns) returnsMean D

end CovPred
