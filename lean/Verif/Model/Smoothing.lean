import Verif.Model.Ccp
import Verif.Model.RealizedEwma

/-
Model of the smoothing functions of `/repo/experiments/extensions/smoothing.ipynb` (line numbers are those of the
notebook file).
-/
namespace CovPred
open Matrix

variable {τ : Type} {n : ℕ}

/-- smoothing.ipynb:92-95, `ewma_smoothing`: `dict(ewma(Sigmas, halflife=halflife))`; the statement after the first
`return` is dead. The dictionary is the list of its items. -/
noncomputable def ewmaSmoothing [LinearOrder τ] (sigmas : Dict τ (Mat n)) (halflife : XR) :
    Except Err (Dict τ (Arr (Fin n × Fin n) XR)) :=
  match ewmaDict (matFrame sigmas) halflife with
  | (items, none) => .ok items
  | (_, some e) => .error e

/-- smoothing.ipynb:101-106, the loop of `frob_difference` after the first item, with `prev` the matrix of the item
before -/
noncomputable def frobDiffLoop : Mat n → Dict τ (Mat n) → List (τ × XR)
  | _, [] => []
  | prev, (t, S) :: rest => (t, XR.fin (frobNorm (S - prev)) / XR.fin (frobNorm prev)) :: frobDiffLoop S rest

/-- smoothing.ipynb:98-108, `frob_difference`. `np.zeros(-1)` of an empty dictionary raises `ValueError`; a division by
zero gives `nan` or an infinity. -/
noncomputable def frobDifference (sigmas : Dict τ (Mat n)) : Except Err (List (τ × XR)) :=
  match sigmas with
  | [] => .error .valueError
  | (_, S) :: rest => .ok (frobDiffLoop S rest)

/-- smoothing.ipynb:580, `Yt` as a function of the variable -/
def onLine (X Y : Mat n) (theta : ℝ) : Mat n := theta • X + (1 - theta) • Y

/-- smoothing.ipynb:585, the objective of the problem as a function of the variable -/
noncomputable def smoothObjective (X Y : Mat n) (lamda theta : ℝ) : ℝ :=
  1 / 2 * frobNorm (onLine X Y theta - X) ^ 2 + lamda * frobNorm (onLine X Y theta - Y)

/-- What `prob.solve()` (smoothing.ipynb:588) does: the value of the variable, or an exception -/
abbrev LineSolver (n : ℕ) := Mat n → Mat n → ℝ → Except Err ℝ

/-- The contract of the solver (smoothing.ipynb:588): the value it leaves is a minimiser -/
def LineSolver.Exact (solver : LineSolver n) : Prop :=
  ∀ X Y lamda theta, solver X Y lamda = .ok theta →
    ∀ theta', smoothObjective X Y lamda theta ≤ smoothObjective X Y lamda theta'

/-- A solver (smoothing.ipynb:588) that solves every convex problem it is given -/
def LineSolver.Complete (solver : LineSolver n) : Prop := ∀ X Y lamda, 0 ≤ lamda → ∃ theta, solver X Y lamda = .ok theta

open Classical in
/-- smoothing.ipynb:575-589, `get_next`. Assigning a matrix that is not positive semidefinite to a parameter declared
with `PSD=True` raises `ValueError` (the tolerance of that check is not modelled); a problem with a negative `lamda` is
not convex and `prob.solve()` raises `DCPError`. -/
noncomputable def getNext (solver : LineSolver n) (sigmaUnsmooth sigmaPrev : Mat n) (lamda : ℝ) : Except Err (Mat n) :=
  if ¬ sigmaUnsmooth.PosSemidef ∨ ¬ sigmaPrev.PosSemidef then .error .valueError
  else if lamda < 0 then .error .other
  else (solver sigmaUnsmooth sigmaPrev lamda).map (onLine sigmaUnsmooth sigmaPrev)

open Classical in
/-- smoothing.ipynb:599-610, the loop of `L1_smoothing`: the smoothed matrices and the list `updates` -/
noncomputable def smoothLoop (solver : LineSolver n) (lamda : ℝ) : Mat n → List (Mat n) → Except Err (List (Mat n × ℕ))
  | _, [] => .ok []
  | prev, X :: rest =>
    if frobNorm (prev - X) ≤ lamda then do
      let out ← smoothLoop solver lamda prev rest
      pure ((prev, 0) :: out)
    else do
      let Y ← getNext solver X prev lamda
      let out ← smoothLoop solver lamda Y rest
      pure ((Y, 1) :: out)

/-- smoothing.ipynb:591-614, `L1_smoothing`: the smoothed dictionary and `updates`. Without items
`Sigmas_smoothed[0]` raises `IndexError`. -/
noncomputable def l1Smoothing (solver : LineSolver n) (sigmas : Dict τ (Mat n)) (lamda : ℝ) :
    Except Err (Dict τ (Mat n) × List ℕ) :=
  match sigmas.map Prod.snd with
  | [] => .error .indexError
  | X :: rest => do
    let out ← smoothLoop solver lamda X rest
    pure (List.zip (sigmas.map Prod.fst) (X :: out.map Prod.fst), out.map Prod.snd)

end CovPred
