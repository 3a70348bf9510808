import Verif.Model.ExpUtils
import Verif.Model.EwmaVec
import Verif.Num.XR

/-
Model of `realized_ewma` of `/repo/experiments/utils/experiment_utils.py`.
-/
namespace CovPred

variable {τ : Type} [LinearOrder τ] {n : ℕ}

/-- a dictionary of real matrices as a dictionary of arrays of floats. (experiment_utils.py:20) -/
noncomputable def matFrame (covs : List (τ × Mat n)) : Frame τ (Fin n × Fin n) XR :=
  covs.map fun p => (p.1, Arr.ofFn fun ij => XR.fin (p.2 ij.1 ij.2))

/-- experiment_utils.py:19-27, `realized_ewma`: the realised covariances are computed at the call, the result is the
generator `ewma` over them (the items it yields and the exception that ends it). -/
noncomputable def realizedEwma (rows : List (τ × Vec n)) (halflife : XR) (clipAt : Option XR := none)
    (minPeriods : Option Int := none) : Except Err (Frame τ (Fin n × Fin n) XR × Option Err) := do
  let realizedCovariances ← realizedCovariance rows
  pure (ewmaDict (matFrame realizedCovariances) halflife clipAt minPeriods)

end CovPred
