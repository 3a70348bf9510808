import Verif.Model.LinAlg
import Verif.Model.Regularization
import Mathlib.LinearAlgebra.Matrix.SchurComplement
import Mathlib.Analysis.SpecialFunctions.Log.Basic

/-
Model of `/repo/experiments/utils/ccp_regularize.py` in exact real arithmetic: the convex-concave procedure that fits a
factor model to a covariance matrix. The classes `_State` and `_State2` have the same constructor, objective and result,
and differ in `iterate`.

Not modelled: infinite reciprocals (a zero in `d` or `e`, `Err.other`), printing, cvxpy's numerics (the solver is a
parameter).
-/
namespace CovPred
open Matrix

variable {n k : ℕ}

/-- The attributes of `_State` and `_State2` that change or matter. (ccp_regularize.py:10-21, 86-97) -/
structure CcpState (n k : ℕ) where
  Gk : Matrix (Fin n) (Fin k) ℝ
  ek : Vec n
  Sigma : Mat n

/-- `c.reshape(-1, 1) * A` (broadcast over the columns). (ccp_regularize.py:14-17, 74-77, 143-148) -/
def rowScale {m : ℕ} (c : Vec n) (A : Matrix (Fin n) (Fin m) ℝ) : Matrix (Fin n) (Fin m) ℝ :=
  Matrix.of fun i j => c i * A i j

open Classical in
/-- ccp_regularize.py:10-21 and 86-97, `__init__` -/
noncomputable def ccpInit (Sigma : Mat n) (F : Matrix (Fin n) (Fin k) ℝ) (d : Vec n) : Except Err (CcpState n k) :=
  if ∃ i, d i = 0 then .error .other
  else do
    let dInv : Vec n := fun i => 1 / d i
    let B ← inv? (1 + Fᵀ * rowScale dInv F)
    let Lamda ← chol? B
    pure { Gk := rowScale dInv (F * Lamda), ek := dInv, Sigma := Sigma }

/-- ccp_regularize.py:26-28, 44-48 and 102-104, the block matrix. -/
def ccpBlock (e : Vec n) (G : Matrix (Fin n) (Fin k) ℝ) : Matrix (Fin n ⊕ Fin k) (Fin n ⊕ Fin k) ℝ :=
  fromBlocks (diagonal e) G Gᵀ 1

/-- `np.linalg.norm(A, ord="fro")`. (ccp_regularize.py:33, 111) -/
noncomputable def frobNorm {m : ℕ} (A : Matrix (Fin n) (Fin m) ℝ) : ℝ := Real.sqrt (∑ i, ∑ j, A i j ^ 2)

/-- ccp_regularize.py:23-36 and 99-114, `objective`. (`slogdet(...)[1]` is the logarithm of the absolute value of the
determinant, `Real.log` of the determinant in Lean; for a singular matrix it is `-inf`, here 0.) -/
noncomputable def CcpState.objective (s : CcpState n k) : Except Err ℝ := do
  let C ← chol? s.Sigma
  pure (-Real.log (ccpBlock s.ek s.Gk).det + (s.Sigma * diagonal s.ek).trace - frobNorm (Cᵀ * s.Gk) ^ 2)

/-- ccp_regularize.py:50-54, the objective of the convex problem, at values `e`, `G` of its variables. -/
noncomputable def ccpSurrogate (Sigma : Mat n) (Gk : Matrix (Fin n) (Fin k) ℝ) (e : Vec n)
    (G : Matrix (Fin n) (Fin k) ℝ) : ℝ :=
  -Real.log (ccpBlock e G).det + (Matrix.of fun i j => Sigma i j * e j : Mat n).trace - 2 * (Sigma * Gk * Gᵀ).trace

/-- What `prob.solve(solver="MOSEK")` (ccp_regularize.py:66) leaves: an exception, or the values of the variables (`None` if the
problem was not solved). -/
inductive CcpOutcome (n k : ℕ) where
  | values (e : Vec n) (G : Matrix (Fin n) (Fin k) ℝ)
  | noValue
  | raises (err : Err)

/-- The solver; it gets the parameters of the problem. (ccp_regularize.py:40-66) -/
abbrev CcpSolver (n k : ℕ) := Mat n → Matrix (Fin n) (Fin k) ℝ → CcpOutcome n k

/-- ccp_regularize.py:60-69, `_State.iterate`; line 67 prints the objective of the old state, and `None.flatten()`
raises `AttributeError`. -/
noncomputable def CcpState.iterate (solver : CcpSolver n k) (s : CcpState n k) : Except Err (CcpState n k) :=
  match solver s.Sigma s.Gk with
  | .raises e => .error e
  | r => do
    let _ ← s.objective
    match r with
    | .values e G => pure { s with ek := e, Gk := G }
    | _ => .error .attributeError

/-- `m` calls of `iterate`. (ccp_regularize.py:60-69) -/
noncomputable def CcpState.iterates (solver : CcpSolver n k) : ℕ → CcpState n k → Except Err (CcpState n k)
  | 0, s => pure s
  | m + 1, s => do
    let s' ← s.iterate solver
    CcpState.iterates solver m s'

open Classical in
/-- ccp_regularize.py:71-82 and 127-138, `build` -/
noncomputable def CcpState.build (s : CcpState n k) : Except Err (LowRankDiag n k) :=
  if ∃ i, s.ek i = 0 then .error .other
  else do
    let eInv : Vec n := fun i => 1 / s.ek i
    let B ← inv? (1 - s.Gkᵀ * rowScale eInv s.Gk)
    let Lamda ← chol? B
    pure { F := rowScale eInv (s.Gk * Lamda), d := eInv }

open Classical in
/-- ccp_regularize.py:141-148, `_common_factor` -/
noncomputable def ccpCommonFactor (e : Vec n) (G : Matrix (Fin n) (Fin k) ℝ) : Except Err (Matrix (Fin n) (Fin k) ℝ) :=
  if ∃ i, e i = 0 then .error .other
  else do
    let eInv : Vec n := fun i => 1 / e i
    let B ← inv? (1 - Gᵀ * rowScale eInv G)
    pure (rowScale eInv (G * B))

/-- ccp_regularize.py:151-152, `_grad_G` -/
def ccpGradG (cf : Matrix (Fin n) (Fin k) ℝ) : Matrix (Fin n) (Fin k) ℝ := (2 : ℝ) • cf

/-- ccp_regularize.py:155-158, `_grad_e` (`G.T * e_inv.T` divides column `i` of `G.T` by `e_i`) -/
noncomputable def ccpGradE (e : Vec n) (G cf : Matrix (Fin n) (Fin k) ℝ) : Vec n :=
  fun i => -(1 / e i + (cf * (Matrix.of fun j i => Gᵀ j i * (1 / e i) : Matrix (Fin k) (Fin n) ℝ)) i i)

/-- ccp_regularize.py:166-174, one pass of the loop of `_solve_proximal_gradient`, with `alpha = 1` -/
noncomputable def ccpProxStep (Sigma : Mat n) (SigmaGk : Matrix (Fin n) (Fin k) ℝ)
    (x : Vec n × Matrix (Fin n) (Fin k) ℝ) : Except Err (Vec n × Matrix (Fin n) (Fin k) ℝ) := do
  let cf ← ccpCommonFactor x.1 x.2
  let alpha : ℝ := 1
  pure (fun i => (x.1 i - (ccpGradE x.1 x.2 cf i + Sigma i i)) * alpha,
    alpha • (x.2 - (ccpGradG cf - (2 : ℝ) • SigmaGk)))

/-- ccp_regularize.py:165-176, the loop -/
noncomputable def ccpProxLoop (Sigma : Mat n) (SigmaGk : Matrix (Fin n) (Fin k) ℝ) :
    ℕ → Vec n × Matrix (Fin n) (Fin k) ℝ → Except Err (Vec n × Matrix (Fin n) (Fin k) ℝ)
  | 0, x => pure x
  | m + 1, x => do
    let y ← ccpProxStep Sigma SigmaGk x
    ccpProxLoop Sigma SigmaGk m y

/-- ccp_regularize.py:161-176, `_solve_proximal_gradient` -/
noncomputable def ccpProx (eInit : Vec n) (GInit Gk : Matrix (Fin n) (Fin k) ℝ) (Sigma : Mat n) (maxiters : ℕ := 100) :
    Except Err (Vec n × Matrix (Fin n) (Fin k) ℝ) := ccpProxLoop Sigma (Sigma * Gk) maxiters (eInit, GInit)

/-- ccp_regularize.py:116-125, `_State2.iterate` (it prints the new objective, which may raise) -/
noncomputable def CcpState.iterate2 (s : CcpState n k) : Except Err (CcpState n k) := do
  let x ← ccpProx s.ek s.Gk s.Gk s.Sigma
  let s' : CcpState n k := { s with ek := x.1, Gk := x.2 }
  let _ ← s'.objective
  pure s'

end CovPred
