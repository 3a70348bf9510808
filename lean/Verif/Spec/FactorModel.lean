import Verif.Spec.Solve
import Verif.Spec.Iewma
import Verif.Lemmas.FromEwmas
import Verif.Lemmas.Span
import Verif.Model.FactorModel

/-
What `/repo/experiments/utils/factor_model.py` is meant to compute for `T` rows of returns `x 0, ..., x (T-1)` with
increasing labels `tm`.
-/
namespace CovPred
open Matrix

variable {τ : Type} [LinearOrder τ] {n k : ℕ} {L : Type} [DecidableEq L]

/-- The dictionary `{tm s: v s}` of the rows before `N`. -/
def rowDict {A : Type} (N : ℕ) (tm : ℕ → τ) (v : ℕ → A) : Dict τ A := (List.range N).map fun s => (tm s, v s)

/-- `tm` is increasing on the rows before `T` -/
def Increasing (T : ℕ) (tm : ℕ → τ) : Prop := ∀ s t, s < t → t < T → tm s < tm t

/-- the arguments of the iterated EWMA of `k` factors with the half-lives `p` -/
def factorArgs (k : ℕ) (p : ℝ × ℝ) : RealArgs where
  volaHalflife := p.1
  covHalflife := p.2
  minPeriodsVola := k
  minPeriodsCov := 2 * k

/-- The iterated EWMA covariance, with the half-lives `p`, of the `k` factor returns `f 0, ..., f s` (when every row from
row `k - 1` on enters). -/
noncomputable def factorIewma (p : ℝ × ℝ) (f : ℕ → Vec k) (s : ℕ) : Mat k :=
  realCov (itemAt (factorArgs k p) (s + 1) (fun t : ℕ => t) f (s + 1 - k))

/-- the half-lives of the experts: for each label the last pair with this label -/
noncomputable def expertPair (label : XR × XR → L) (pairs : List (ℝ × ℝ))
    (i : Fin (expertPairs label (pairs.map fun p => (XR.fin p.1, XR.fin p.2))).length) : ℝ × ℝ :=
  let q := (expertPairs label (pairs.map fun p => (XR.fin p.1, XR.fin p.2)))[i].2
  (q.1.toReal, q.2.toReal)

open Classical in
/-- The covariance of expert `i` at row `s`: the iterated EWMA; the diagonal of the expert labelled like the first pair is
increased by 5 %. -/
noncomputable def expertCov (label : XR × XR → L) (pairs : List (ℝ × ℝ)) (f : ℕ → Vec k) (s : ℕ)
    (i : Fin (expertPairs label (pairs.map fun p => (XR.fin p.1, XR.fin p.2))).length) : Mat k :=
  let S := factorIewma (expertPair label pairs i) f s
  if ∃ p rest, pairs = p :: rest ∧
      (expertPairs label (pairs.map fun p => (XR.fin p.1, XR.fin p.2)))[i].1 = label (XR.fin p.1, XR.fin p.2) then
    Matrix.of fun a b => if a = b then 1.05 * S a b else S a b
  else S

/-- The experts and the factor returns of the rows `s0, ..., N - 1`. -/
noncomputable def factorPanel (label : XR × XR → L) (pairs : List (ℝ × ℝ)) (tm : ℕ → τ) (f : ℕ → Vec k) (s0 N : ℕ) :
    Panel τ k (expertPairs label (pairs.map fun p => (XR.fin p.1, XR.fin p.2))).length where
  len := N - s0
  time j := tm (s0 + j)
  cov j := expertCov label pairs f (s0 + j)
  mean _ _ := 0
  ret j := f (s0 + j)

/-- all covariances of the experts at the rows `s0, ..., N - 1` are finite -/
def FiniteExperts (label : XR × XR → L) (pairs : List (ℝ × ℝ)) (f : ℕ → Vec k) (s0 N : ℕ) : Prop :=
  ∀ (i : Fin (expertPairs label (pairs.map fun p => (XR.fin p.1, XR.fin p.2))).length) (s : ℕ), s0 ≤ s → s < N →
    allFinite (itemAt (factorArgs k (expertPair label pairs i)) (s + 1) (fun t : ℕ => t) f (s + 1 - k)).covariance.get

/-- The first row of the block that row `s` belongs to: the blocks start at row `memory` and have `freq` rows. -/
def blockOf (memory freq s : ℕ) : ℕ := memory + (s - memory) / freq * freq

/-- the `memory` rows before row `t` -/
def trainingRows (memory : ℕ) (x : ℕ → Vec n) (t : ℕ) : List (Vec n) := (List.range' (t - memory) memory).map x

/-- what the factors do not explain of row `u`: `x - Eᵀ (E x)` -/
def residual (E : Matrix (Fin k) (Fin n) ℝ) (x : ℕ → Vec n) (u : ℕ) : Vec n := x u - Eᵀ *ᵥ (E *ᵥ x u)

/-- The log-likelihood of the factor returns of the 10 rows up to row `s`, each under the blend, with the weights `w`, of
the experts' covariances of the row before. -/
noncomputable def factorWindowLogLik (label : XR × XR → L) (pairs : List (ℝ × ℝ)) (f : ℕ → Vec k) (s : ℕ)
    (w : Vec (expertPairs label (pairs.map fun p => (XR.fin p.1, XR.fin p.2))).length) : ℝ :=
  ∑ u ∈ Finset.Ioc (s - 10) s, gaussLogDensity 0 (blendCov (expertCov label pairs f (u - 1)) w) (f u)

/-- one of the first `k` rows is not zero -/
def Awake (f : ℕ → Vec k) : Prop := ∃ s < k, f s ≠ 0

/-- the factor returns with the exposures `E` -/
def factorRet (E : Matrix (Fin k) (Fin n) ℝ) (x : ℕ → Vec n) (s : ℕ) : Vec k := E *ᵥ x s

/-- the arguments the theorems are about -/
structure FactorSetup (pca : Pca n k) (solvers : Solvers k) (pairs : List (ℝ × ℝ)) (T : ℕ) (tm : ℕ → τ) (x : ℕ → Vec n)
    (freq memory : ℕ) : Prop where
  factors : 0 < k
  labels : Increasing T tm
  pairs_ne : pairs ≠ []
  halflives : ∀ p ∈ pairs, 0 < p.1 ∧ 0 < p.2
  step : 0 < freq
  warm : 3 * k + 8 ≤ memory
  feasible : ∀ K, (solvers K).Feasible
  /-- some factor return of the first `k` rows is not 0 -/
  awake : ∀ t E, memory ≤ t → t < T → pca (trainingRows memory x t) = .ok E → Awake (factorRet E x)

end CovPred
