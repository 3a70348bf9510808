import Verif.Spec.FactorModel

/-
What the CM-IEWMA cell of the notebooks is meant to compute for `T` rows of returns `x 0, ..., x (T-1)` with increasing
labels `tm`.
-/
namespace CovPred

variable {τ : Type} [LinearOrder τ] {n : ℕ} {L : Type} [DecidableEq L]

/-- the arguments of the iterated EWMA with the half-lives `p` -/
def cmArgs (mv mc : ℕ) (p : ℝ × ℝ) : RealArgs where
  volaHalflife := p.1
  covHalflife := p.2
  minPeriodsVola := mv
  minPeriodsCov := mc

/-- The iterated EWMA covariance, with the half-lives `p`, of the returns `x 0, ..., x s` (when every row from row
`mv - 1` on enters). -/
noncomputable def rowIewma (mv mc : ℕ) (p : ℝ × ℝ) (x : ℕ → Vec n) (s : ℕ) : Mat n :=
  realCov (itemAt (cmArgs mv mc p) (s + 1) (fun t : ℕ => t) x (s + 1 - mv))

open Classical in
/-- The covariance of expert `i` at row `s`: the iterated EWMA; the diagonal of the expert labelled like the first pair is
multiplied by `1 + lamda`. -/
noncomputable def cmExpert (label : XR × XR → L) (pairs : List (ℝ × ℝ)) (mv mc : ℕ) (lamda : ℝ) (x : ℕ → Vec n) (s : ℕ)
    (i : Fin (expertPairs label (pairs.map fun p => (XR.fin p.1, XR.fin p.2))).length) : Mat n :=
  let S := rowIewma mv mc (expertPair label pairs i) x s
  if ∃ p rest, pairs = p :: rest ∧
      (expertPairs label (pairs.map fun p => (XR.fin p.1, XR.fin p.2)))[i].1 = label (XR.fin p.1, XR.fin p.2) then
    Matrix.of fun a b => if a = b then (1 + lamda) * S a b else S a b
  else S

/-- The log-likelihood of the returns of the `W` rows up to row `s`, each under the blend, with the weights `w`, of the
experts' covariances of the row before. -/
noncomputable def cmWindowLogLik (label : XR × XR → L) (pairs : List (ℝ × ℝ)) (mv mc : ℕ) (lamda : ℝ) (x : ℕ → Vec n)
    (W s : ℕ) (w : Vec (expertPairs label (pairs.map fun p => (XR.fin p.1, XR.fin p.2))).length) : ℝ :=
  ∑ u ∈ Finset.Ioc (s - W) s, gaussLogDensity 0 (blendCov (cmExpert label pairs mv mc lamda x (u - 1)) w) (x u)

/-- The experts and the returns of the rows from `mv + mc - 2` (the first one after the warm-up) to `T - 1`. -/
noncomputable def cmPanel (label : XR × XR → L) (pairs : List (ℝ × ℝ)) (mv mc : ℕ) (lamda : ℝ) (tm : ℕ → τ) (x : ℕ → Vec n)
    (T : ℕ) : Panel τ n (expertPairs label (pairs.map fun p => (XR.fin p.1, XR.fin p.2))).length where
  len := T - (mv + mc - 2)
  time j := tm (mv + mc - 2 + j)
  cov j := cmExpert label pairs mv mc lamda x (mv + mc - 2 + j)
  mean _ _ := 0
  ret j := x (mv + mc - 2 + j)

/-- the arguments the theorems are about -/
structure CmSetup (solvers : Solvers n) (pairs : List (ℝ × ℝ)) (mv mc : ℕ) (window T : ℕ) (tm : ℕ → τ) (x : ℕ → Vec n) :
    Prop where
  assets : 0 < n
  labels : Increasing T tm
  pairs_ne : pairs ≠ []
  halflives : ∀ p ∈ pairs, 0 < p.1 ∧ 0 < p.2
  vola : 0 < mv
  cov : 0 < mc
  window_pos : 0 < window
  feasible : ∀ K, (solvers K).Feasible
  /-- some return of the first `mv` rows is not 0 -/
  awake : ∃ s < mv, x s ≠ 0
  /-- at least two rows after the warm-up -/
  rows : mv + mc ≤ T

end CovPred
