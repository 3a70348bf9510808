import Verif.Spec.FactorModel

/-
What CM-IEWMA with means is meant to compute for `T` rows of returns `x 0, ..., x (T-1)` with increasing labels `tm`. `p k` are
the half-lives of the volatility and the correlation of expert `k`, `q k` those of its two means.
-/
namespace CovPred

variable {τ : Type} [LinearOrder τ] {n K : ℕ}

/-- the arguments of the iterated EWMA of an expert -/
def meanArgs (mv mc : ℕ) (p q : ℝ × ℝ) : RealArgs where
  volaHalflife := p.1
  covHalflife := p.2
  minPeriodsVola := mv
  minPeriodsCov := mc
  mean := true
  muHalflife1 := some q.1
  muHalflife2 := some q.2

/-- Row `f` is the first one that enters: at least `mv` rows up to it, and their returns are not all the same. -/
structure FirstRow (mv : ℕ) (x : ℕ → Vec n) (f : ℕ) : Prop where
  enough : mv ≤ f + 1
  moved : ∃ s ≤ f, x s ≠ x 0
  least : ∀ g, mv ≤ g + 1 → (∃ s ≤ g, x s ≠ x 0) → f ≤ g

/-- the first row with a prediction of the experts -/
def warm (mc f : ℕ) : ℕ := f + (mc - 1)

/-- the iterated EWMA of the returns `x 0, ..., x s`, of which those from row `f` on enter -/
noncomputable def rowMeanIewma (mv mc : ℕ) (p q : ℝ × ℝ) (f : ℕ) (x : ℕ → Vec n) (s : ℕ) : IEWMA ℕ (Fin n) XR :=
  itemAt (meanArgs mv mc p q) (s + 1) (fun t : ℕ => t) x (s - f)

/-- The mean of expert `k` at row `s`. -/
noncomputable def expertMean (p q : Fin K → ℝ × ℝ) (mv mc f : ℕ) (x : ℕ → Vec n) (s : ℕ) (k : Fin K) : Vec n := fun i =>
  ((rowMeanIewma mv mc (p k) (q k) f x s).mean i).toReal

/-- The covariance of expert `k` at row `s`; the diagonal of the first one is multiplied by `1 + lamda`. -/
noncomputable def expertSigma (p q : Fin K → ℝ × ℝ) (mv mc f : ℕ) (lamda : ℝ) (x : ℕ → Vec n) (s : ℕ) (k : Fin K) : Mat n :=
  let S := realCov (rowMeanIewma mv mc (p k) (q k) f x s)
  if k.1 = 0 then Matrix.of fun a b => if a = b then (1 + lamda) * S a b else S a b else S

/-- The log-likelihood of the returns of the `W` rows up to row `s`, each under the blend, with the weights `w`, of the
experts' means and covariances of the row before. -/
noncomputable def meanLogLik (p q : Fin K → ℝ × ℝ) (mv mc f : ℕ) (lamda : ℝ) (x : ℕ → Vec n) (W s : ℕ) (w : Vec K) : ℝ :=
  ∑ u ∈ Finset.Ioc (s - W) s,
    gaussLogDensity (blendMean (expertSigma p q mv mc f lamda x (u - 1)) (expertMean p q mv mc f x (u - 1)) w)
      (blendCov (expertSigma p q mv mc f lamda x (u - 1)) w) (x u)

/-- The experts and the returns of the rows from the first one with a prediction to `T - 1`. -/
noncomputable def meanPanel (p q : Fin K → ℝ × ℝ) (mv mc f : ℕ) (lamda : ℝ) (tm : ℕ → τ) (x : ℕ → Vec n) (T : ℕ) :
    Panel τ n K where
  len := T - warm mc f
  time j := tm (warm mc f + j)
  cov j := expertSigma p q mv mc f lamda x (warm mc f + j)
  mean j := expertMean p q mv mc f x (warm mc f + j)
  ret j := x (warm mc f + j)

/-- the window that is used: at most the rows with predictions but one -/
def meanWindow (mc f window T : ℕ) : ℕ := min window (T - warm mc f - 1)

/-- all covariances of the experts are finite -/
def FiniteSigmas (p q : Fin K → ℝ × ℝ) (mv mc f : ℕ) (x : ℕ → Vec n) (T : ℕ) : Prop :=
  ∀ k s, warm mc f ≤ s → s < T → allFinite (rowMeanIewma mv mc (p k) (q k) f x s).covariance.get

/-- the arguments the theorems are about -/
structure MeanSetup (solver : Solver n K) (covPairs meanPairs : List (ℝ × ℝ)) (p q : Fin K → ℝ × ℝ) (mv mc f window T : ℕ)
    (tm : ℕ → τ) (x : ℕ → Vec n) : Prop where
  experts : 0 < K
  labels : Increasing T tm
  covPairs : ∀ k : Fin K, covPairs[k.1]? = some (p k)
  meanPairs : ∀ k : Fin K, meanPairs[k.1]? = some (q k)
  halflives : ∀ k, 0 < (p k).1 ∧ 0 < (p k).2
  /-- 0 stands for the half-life of the volatility or correlation -/
  meanHalflives : ∀ k, 0 ≤ (q k).1 ∧ 0 ≤ (q k).2
  window_pos : 0 < window
  feasible : solver.Feasible
  first : FirstRow mv x f
  /-- at least two rows with predictions -/
  rows : warm mc f + 2 ≤ T

end CovPred
