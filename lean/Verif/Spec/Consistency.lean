import Verif.Spec.Combination
import Verif.Spec.RandomScores
import Mathlib.Probability.IdentDistrib

/-
Vocabulary for property C196: experts that never change their prediction, and what their combination is worth in expectation.
-/
namespace CovPred
open MeasureTheory

variable {τ : Type} {n K : ℕ} {Ω : Type} [MeasurableSpace Ω]

/-- Experts that predict the covariances `S` and the means `mu` at each of the positions `0, ..., N`; the returns are `r`. -/
def fixedExperts (time : ℕ → τ) (S : Fin K → Mat n) (mu : Fin K → Vec n) (r : ℕ → Vec n) (N : ℕ) : Panel τ n K where
  len := N + 1
  time := time
  cov _ := S
  mean _ := mu
  ret := r

/-- The expected log-likelihood of the blend with weights `w`. -/
noncomputable def expectedLogLik (P : Measure Ω) (R : Ω → Vec n) (S : Fin K → Mat n) (mu : Fin K → Vec n) (w : Vec K) : ℝ :=
  ∫ ω, gaussLogDensity (blendMean S mu w) (blendCov S w) (R ω) ∂P

/-- `w` maximises the expected log-likelihood over the simplex. -/
def BestInExpectation (P : Measure Ω) (R : Ω → Vec n) (S : Fin K → Mat n) (mu : Fin K → Vec n) (w : Vec K) : Prop :=
  Simplex w ∧ ∀ w', Simplex w' → expectedLogLik P R S mu w' ≤ expectedLogLik P R S mu w

/-- The returns of different positions are independent and have the same distribution with finite second moments. -/
structure IID (P : Measure Ω) (R : ℕ → Ω → Vec n) : Prop where
  indep : ∀ s t, s ≠ t → ProbabilityTheory.IndepFun (R s) (R t) P
  ident : ∀ s, ProbabilityTheory.IdentDistrib (R s) (R 0) P P
  square : ∀ i, MemLp (fun ω => R 0 ω i) 2 P

/-- No combination of the experts' standardised returns `L_kᵀ (r - mu_k)` vanishes almost surely, except the trivial one. -/
def Distinguishable (P : Measure Ω) (R : Ω → Vec n) (S : Fin K → Mat n) (mu : Fin K → Vec n) : Prop :=
  ∀ v : Vec K, (∀ᵐ ω ∂P, ∑ k, v k • (Matrix.mulVec (Matrix.transpose (precFactor (S k))) (R ω - mu k)) = 0) → v = 0

end CovPred
