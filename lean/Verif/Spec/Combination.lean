import Verif.Spec.LinAlg
import Mathlib.Analysis.SpecialFunctions.Log.Basic
import Mathlib.Analysis.Real.Pi.Bounds
import Mathlib.Algebra.Order.Interval.Finset.Basic
import Mathlib.Order.Interval.Finset.Nat

/-
What `combination.py` is documented to compute (the paper's convex combination of inverse Cholesky factors), written
without reference to the model of the code.
-/
namespace CovPred
open Matrix

variable {τ : Type} {n K : ℕ}

/-- The number of observations in a window: the given one, but no more than the `N` there are; all of them if `window` is not given or zero. -/
def effWindow (window : Option ℕ) (N : ℕ) : ℕ :=
  match window with
  | none => N
  | some w => if w = 0 then N else min w N

open Classical in
/-- The Cholesky factor of the inverse of `S` (of a positive definite `S`; arbitrary otherwise). -/
noncomputable def precFactor (S : Mat n) : Mat n := if h : ∃ L, IsChol L S⁻¹ then h.choose else 0

/-- The blended precision factor `∑ w_k L_k`. -/
noncomputable def blendFactor (S : Fin K → Mat n) (w : Vec K) : Mat n := ∑ k, w k • precFactor (S k)

/-- The combined covariance: the inverse of the blended factor times its transpose. -/
noncomputable def blendCov (S : Fin K → Mat n) (w : Vec K) : Mat n := (blendFactor S w * (blendFactor S w)ᵀ)⁻¹

/-- The combined mean: `Lᵀ m = ∑ w_k L_kᵀ mu_k`. -/
noncomputable def blendMean (S : Fin K → Mat n) (mu : Fin K → Vec n) (w : Vec K) : Vec n :=
  (blendFactor S w)ᵀ⁻¹ *ᵥ ∑ k, w k • ((precFactor (S k))ᵀ *ᵥ mu k)

/-- The log-density of the normal distribution `N(mu, S)` at `x`. -/
noncomputable def gaussLogDensity (mu : Vec n) (S : Mat n) (x : Vec n) : ℝ :=
  -(n / 2 * Real.log (2 * Real.pi)) - 1 / 2 * Real.log S.det - 1 / 2 * ((x - mu) ⬝ᵥ (S⁻¹ *ᵥ (x - mu)))

/-- The data of a combination: at positions `0, ..., len - 1` a time stamp, the covariance and mean each expert
predicts there for the next position, and the return realised there. -/
structure Panel (τ : Type) (n K : ℕ) where
  len : ℕ
  time : ℕ → τ
  cov : ℕ → Fin K → Mat n
  mean : ℕ → Fin K → Vec n
  ret : ℕ → Vec n

/-- The panels the theorems are about: increasing time stamps, positive definite expert covariances. -/
structure Panel.Ok [LinearOrder τ] (P : Panel τ n K) : Prop where
  time_lt : ∀ s t, s < t → t < P.len → P.time s < P.time t
  posDef : ∀ t, t < P.len → ∀ k, (P.cov t k).PosDef

/-- The covariances of expert `k` as the dictionary `{time: covariance}`. -/
def Panel.sigmas (P : Panel τ n K) (k : Fin K) : List (τ × Mat n) :=
  (List.range P.len).map fun t => (P.time t, P.cov t k)

/-- The means of expert `k` as the dictionary `{time: mean}`. -/
def Panel.means (P : Panel τ n K) (k : Fin K) : List (τ × Vec n) :=
  (List.range P.len).map fun t => (P.time t, P.mean t k)

/-- The frame `returns` holds the panel's returns at all positions but the first (whose return is never used);
it may hold other rows too. -/
def Panel.Covered [DecidableEq τ] (P : Panel τ n K) (returns : List (τ × Vec n)) : Prop :=
  ∀ t, 0 < t → t < P.len → returns.lookup (P.time t) = some (P.ret t)

/-- The log-likelihood of the last `W` returns up to position `t`, each under the blended prediction made one position
before. -/
noncomputable def Panel.logLik (P : Panel τ n K) (W t : ℕ) (w : Vec K) : ℝ :=
  ∑ s ∈ Finset.Ioc (t - W) t,
    gaussLogDensity (blendMean (P.cov (s - 1)) (P.mean (s - 1)) w) (blendCov (P.cov (s - 1)) w) (P.ret s)

/-- Column `k`: the return at `s` standardised by expert `k`, `L_kᵀ (r - mu_k)`. -/
noncomputable def Panel.scores (P : Panel τ n K) (s : ℕ) : Matrix (Fin n) (Fin K) ℝ :=
  Matrix.of fun i k => ((precFactor (P.cov (s - 1) k))ᵀ *ᵥ (P.ret s - P.mean (s - 1) k)) i

/-- The Gram matrix of the experts' standardised returns over the window of length `W` that ends at `t`. -/
noncomputable def Panel.gram (P : Panel τ n K) (W t : ℕ) : Mat K :=
  ∑ s ∈ Finset.Ioc (t - W) t, (P.scores s)ᵀ * P.scores s

/-- `w` maximises the window log-likelihood over the simplex. -/
def Panel.Optimal (P : Panel τ n K) (W t : ℕ) (w : Vec K) : Prop :=
  Simplex w ∧ ∀ w', Simplex w' → P.logLik W t w' ≤ P.logLik W t w

end CovPred
