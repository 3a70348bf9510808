import Verif.Spec.Solve

/-
Nearby data and nearby results of the combination. Written without reference to the model of the code.
-/
namespace CovPred

variable {τ : Type} {n K : ℕ}

/-- The panel `Q` has the length and the time stamps of `P`, and all its covariances, means and returns are entrywise within `d` of those of
`P` (the return of the first position is never used). -/
structure Panel.CloseBy (d : ℝ) (P Q : Panel τ n K) : Prop where
  len : Q.len = P.len
  time : ∀ t < P.len, Q.time t = P.time t
  cov : ∀ t < P.len, ∀ k i j, |Q.cov t k i j - P.cov t k i j| ≤ d
  mean : ∀ t < P.len, ∀ k i, |Q.mean t k i - P.mean t k i| ≤ d
  ret : ∀ t < P.len, 0 < t → ∀ i, |Q.ret t i - P.ret t i| ≤ d

/-- Two results for the same time, entrywise within `e`. -/
structure Result.Within (e : ℝ) (r r' : Result τ n K) : Prop where
  time : r'.time = r.time
  mean : ∀ i, |r'.mean i - r.mean i| < e
  covariance : ∀ i j, |r'.covariance i j - r.covariance i j| < e
  weights : ∀ k, |r'.weights k - r.weights k| < e

end CovPred
