import Verif.Spec.Iewma

/-
What `iterated_ewma` computes when the rows enter the covariance in some order `rows` (numbers of rows).
-/
namespace CovPred

variable {τ ι : Type} [Ix ι]

/-- volatility-adjusted clipped return in the `j`-th row that enters -/
noncomputable def adjOn (a : RealArgs) (rows : List ℕ) (x : ℕ → ι → ℝ) (j : ℕ) (i : ι) : ℝ :=
  adjReal a.clip (cRet a x (rows.getD j 0) i) (vol a x (rows.getD j 0) i)

/-- the same, centred -/
noncomputable def zOn (a : RealArgs) (rows : List ℕ) (x : ℕ → ι → ℝ) (j : ℕ) (i : ι) : ℝ :=
  adjOn a rows x j i - muOf a.mean a.mu2h (adjOn a rows x) j i

/-- their weighted covariance: an average over the rows `rows 0, ..., rows j` -/
noncomputable def covOn (a : RealArgs) (rows : List ℕ) (x : ℕ → ι → ℝ) (j : ℕ) (p : ι × ι) : ℝ :=
  halflifeAverage a.covHalflife (fun k => zOn a rows x k p.1 * zOn a rows x k p.2) j

open Classical in
/-- The predicted covariance: the volatilities of row `rows j` times the correlation of the adjusted returns. -/
noncomputable def sigmaOn (a : RealArgs) (rows : List ℕ) (x : ℕ → ι → ℝ) (j : ℕ) (p : ι × ι) : XR :=
  if covOn a rows x j (p.1, p.1) = 0 ∨ covOn a rows x j (p.2, p.2) = 0 then XR.nan
  else XR.fin (vol a x (rows.getD j 0) p.1 * vol a x (rows.getD j 0) p.2 *
    (covOn a rows x j p / (Real.sqrt (covOn a rows x j (p.1, p.1)) * Real.sqrt (covOn a rows x j (p.2, p.2)))))

/-- the predicted mean -/
noncomputable def meanOn (a : RealArgs) (rows : List ℕ) (x : ℕ → ι → ℝ) (j : ℕ) (i : ι) : ℝ :=
  if a.mean then
    muOf a.mean a.mu1h x (rows.getD j 0) i + vol a x (rows.getD j 0) i * muOf a.mean a.mu2h (adjOn a rows x) j i
  else 0

/-- the result for the `j`-th row that enters -/
noncomputable def itemOn (a : RealArgs) (rows : List ℕ) (tm : ℕ → τ) (x : ℕ → ι → ℝ) (j : ℕ) : IEWMA τ ι XR where
  time := tm (rows.getD j 0)
  mean := finRow (meanOn a rows x j)
  covariance := Arr.ofFn (sigmaOn a rows x j)
  volatility := finRow (vol a x (rows.getD j 0))

end CovPred
