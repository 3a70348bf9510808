import Verif.Spec.FactorModel
import Verif.Spec.ReturnCombination

/-
What CM-REWMA computes from intraday returns on the days `D 0 < D 1 < ... < D (T-1)`.
-/
namespace CovPred

variable {τ : Type} [LinearOrder τ] {n K : ℕ}

/-- the rows of one day, in order -/
def intraday (rows : List (τ × Vec n)) (t : τ) : List (Vec n) := (rows.filter fun p => p.1 = t).map Prod.snd

/-- the return of holding each asset over the rows -/
noncomputable def compounded (rs : List (Vec n)) : Vec n := fun i => (rs.map fun r => 1 + r i).prod - 1

/-- the sum of the products of the deviations from the mean of the rows -/
noncomputable def scatter (rs : List (Vec n)) : Mat n := Matrix.of fun i j =>
  (rs.map fun r => (r i - rs.sum i / rs.length) * (r j - rs.sum j / rs.length)).sum

/-- the average of the scatters of the days `0, ..., k`, with weights that halve every `h` days back in time -/
noncomputable def rewmaCov (h : ℝ) (rows : List (τ × Vec n)) (D : ℕ → τ) (k : ℕ) : Mat n := Matrix.of fun i j =>
  halflifeAverage h (fun s => scatter (intraday rows (D s)) i j) k

/-- the window that is used: at most the days with experts (all but the first) but one -/
def rewmaWindow (window T : ℕ) : ℕ := min window (T - 2)

/-- The log-likelihood of the daily returns of the `W` days up to day `s`, each under the blend, with the weights `w`, of the
averages of the day before. -/
noncomputable def rewmaLogLik (halflives : Fin K → ℝ) (rows : List (τ × Vec n)) (D : ℕ → τ) (W s : ℕ) (w : Vec K) : ℝ :=
  ∑ u ∈ Finset.Ioc (s - W) s,
    gaussLogDensity 0 (blendCov (fun k => rewmaCov (halflives k) rows D (u - 1)) w) (compounded (intraday rows (D u)))

/-- A table of intraday returns in chronological order, with at least two rows on each of the days `D 0, ..., D (T-1)`. -/
structure IntradayTable (T : ℕ) (D : ℕ → τ) (rows : List (τ × Vec n)) : Prop where
  sorted : (rows.map Prod.fst).Pairwise (· ≤ ·)
  increasing : Increasing T D
  days : ∀ t, t ∈ rows.map Prod.fst ↔ ∃ k < T, t = D k
  two : ∀ k < T, 2 ≤ (intraday rows (D k)).length

/-- the arguments the theorems are about -/
structure RewmaSetup (solver : Solver n K) (halflives : Fin K → ℝ) (window T : ℕ) : Prop where
  experts : 0 < K
  halflives : ∀ k, 0 < halflives k
  window_pos : 0 < window
  feasible : solver.Feasible
  /-- at least two days with experts -/
  enough : 3 ≤ T

end CovPred
