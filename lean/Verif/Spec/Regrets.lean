import Verif.Spec.Prescient

/-
Specification for the scores of the experiment notebooks (properties C166, C167).
-/
namespace CovPred

variable {n : ℕ}

/-- The log-likelihood of the return of row `k` under the covariance predicted at the row before. -/
noncomputable def rowScore (x : ℕ → Vec n) (S : ℕ → Mat n) (k : ℕ) : ℝ := gaussLogDensity 0 (S (k - 1)) (x k)

/-- The quarters of the calendar, numbered: January-March of the year 0 is quarter 0. The argument is a year and a
month. -/
def quarterIndex (a : ℤ × ℤ) : ℤ := 4 * a.1 + (if a.2 ≤ 3 then 0 else if a.2 ≤ 6 then 1 else if a.2 ≤ 9 then 2 else 3)

/-- The rows `1, ..., T - 1` whose date lies in quarter `q`; `ym k` is the year and the month of row `k`. -/
def quarterRowsOf (T : ℕ) (ym : ℕ → ℤ × ℤ) (q : ℤ) : Finset ℕ :=
  (Finset.range T).filter fun k => 1 ≤ k ∧ quarterIndex (ym k) = q

end CovPred
