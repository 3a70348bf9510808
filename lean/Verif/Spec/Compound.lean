import Verif.Model.ExpUtils
import Mathlib.Algebra.BigOperators.Group.Finset.Basic

/-
Specification for compounded returns (property C184).
-/
namespace CovPred

variable {n : ℕ}

/-- The rows (of `T`) of year `y` in which asset `i` has a return. -/
def observedIn (T : ℕ) (r : ℕ → NRow n) (year : ℕ → ℤ) (y : ℤ) (i : Fin n) : Finset ℕ :=
  (Finset.range T).filter fun t => year t = y ∧ (r t i).isSome

/-- What one dollar held in asset `i` over the rows `rows` becomes; a row without a return leaves it as it is. -/
def dollar (r : ℕ → NRow n) (i : Fin n) (rows : Finset ℕ) : ℝ := ∏ t ∈ rows, (1 + (r t i).getD 0)

end CovPred
