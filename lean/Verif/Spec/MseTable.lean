import Verif.Spec.Regrets
import Verif.Spec.ExpUtils
import Verif.Spec.Regularization
import Verif.Model.ExpUtils

/-
Specification for the table of quarterly mean squared errors (property C183).
-/
namespace CovPred

variable {n : ℕ}

/-- The predictions (of `m`, made at the rows `f k` of a table of `T` rows) that were made in quarter `q` and can be compared with a
return: there is a next row and it has no missing entry. -/
def scoredIn (m T : ℕ) (r : ℕ → NRow n) (f : ℕ → ℕ) (ym : ℕ → ℤ × ℤ) (q : ℤ) : Finset ℕ :=
  (Finset.range m).filter fun k => quarterIndex (ym (f k)) = q ∧ f k + 1 < T ∧ ∀ i, (r (f k + 1) i).isSome

/-- The mean squared error of a quarter: the squared Frobenius distance of each prediction `S k` to the outer product of the
return of the row after it, averaged over the predictions of the quarter. -/
noncomputable def quarterError (m T : ℕ) (r : ℕ → NRow n) (f : ℕ → ℕ) (ym : ℕ → ℤ × ℤ) (S : ℕ → Mat n) (q : ℤ) : ℝ :=
  (∑ k ∈ scoredIn m T r f ym q, frob (S k - dyad fun i => (r (f k + 1) i).getD 0)) / (scoredIn m T r f ym q).card

end CovPred
