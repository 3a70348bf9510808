import Verif.Spec.Smoothing

/-
Specification for the frequency of updates of a smoothed sequence (property C186).
-/
namespace CovPred

variable {n : ℕ}

open Classical in
/-- The number of times, up to `T`, at which the sequence `Y` changes. -/
noncomputable def changes (T : ℕ) (Y : ℕ → Mat n) : ℕ := ((Finset.range T).filter fun t => Y (t + 1) ≠ Y t).card

end CovPred
