import Verif.Spec.Solve

/-
Which exception ends a comprehension over `solve(...)`.
-/
namespace CovPred

variable {τ : Type} [LinearOrder τ] {n K : ℕ}

/-- The exception of a comprehension over all results of a run with window `W` that needs an attribute of each result. A window
that is not positive definite: `LinAlgError`, before any result. Otherwise the first position where the solver does not return
weights counts: `AttributeError` if it fails with `SolverError` (the result is `None`), else the exception of the solver. -/
def Panel.Fails (P : Panel τ n K) (solver : Solver n K) (W : ℕ) (e : Err) : Prop :=
  ((∃ t, W ≤ t ∧ t < P.len ∧ ¬ (P.gram W t).PosDef) ∧ e = .linAlgError) ∨
  ((∀ t, W ≤ t → t < P.len → (P.gram W t).PosDef) ∧
    ∃ t, W ≤ t ∧ t < P.len ∧ (∀ s, W ≤ s → s < t → ∃ w, P.outcome solver W W s = .weights w) ∧
      ((P.outcome solver W W t = .solverError ∧ e = .attributeError) ∨ P.outcome solver W W t = .raises e))

/-- The exception if the results are first collected in a list. A window that is not positive definite: `LinAlgError`. Otherwise
the first exception of the solver that is not `SolverError`; if there is none, and it fails with `SolverError` somewhere, an
attribute of `None` is needed: `AttributeError`. -/
def Panel.FailsList (P : Panel τ n K) (solver : Solver n K) (W : ℕ) (e : Err) : Prop :=
  ((∃ t, W ≤ t ∧ t < P.len ∧ ¬ (P.gram W t).PosDef) ∧ e = .linAlgError) ∨
  ((∀ t, W ≤ t → t < P.len → (P.gram W t).PosDef) ∧
    ((∃ t, W ≤ t ∧ t < P.len ∧ P.outcome solver W W t = .raises e ∧
        ∀ s, W ≤ s → s < t → ∀ e', P.outcome solver W W s ≠ .raises e') ∨
      (e = .attributeError ∧ (∃ t, W ≤ t ∧ t < P.len ∧ P.outcome solver W W t = .solverError) ∧
        ∀ t, W ≤ t → t < P.len → ∀ e', P.outcome solver W W t ≠ .raises e')))

end CovPred
