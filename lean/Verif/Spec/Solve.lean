import Verif.Spec.Combination
import Verif.Model.Combination

/-
What `solve` is documented to hand to the solver and to yield, position by position.
-/
namespace CovPred
open Matrix

variable {τ : Type} {n K : ℕ}

open Classical in
/-- The Cholesky factor of `M` (arbitrary if there is none) -/
noncomputable def cholFactor {m : ℕ} (M : Mat m) : Mat m := if h : ∃ L, IsChol L M then h.choose else 0

/-- The parameters of the problem of position `t` with window `W`: the diagonals of the precision factors predicted for
the positions of the window (oldest first), and the Cholesky factor of the window Gram matrix. -/
noncomputable def Panel.params (P : Panel τ n K) (W t : ℕ) : Params n K where
  A := (List.range' (t + 1 - W) W).map fun s => Matrix.of fun i k => precFactor (P.cov (s - 1) k) i i
  C := cholFactor (P.gram W t)

/-- The blended prediction at position `t` with weights `w`. -/
noncomputable def Panel.predict (P : Panel τ n K) (t : ℕ) (w : Vec K) : Result τ n K where
  time := P.time t
  mean := blendMean (P.cov t) (P.mean t) w
  covariance := blendCov (P.cov t) w
  weights := w

/-- The outcome of the solver at position `t`, in a run whose first problem is the one of position `a`. -/
noncomputable def Panel.outcome (P : Panel τ n K) (solver : Solver n K) (W a t : ℕ) : Outcome K :=
  solver ((List.range' a (t + 1 - a)).map fun s => P.params W s)

/-- The item yielded for position `t` in such a run (when the solver does not raise). -/
noncomputable def Panel.item (P : Panel τ n K) (solver : Solver n K) (W a t : ℕ) : Option (Result τ n K) :=
  match P.outcome solver W a t with
  | .weights w => some (P.predict t w)
  | _ => none

/-- A run of `solve` over the positions `a, ..., b - 1` with window `W`. If one of the window Gram matrices is not
positive definite nothing is yielded and `LinAlgError` is raised. Otherwise the items of the positions are yielded in
order, until the solver raises something else than `SolverError`. -/
def Panel.Run (P : Panel τ n K) (solver : Solver n K) (W a b : ℕ) (tr : Trace (Result τ n K)) : Prop :=
  ((∃ t, a ≤ t ∧ t < b ∧ ¬ (P.gram W t).PosDef) ∧ tr = ⟨[], some .linAlgError⟩) ∨
  ((∀ t, a ≤ t → t < b → (P.gram W t).PosDef) ∧
    ∃ m, tr.items = (List.range' a m).map (P.item solver W a) ∧
      (∀ t, a ≤ t → t < a + m → ∀ e, P.outcome solver W a t ≠ .raises e) ∧
      ((m = b - a ∧ tr.err = none) ∨
        (m < b - a ∧ ∃ e, tr.err = some e ∧ P.outcome solver W a (a + m) = .raises e)))

/-- The object `c` is built from the panel `P` and the frame `returns`. -/
structure Panel.Gives [LinearOrder τ] (P : Panel τ n K) (returns : Dict τ (Vec n)) (c : Comb τ n K) : Prop where
  ok : P.Ok
  covered : P.Covered returns
  experts : 0 < K
  /-- `from_sigmas` with means, or without means for a panel of zero means -/
  built : fromSigmas P.sigmas returns (some fun k => some (P.means k)) = .ok c ∨
    ((∀ t k, P.mean t k = 0) ∧ fromSigmas P.sigmas returns none = .ok c)

end CovPred
