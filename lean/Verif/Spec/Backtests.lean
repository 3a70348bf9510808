import Verif.Model.Backtests
import Verif.Spec.Portfolio
import Verif.Spec.FactorModel

/-
The vocabulary of the theorems about `portfolio_backtests.py`.
-/
namespace CovPred
open Matrix

variable {τ : Type} [DecidableEq τ] {n : ℕ}

/-- nothing is missing in the row -/
def CompleteRow (x : NRow n) : Prop := ∀ i, (x i).isSome

/-- the values of a complete row -/
def rowValues (x : NRow n) : Vec n := fun i => (x i).getD 0

open Classical in
/-- The rows `a ≤ t < b` whose next row is complete. -/
noncomputable def tradingDays (x : ℕ → NRow n) (a b : ℕ) : List ℕ :=
  (List.range' a (b - a)).filter fun t => CompleteRow (x (t + 1))

/-- different rows have different labels -/
def DistinctLabels (T : ℕ) (tm : ℕ → τ) : Prop := ∀ s t, s < T → t < T → tm s = tm t → s = t

/-- `d[t]` for an optional dictionary -/
def optItem {A : Type} (d : Option (Dict τ A)) (t : τ) : Except Err (Option A) :=
  match d with
  | none => .ok none
  | some d => do
    let a ← getItem d t
    pure (some a)

/-- What a strategy needs for one date, and the weights it computes from it: the predicted covariance of that date (with
its whitener), and the expected returns and uncertainties of that date. -/
noncomputable def dayOutcome (cvx : Cvx n) (st : Strategy τ n) (sigmas : Dict τ (Mat n)) (mus : Option (Dict τ (Vec n)))
    (t : τ) : Except Err (List ℝ) := do
  let S ← getItem sigmas t
  let mu ← optItem mus t
  let L ← getLInv S
  let rho ← optItem st.rhos t
  dayWeights cvx st ⟨S, L, mu, rho⟩

/-- An exact solver: what it returns solves the problem it was given. -/
structure Cvx.Exact (cvx : Cvx n) : Prop where
  minRisk : ∀ a L w, cvx.minRisk a L = .ok w →
    minRiskCons a w ∧ ∀ w', minRiskCons a w' → riskExpr L w ≤ riskExpr L w'
  maxDiverse : ∀ M L s z, cvx.maxDiverse M L s = .ok z → DiverseOptimal L M s z
  riskParity : ∀ L w, cvx.riskParity L = .ok w → ParityOptimal L w
  meanVariance : ∀ a s L mu rho w, cvx.meanVariance a s L mu rho = .ok w →
    meanVarianceCons a 1 s L w.1 w.2 ∧
      ∀ w' c', meanVarianceCons a 1 s L w' c' → meanVarianceRet mu rho w' c' ≤ meanVarianceRet mu rho w.1 w.2

/-- The object `bt` backtests the rows `x 0, ..., x (T-1)` labelled `tm 0, ..., tm (T-1)` from row `a` to row `b`. -/
structure Backtests (bt : Backtest τ n) (T : ℕ) (tm : ℕ → τ) (x : ℕ → NRow n) (a b : ℕ) : Prop where
  assets : 0 < n
  labels : DistinctLabels T tm
  first : a < T
  last : b < T
  returns : bt.returns = rowDict T tm x
  start : bt.startDate = tm a
  stop : bt.endDate = tm b

/-- A way to make predictions from a table of returns which does not look ahead: the prediction labelled `tm s` does not
depend on rows after `s`. -/
def CausalPredictor {A : Type} (tm : ℕ → τ) (F : (ℕ → NRow n) → Dict τ A) : Prop :=
  ∀ x y s, (∀ u ≤ s, x u = y u) → (F x).lookup (tm s) = (F y).lookup (tm s)

/-- On the date `t` the trader holds the weights `w`. -/
def HoldsAt (tr : DatedTrader τ n) (t : τ) (w : List ℝ) : Prop := (t, w) ∈ List.zip tr.dates tr.trader.ws

end CovPred
