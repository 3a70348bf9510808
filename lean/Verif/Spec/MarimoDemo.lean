import Verif.Model.Arr
import Verif.Num.XR
import Mathlib.Data.Real.Basic

/-
Prices with gaps and their returns. `p t i` is the price of asset `i` on day `t`, if there is one.
-/
namespace CovPred

variable {τ : Type} {m : ℕ}

/-- the table of the first `T` prices, with labels `tm` -/
def priceFrame (T : ℕ) (tm : ℕ → τ) (p : ℕ → Fin m → Option ℝ) : Frame τ (Fin m) XR :=
  (List.range T).map fun t => (tm t, Arr.ofFn fun i => ((p t i).map XR.fin).getD XR.nan)

/-- all prices are positive -/
def PositivePrices (T : ℕ) (p : ℕ → Fin m → Option ℝ) : Prop := ∀ t < T, ∀ i q, p t i = some q → 0 < q

/-- `q` is the last price of asset `i` on or before day `t` -/
def LastPrice (p : ℕ → Fin m → Option ℝ) (i : Fin m) (t : ℕ) (q : ℝ) : Prop :=
  ∃ s ≤ t, p s i = some q ∧ ∀ u, s < u → u ≤ t → p u i = none

/-- there is a price of asset `i` on or before day `t` -/
def Listed (p : ℕ → Fin m → Option ℝ) (i : Fin m) (t : ℕ) : Prop := ∃ s ≤ t, (p s i).isSome

end CovPred
