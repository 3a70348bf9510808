import Verif.Model.LinAlg

/-
Random histories with finitely many outcomes: what is known after a row, returns that cannot be predicted, correct predictions.
-/
namespace CovPred
open Finset

variable {Ω : Type} [Fintype Ω] {n : ℕ}

/-- the expected value, outcome `ω` having probability `p ω` -/
def expect (p : Ω → ℝ) (f : Ω → ℝ) : ℝ := ∑ ω, p ω * f ω

/-- the histories of two outcomes agree up to row `t` -/
def SameUpTo (X : Ω → ℕ → Vec n) (t : ℕ) (ω ω' : Ω) : Prop := ∀ u ≤ t, X ω u = X ω' u

/-- known after row `t`: the same for histories that agree up to row `t` -/
def KnownAt {A : Type} (X : Ω → ℕ → Vec n) (t : ℕ) (f : Ω → A) : Prop := ∀ ω ω', SameUpTo X t ω ω' → f ω = f ω'

open Classical in
/-- after row `t`, whatever the history up to it, the expected returns of the next row are zero -/
def Unpredictable (p : Ω → ℝ) (X : Ω → ℕ → Vec n) (t : ℕ) : Prop :=
  ∀ ω₀ i, ∑ ω with SameUpTo X t ω₀ ω, p ω * X ω (t + 1) i = 0

open Classical in
/-- after row `t`, whatever the history up to it, the expected products of the returns of the next row are the entries of `S` -/
def CorrectAt (p : Ω → ℝ) (X : Ω → ℕ → Vec n) (t : ℕ) (S : Ω → Mat n) : Prop :=
  ∀ ω₀ i j, ∑ ω with SameUpTo X t ω₀ ω, p ω * (X ω (t + 1) i * X ω (t + 1) j)
    = (∑ ω with SameUpTo X t ω₀ ω, p ω) * S ω₀ i j

end CovPred
