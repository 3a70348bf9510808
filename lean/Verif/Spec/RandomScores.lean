import Verif.Model.LinAlg
import Mathlib.MeasureTheory.Integral.Bochner.Basic

/-
Mean and second moments of a random vector of returns.
-/
namespace CovPred
open MeasureTheory

variable {n : ℕ} {Ω : Type} [MeasurableSpace Ω]

/-- the expected returns -/
noncomputable def expectedReturn (P : Measure Ω) (R : Ω → Vec n) : Vec n := fun i => ∫ ω, R ω i ∂P

/-- the expected products of the deviations of the returns from `m`: for `m = 0` the second moments, for `m` the expected
returns the covariances -/
noncomputable def momentsAbout (P : Measure Ω) (R : Ω → Vec n) (m : Vec n) : Mat n :=
  Matrix.of fun i j => ∫ ω, (R ω i - m i) * (R ω j - m j) ∂P

end CovPred
