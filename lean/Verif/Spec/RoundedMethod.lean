import Verif.Spec.RoundedIewma
import Verif.Model.FromEwmas

/-
Vocabulary for property C193: the numbers of an arithmetic with rounding read as real numbers, and nearby labelled results.
-/
namespace CovPred

variable {τ L : Type} {n : ℕ} {F : FloatOps}

/-- all means and covariances of a result are numbers -/
structure IEWMA.Numbers (r : IEWMA τ (Fin n) (RF F)) : Prop where
  mean : ∀ i, ∃ v : ℝ, (r.mean i).val = XR.fin v
  covariance : ∀ i j, ∃ v : ℝ, (r.covariance (i, j)).val = XR.fin v

/-- the covariance of a result as a real matrix -/
noncomputable def IEWMA.matrix (r : IEWMA τ (Fin n) (RF F)) : Mat n := Matrix.of fun i j => (r.covariance (i, j)).val.toReal

/-- the mean of a result as a real vector -/
noncomputable def IEWMA.vector (r : IEWMA τ (Fin n) (RF F)) : Vec n := fun i => (r.mean i).val.toReal

/-- Two labelled results for the same time, entrywise within `e`. -/
structure EwmaResult.Within (e : ℝ) (r r' : EwmaResult L τ n) : Prop where
  time : r'.time = r.time
  mean : ∀ i, |r'.mean i - r.mean i| < e
  covariance : ∀ i j, |r'.covariance i j - r.covariance i j| < e
  weights : List.Forall₂ (fun p p' => p'.1 = p.1 ∧ |p'.2 - p.2| < e) r.weights r'.weights

end CovPred
