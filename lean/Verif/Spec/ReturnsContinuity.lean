import Verif.Model.Ewma
import Verif.Num.XR

/-
Vocabulary for property C194: nearby tables of returns and nearby results of `iterated_ewma`.
-/
namespace CovPred

variable {τ : Type} {n : ℕ}

/-- Two tables with the same times and the same missing entries; all other entries are within `d`. -/
def Frame.CloseBy (d : ℝ) (f f' : Frame τ (Fin n) XR) : Prop :=
  List.Forall₂ (fun p p' => p'.1 = p.1 ∧ ∀ i, (p.2 i = XR.nan ∧ p'.2 i = XR.nan) ∨
    ∃ v v', p.2 i = XR.fin v ∧ p'.2 i = XR.fin v' ∧ |v' - v| ≤ d) f f'

/-- two numbers within `e` -/
def NearNumbers (e : ℝ) (u u' : XR) : Prop := ∃ v v', u = XR.fin v ∧ u' = XR.fin v' ∧ |v' - v| < e

/-- Two results for the same time; all entries are numbers within `e`. -/
structure IEWMA.Within (e : ℝ) (r r' : IEWMA τ (Fin n) XR) : Prop where
  time : r'.time = r.time
  mean : ∀ i, NearNumbers e (r.mean i) (r'.mean i)
  covariance : ∀ p, NearNumbers e (r.covariance p) (r'.covariance p)
  volatility : ∀ i, NearNumbers e (r.volatility i) (r'.volatility i)

end CovPred
