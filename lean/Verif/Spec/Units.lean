import Verif.Model.Trading

/-
A trader whose data are recorded in other units, for example in percent.
-/
namespace CovPred

variable {n : ℕ}

/-- The same trader with the returns recorded in units `1 / c` of the old ones (`c = 100`: in percent), the covariance
matrices in the squares of these units, and the adjust factor that undoes it. The weights, diluted or not, have no units. -/
def Trader.inUnits (c : ℝ) (s : Trader n) : Trader n :=
  { s with
    returns := s.returns.map fun r => fun i => c * r i
    sigmas := s.sigmas.map fun S => Matrix.of fun i j => c ^ 2 * S i j
    adjustFactor := c * s.adjustFactor
    rets := s.rets.map (c * ·)
    retsAdjusted := s.retsAdjusted.map (c * ·) }

end CovPred
