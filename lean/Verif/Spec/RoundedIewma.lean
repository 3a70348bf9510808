import Verif.Spec.Rounded
import Verif.Spec.Iewma

/-
Vocabulary for property C188: the arguments of `iterated_ewma` as numbers of an arithmetic with rounding.
-/
namespace CovPred

/-- the arguments as a program with the arithmetic `F` sees them -/
noncomputable def RealArgs.toRF (F : FloatOps) (a : RealArgs) : IewmaArgs (RF F) where
  volaHalflife := ⟨.fin a.volaHalflife⟩
  covHalflife := ⟨.fin a.covHalflife⟩
  minPeriodsVola := a.minPeriodsVola
  minPeriodsCov := a.minPeriodsCov
  mean := a.mean
  muHalflife1 := a.muHalflife1.map fun h => ⟨.fin h⟩
  muHalflife2 := a.muHalflife2.map fun h => ⟨.fin h⟩
  clipAt := a.clipAt.map fun c => ⟨.fin c⟩
  nanToNum := a.nanToNum

end CovPred
