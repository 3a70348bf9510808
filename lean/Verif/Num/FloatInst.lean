import Verif.Num.Scalar

/-
`Float` as a `Scalar`: only used to run the model (see `Verif/Run`), never in a proof.
-/
namespace CovPred

instance : Scalar Float where
  zero := 0.0
  one := 1.0
  add := (· + ·)
  sub := (· - ·)
  mul := (· * ·)
  div := (· / ·)
  neg := fun x => -x
  lit := Float.ofNat
  sqrt := Float.sqrt
  exp := Float.exp
  log := Float.log
  npow := fun x n => Float.pow x (Float.ofNat n)
  nan := 0.0 / 0.0
  isNaN := Float.isNaN
  leb := fun a b => a ≤ b
  isZero := fun a => a == 0.0

end CovPred
