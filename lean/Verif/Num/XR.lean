import Verif.Num.Scalar
import Mathlib.Analysis.SpecialFunctions.Log.Basic
import Mathlib.Analysis.Real.Sqrt
import Mathlib.Tactic.Ring
import Mathlib.Tactic.FieldSimp
import Mathlib.Tactic.Linarith
import Mathlib.Tactic.Positivity

/-
Exact real arithmetic extended with the IEEE-754 special values.

Simplification: `+0` and `-0` are identified, so `x / 0` is `+inf` for `x > 0`.  The only division by a
possibly zero number in the modelled code is `returns / vola` (ewma.py:163), where `vola` is a square root of
`e + a*(x - e)` with `e, x` non-negative; such a sum is never `-0` in IEEE arithmetic.
-/
namespace CovPred

/-- A float without rounding: a real, an infinity or `nan` (the entries of all arrays of ewma.py). -/
inductive XR where
  | fin (r : ℝ)
  | pinf
  | ninf
  | nan

namespace XR
open Classical in
/-- infinity with the sign of `r`; `nan` for `r = 0` (the product `inf * 0`, the quotient `r / 0`; ewma.py:163, 175, 238). -/
noncomputable def infSign (r : ℝ) : XR := if 0 < r then pinf else if r < 0 then ninf else nan

/-- IEEE addition (ewma.py:140, 259, 263) -/
noncomputable def add : XR → XR → XR
  | fin a, fin b => fin (a + b)
  | nan, _ => nan
  | _, nan => nan
  | pinf, ninf => nan
  | ninf, pinf => nan
  | pinf, _ => pinf
  | _, pinf => pinf
  | ninf, _ => ninf
  | _, ninf => ninf

/-- IEEE negation (ewma.py:83, 243, 259) -/
noncomputable def neg : XR → XR
  | fin a => fin (-a)
  | pinf => ninf
  | ninf => pinf
  | nan => nan

/-- IEEE multiplication (ewma.py:133, 135, 196, 238, 263) -/
noncomputable def mul : XR → XR → XR
  | fin a, fin b => fin (a * b)
  | nan, _ => nan
  | _, nan => nan
  | pinf, pinf => pinf
  | ninf, ninf => pinf
  | pinf, ninf => ninf
  | ninf, pinf => ninf
  | fin a, pinf => infSign a
  | pinf, fin a => infSign a
  | fin a, ninf => infSign (-a)
  | ninf, fin a => infSign (-a)

open Classical in
/-- IEEE division (see the remark on `-0` above; ewma.py:131, 163, 259, 263) -/
noncomputable def div : XR → XR → XR
  | fin a, fin b => if b = 0 then infSign a else fin (a / b)
  | nan, _ => nan
  | _, nan => nan
  | fin _, pinf => fin 0
  | fin _, ninf => fin 0
  | pinf, fin b => if b < 0 then ninf else pinf
  | ninf, fin b => if b < 0 then pinf else ninf
  | _, _ => nan

open Classical in
/-- `np.sqrt` (ewma.py:47, 131) -/
noncomputable def sqrt : XR → XR
  | fin a => if a < 0 then nan else fin (Real.sqrt a)
  | pinf => pinf
  | _ => nan

/-- `np.exp` (ewma.py:243) -/
noncomputable def exp : XR → XR
  | fin a => fin (Real.exp a)
  | pinf => pinf
  | ninf => fin 0
  | nan => nan

open Classical in
/-- `np.log` (ewma.py:243) -/
noncomputable def log : XR → XR
  | fin a => if a < 0 then nan else if a = 0 then ninf else fin (Real.log a)
  | pinf => pinf
  | _ => nan

/-- `np.power(x, n)` (ewma.py:26, 43, 260, 263) -/
noncomputable def npow (x : XR) : Nat → XR
  | 0 => fin 1
  | n + 1 => mul (npow x n) x

/-- `np.isnan` (ewma.py:199, 212) -/
def isNaN : XR → Bool
  | nan => true
  | _ => false

open Classical in
/-- IEEE `<=` (inside the clips of ewma.py:83, 259) -/
noncomputable def leb : XR → XR → Bool
  | fin a, fin b => decide (a ≤ b)
  | nan, _ => false
  | _, nan => false
  | ninf, _ => true
  | _, pinf => true
  | _, _ => false

open Classical in
/-- `x == 0` (ewma.py:128, and the truth values of ewma.py:42, 82, 242, 258) -/
noncomputable def isZero : XR → Bool
  | fin a => decide (a = 0)
  | _ => false

noncomputable instance : Scalar XR where
  zero := fin 0
  one := fin 1
  add := add
  sub a b := add a (neg b)
  mul := mul
  div := div
  neg := neg
  lit n := fin n
  sqrt := sqrt
  exp := exp
  log := log
  npow := npow
  nan := nan
  isNaN := isNaN
  leb := leb
  isZero := isZero

end XR
end CovPred
