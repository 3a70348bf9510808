/-
The float operations that `cvx/covariance/ewma.py` uses, as a class, so that the same model text can be
interpreted over exact reals with `nan`/`inf` (`Verif.Num.XR`, used for all proofs) and over `Float`
(`Verif.Num.FloatInst`, used only to run the model on the data in `/repo/tests/resources`).
-/
namespace CovPred

/-- Operations on the numbers stored in numpy arrays.  No laws: a `Float` is an instance. The uses are in
ewma.py:26, 47, 83, 127-140, 199, 212, 238-263. -/
class Scalar (α : Type) extends Zero α, One α, Add α, Sub α, Mul α, Div α, Neg α where
  /-- the literal `n` -/
  lit : Nat → α
  /-- `np.sqrt` -/
  sqrt : α → α
  /-- `np.exp` -/
  exp : α → α
  /-- `np.log` -/
  log : α → α
  /-- `np.power(x, n)` / `x ** n` with a non-negative integer exponent -/
  npow : α → Nat → α
  /-- `np.nan` -/
  nan : α
  /-- `np.isnan` -/
  isNaN : α → Bool
  /-- `x <= y` (false when either is `nan`) -/
  leb : α → α → Bool
  /-- `x == 0` (false for `nan`) -/
  isZero : α → Bool

namespace Scalar
variable {α : Type} [Scalar α]

/-- `np.maximum`: propagates `nan` (used by `np.clip`, ewma.py:259). -/
def maximum (a b : α) : α := if isNaN a then a else if isNaN b then b else if leb a b then b else a

/-- `np.minimum`: propagates `nan` (used by `np.clip`, ewma.py:259). -/
def minimum (a b : α) : α := if isNaN a then a else if isNaN b then b else if leb a b then a else b

/-- `np.clip(x, lo, hi)`, which numpy defines as `minimum(maximum(x, lo), hi)` (ewma.py:259). -/
def npClip (x lo hi : α) : α := minimum (maximum x lo) hi

/-- Python truth value of an optional number: `None` and `0` are false, everything else (also `nan`)
true (ewma.py:42, 82, 242, 258). -/
def truthy : Option α → Option α
  | none => none
  | some c => if isZero c then none else some c

end Scalar
end CovPred
