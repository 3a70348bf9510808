import Verif.Num.XR

/-
Arithmetic with rounding and overflow, as a third interpretation of `Scalar`: every operation on numbers may be wrong by a relative
and an absolute error, and a result beyond the largest number is infinite. `nan` and the infinities are as in `XR`.

`FloatOps` is arbitrary; `FloatOps.Accurate` is the usual error model of floating point arithmetic. For IEEE double precision
`u = 2^-53` for `+ - * /` and `sqrt` (a few times that for the `exp`, `log` and `pow` of a C library), `η = 2^-1075`, `big ≈ 1.8e308`.
-/
namespace CovPred

/-- The operations of an arithmetic, before overflow (those used in ewma.py:26, 47, 196, 242-263), and its largest number. -/
structure FloatOps where
  add : ℝ → ℝ → ℝ
  sub : ℝ → ℝ → ℝ
  mul : ℝ → ℝ → ℝ
  div : ℝ → ℝ → ℝ
  sqrt : ℝ → ℝ
  exp : ℝ → ℝ
  log : ℝ → ℝ
  npow : ℝ → ℕ → ℝ
  big : ℝ

/-- `r` is the rounded value of `x`: relative error `u`, absolute error `η` (which covers underflow). (every operation of ewma.py:242-263) -/
def Rounds (u η r x : ℝ) : Prop := |r - x| ≤ u * |x| + η

/-- The error model of floating point arithmetic. (the operations of ewma.py:26, 47, 196, 242-263) -/
structure FloatOps.Accurate (F : FloatOps) (u η : ℝ) : Prop where
  u_nonneg : 0 ≤ u
  η_nonneg : 0 ≤ η
  add : ∀ a b, Rounds u η (F.add a b) (a + b)
  sub : ∀ a b, Rounds u η (F.sub a b) (a - b)
  mul : ∀ a b, Rounds u η (F.mul a b) (a * b)
  div : ∀ a b, b ≠ 0 → Rounds u η (F.div a b) (a / b)
  sqrt : ∀ a, 0 ≤ a → Rounds u η (F.sqrt a) (Real.sqrt a)
  exp : ∀ a, Rounds u η (F.exp a) (Real.exp a)
  log : ∀ a, 0 < a → Rounds u η (F.log a) (Real.log a)
  npow : ∀ a n, Rounds u η (F.npow a n) (a ^ n)

/-- A number of the arithmetic `F`. (the entries of all arrays of ewma.py) -/
structure RF (F : FloatOps) where
  val : XR

namespace RF
variable {F : FloatOps}

open Classical in
/-- the result of an operation, infinite beyond the largest number. (ewma.py:242-263) -/
noncomputable def out (F : FloatOps) (r : ℝ) : RF F := ⟨if |r| ≤ F.big then .fin r else XR.infSign r⟩

/-- an operation: `f` on two numbers, `g` if one operand is special. (ewma.py:242-263) -/
noncomputable def op2 (f : ℝ → ℝ → ℝ) (g : XR → XR → XR) : RF F → RF F → RF F
  | ⟨.fin a⟩, ⟨.fin b⟩ => out F (f a b)
  | ⟨x⟩, ⟨y⟩ => ⟨g x y⟩

open Classical in
/-- division; by zero as in `XR`. (ewma.py:131, 163, 243, 259, 263) -/
noncomputable def div : RF F → RF F → RF F
  | ⟨.fin a⟩, ⟨.fin b⟩ => if b = 0 then ⟨XR.infSign a⟩ else out F (F.div a b)
  | ⟨x⟩, ⟨y⟩ => ⟨XR.div x y⟩

open Classical in
/-- `np.sqrt`. (ewma.py:47, 131) -/
noncomputable def sqrt : RF F → RF F
  | ⟨.fin a⟩ => if a < 0 then ⟨.nan⟩ else out F (F.sqrt a)
  | ⟨x⟩ => ⟨XR.sqrt x⟩

/-- `np.exp`. (ewma.py:243) -/
noncomputable def exp : RF F → RF F
  | ⟨.fin a⟩ => out F (F.exp a)
  | ⟨x⟩ => ⟨XR.exp x⟩

open Classical in
/-- `np.log`. (ewma.py:243) -/
noncomputable def log : RF F → RF F
  | ⟨.fin a⟩ => if 0 < a then out F (F.log a) else ⟨XR.log (.fin a)⟩
  | ⟨x⟩ => ⟨XR.log x⟩

/-- `np.power`. (ewma.py:26, 43, 260, 263) -/
noncomputable def npow : RF F → ℕ → RF F
  | ⟨.fin a⟩, n => out F (F.npow a n)
  | ⟨x⟩, n => ⟨XR.npow x n⟩

noncomputable instance : Scalar (RF F) where
  zero := ⟨.fin 0⟩
  one := ⟨.fin 1⟩
  add := op2 F.add XR.add
  sub := op2 F.sub fun x y => XR.add x (XR.neg y)
  mul := op2 F.mul XR.mul
  div := div
  neg x := ⟨XR.neg x.val⟩
  lit n := ⟨.fin n⟩
  sqrt := sqrt
  exp := exp
  log := log
  npow := npow
  nan := ⟨.nan⟩
  isNaN x := XR.isNaN x.val
  leb x y := XR.leb x.val y.val
  isZero x := XR.isZero x.val

end RF
end CovPred
