import Verif.Num.XR
import Mathlib.Algebra.Group.Defs

/-
Algebra of `XR`: the operations on finite values, `nan` propagation, and the laws that do hold in the
presence of special values.
-/
namespace CovPred
namespace XR
open Scalar

/-! ### finite values -/
theorem zero_def : (0 : XR) = fin 0 := rfl
theorem one_def : (1 : XR) = fin 1 := rfl
theorem nan_def : (Scalar.nan : XR) = nan := rfl
theorem lit_def (n : Nat) : (Scalar.lit n : XR) = fin n := rfl
@[simp] theorem fin_inj {a b : ℝ} : fin a = fin b ↔ a = b := ⟨fun h => by cases h; rfl, fun h => by rw [h]⟩
theorem fin_add (a b : ℝ) : fin a + fin b = fin (a + b) := rfl
theorem fin_neg (a : ℝ) : -fin a = fin (-a) := rfl
theorem fin_sub (a b : ℝ) : fin a - fin b = fin (a - b) := by
  show add (fin a) (neg (fin b)) = _
  simp [add, neg, sub_eq_add_neg]
theorem fin_mul (a b : ℝ) : fin a * fin b = fin (a * b) := rfl
theorem fin_div {a b : ℝ} (h : b ≠ 0) : fin a / fin b = fin (a / b) := by
  show div (fin a) (fin b) = _
  simp [div, h]
theorem fin_sqrt {a : ℝ} (h : 0 ≤ a) : Scalar.sqrt (fin a) = fin (Real.sqrt a) := by
  show XR.sqrt (fin a) = _
  simp [XR.sqrt, not_lt.mpr h]
theorem fin_exp (a : ℝ) : Scalar.exp (fin a) = fin (Real.exp a) := rfl
theorem fin_log {a : ℝ} (h : 0 < a) : Scalar.log (fin a) = fin (Real.log a) := by
  show XR.log (fin a) = _
  simp [XR.log, not_lt.mpr h.le, h.ne']
theorem fin_npow (a : ℝ) (n : Nat) : Scalar.npow (fin a) n = fin (a ^ n) := by
  show XR.npow (fin a) n = _
  induction n with
  | zero => simp [XR.npow]
  | succ n ih => simp [XR.npow, ih, XR.mul, pow_succ]
@[simp] theorem isNaN_fin (a : ℝ) : Scalar.isNaN (fin a) = false := rfl
@[simp] theorem isNaN_nan : Scalar.isNaN (nan : XR) = true := rfl
@[simp] theorem isNaN_pinf : Scalar.isNaN (pinf : XR) = false := rfl
@[simp] theorem isNaN_ninf : Scalar.isNaN (ninf : XR) = false := rfl
theorem isNaN_iff (x : XR) : Scalar.isNaN x = true ↔ x = nan := by
  cases x <;> simp
theorem leb_fin (a b : ℝ) : Scalar.leb (fin a) (fin b) = true ↔ a ≤ b := by
  show XR.leb (fin a) (fin b) = true ↔ _
  simp [XR.leb]
theorem isZero_fin (a : ℝ) : Scalar.isZero (fin a) = true ↔ a = 0 := by
  show XR.isZero (fin a) = true ↔ _
  simp [XR.isZero]
theorem isZero_iff (x : XR) : Scalar.isZero x = true ↔ x = fin 0 := by
  cases x with
  | fin a => rw [isZero_fin]; simp
  | _ => constructor <;> intro h <;> cases h

/-! ### nan propagation -/
@[simp] theorem nan_add (x : XR) : nan + x = nan := by cases x <;> rfl
@[simp] theorem add_nan (x : XR) : x + nan = nan := by cases x <;> rfl
@[simp] theorem nan_mul (x : XR) : nan * x = nan := by cases x <;> rfl
@[simp] theorem mul_nan (x : XR) : x * nan = nan := by cases x <;> rfl
@[simp] theorem neg_nan : -nan = nan := rfl
@[simp] theorem nan_sub (x : XR) : nan - x = nan := nan_add _
@[simp] theorem sub_nan (x : XR) : x - nan = nan := add_nan _
@[simp] theorem nan_div (x : XR) : nan / x = nan := by cases x <;> rfl
@[simp] theorem div_nan (x : XR) : x / nan = nan := by cases x <;> rfl
@[simp] theorem sqrt_nan : Scalar.sqrt (nan : XR) = nan := rfl

theorem sub_def (x y : XR) : x - y = x + -y := rfl

/-! ### infinities -/
theorem infSign_pos {a : ℝ} (h : 0 < a) : infSign a = pinf := by simp [infSign, h]
theorem infSign_neg {a : ℝ} (h : a < 0) : infSign a = ninf := by simp [infSign, h, not_lt.mpr h.le]
@[simp] theorem infSign_zero : infSign 0 = nan := by simp [infSign]
@[simp] theorem fin_mul_pinf (a : ℝ) : fin a * pinf = infSign a := rfl
@[simp] theorem pinf_mul_fin (a : ℝ) : pinf * fin a = infSign a := rfl
@[simp] theorem fin_mul_ninf (a : ℝ) : fin a * ninf = infSign (-a) := rfl
@[simp] theorem ninf_mul_fin (a : ℝ) : ninf * fin a = infSign (-a) := rfl
@[simp] theorem pinf_mul_pinf : pinf * pinf = pinf := rfl
@[simp] theorem pinf_mul_ninf : pinf * ninf = ninf := rfl
@[simp] theorem ninf_mul_pinf : ninf * pinf = ninf := rfl
@[simp] theorem ninf_mul_ninf : ninf * ninf = pinf := rfl
@[simp] theorem neg_pinf : -pinf = ninf := rfl
@[simp] theorem neg_ninf : -ninf = pinf := rfl
@[simp] theorem fin_add_pinf (a : ℝ) : fin a + pinf = pinf := rfl
@[simp] theorem pinf_add_fin (a : ℝ) : pinf + fin a = pinf := rfl
@[simp] theorem fin_add_ninf (a : ℝ) : fin a + ninf = ninf := rfl
@[simp] theorem ninf_add_fin (a : ℝ) : ninf + fin a = ninf := rfl
@[simp] theorem pinf_add_pinf : pinf + pinf = pinf := rfl
@[simp] theorem ninf_add_ninf : ninf + ninf = ninf := rfl
@[simp] theorem pinf_add_ninf : pinf + ninf = nan := rfl
@[simp] theorem ninf_add_pinf : ninf + pinf = nan := rfl

theorem mul_comm (x y : XR) : x * y = y * x := by
  cases x <;> cases y <;> simp [fin_mul, _root_.mul_comm]

theorem infSign_mul_fin (a b : ℝ) : infSign a * fin b = infSign (a * b) := by
  rcases lt_trichotomy a 0 with h | h | h
  · rcases lt_trichotomy b 0 with k | k | k
    · rw [infSign_neg h, infSign_pos (mul_pos_of_neg_of_neg h k), ninf_mul_fin, infSign_pos (by linarith)]
    · subst k; rw [infSign_neg h]; simp
    · rw [infSign_neg h, infSign_neg (mul_neg_of_neg_of_pos h k), ninf_mul_fin, infSign_neg (by linarith)]
  · subst h; simp
  · rw [infSign_pos h, pinf_mul_fin]
    rcases lt_trichotomy b 0 with k | k | k
    · rw [infSign_neg k, infSign_neg (mul_neg_of_pos_of_neg h k)]
    · subst k; simp
    · rw [infSign_pos k, infSign_pos (mul_pos h k)]
theorem fin_mul_infSign (a b : ℝ) : fin a * infSign b = infSign (a * b) := by
  rw [mul_comm, infSign_mul_fin, _root_.mul_comm]
theorem infSign_mul_pinf (a : ℝ) : infSign a * pinf = infSign a := by
  rcases lt_trichotomy a 0 with h | h | h
  · rw [infSign_neg h]; rfl
  · subst h; simp
  · rw [infSign_pos h]; rfl
theorem neg_infSign (a : ℝ) : -infSign a = infSign (-a) := by
  rcases lt_trichotomy a 0 with h | h | h
  · rw [infSign_neg h, infSign_pos (by linarith)]; rfl
  · subst h; simp
  · rw [infSign_pos h, infSign_neg (by linarith)]; rfl
theorem infSign_mul_ninf (a : ℝ) : infSign a * ninf = infSign (-a) := by
  rcases lt_trichotomy a 0 with h | h | h
  · rw [infSign_neg h, infSign_pos (by linarith)]; rfl
  · subst h; simp
  · rw [infSign_pos h, infSign_neg (by linarith)]; rfl
theorem pinf_mul_infSign (a : ℝ) : pinf * infSign a = infSign a := by rw [mul_comm, infSign_mul_pinf]
theorem ninf_mul_infSign (a : ℝ) : ninf * infSign a = infSign (-a) := by rw [mul_comm, infSign_mul_ninf]

theorem mul_assoc (x y z : XR) : x * y * z = x * (y * z) := by
  cases x <;> cases y <;> cases z <;>
    simp [fin_mul, infSign_mul_fin, fin_mul_infSign, infSign_mul_pinf, infSign_mul_ninf,
      pinf_mul_infSign, ninf_mul_infSign, _root_.mul_assoc, neg_mul, mul_neg]

theorem fin_one_mul (x : XR) : fin 1 * x = x := by
  cases x with
  | fin a => simp [fin_mul]
  | pinf => simp [infSign]
  | ninf => simp [infSign]
  | nan => simp

noncomputable instance : CommMonoid XR where
  mul := (· * ·)
  mul_assoc := mul_assoc
  one := 1
  one_mul := fin_one_mul
  mul_one x := by rw [mul_comm]; exact fin_one_mul x
  mul_comm := mul_comm

theorem add_comm (x y : XR) : x + y = y + x := by
  cases x <;> cases y <;> simp [fin_add, _root_.add_comm]

theorem fin_neg_one_mul (x : XR) : fin (-1) * x = -x := by
  cases x with
  | fin a => simp [fin_mul, fin_neg]
  | pinf => rw [fin_mul_pinf, infSign_neg (by norm_num)]; rfl
  | ninf => rw [fin_mul_ninf, infSign_pos (by norm_num)]; rfl
  | nan => simp
theorem neg_eq (x : XR) : -x = fin (-1) * x := (fin_neg_one_mul x).symm

/-- multiplication by a non-zero real distributes over addition even with special values -/
theorem fin_mul_add {c : ℝ} (hc : c ≠ 0) (x y : XR) : fin c * (x + y) = fin c * x + fin c * y := by
  rcases lt_or_gt_of_ne hc with h | h
  · cases x <;> cases y <;>
      simp [fin_add, fin_mul, mul_add, infSign_neg h, infSign_pos (show 0 < -c by linarith)]
  · cases x <;> cases y <;>
      simp [fin_add, fin_mul, mul_add, infSign_pos h, infSign_neg (show -c < 0 by linarith)]

theorem mul_neg' (x y : XR) : x * -y = -(x * y) := by
  rw [neg_eq, neg_eq, ← mul_assoc, mul_comm x, mul_assoc]
theorem neg_mul' (x y : XR) : -x * y = -(x * y) := by
  rw [mul_comm, mul_neg', mul_comm]

theorem fin_mul_sub {c : ℝ} (hc : c ≠ 0) (x y : XR) : fin c * (x - y) = fin c * x - fin c * y := by
  rw [sub_def, sub_def, fin_mul_add hc, mul_neg']

open Classical in
/-- reciprocal: `1/0 = +inf` -/
noncomputable def inv : XR → XR
  | fin a => if a = 0 then pinf else fin a⁻¹
  | pinf => fin 0
  | ninf => fin 0
  | nan => nan

@[simp] theorem inv_zero : inv (fin 0) = pinf := by simp [inv]
theorem inv_fin {a : ℝ} (h : a ≠ 0) : inv (fin a) = fin a⁻¹ := by simp [inv, h]
@[simp] theorem inv_pinf : inv pinf = fin 0 := rfl
@[simp] theorem inv_ninf : inv ninf = fin 0 := rfl
@[simp] theorem inv_nan : inv nan = nan := rfl

theorem div_eq (x y : XR) : x / y = x * inv y := by
  cases y with
  | fin b =>
    by_cases hb : b = 0
    · subst hb
      rw [inv_zero]
      cases x with
      | fin a => show div (fin a) (fin 0) = _; simp [div]
      | pinf => show div pinf (fin 0) = _; simp [div]
      | ninf => show div ninf (fin 0) = _; simp [div]
      | nan => simp
    · rw [inv_fin hb]
      cases x with
      | fin a => rw [fin_div hb, fin_mul, div_eq_mul_inv]
      | pinf =>
        show div pinf (fin b) = infSign b⁻¹
        rcases lt_or_gt_of_ne hb with h | h
        · simp [div, h, infSign_neg (inv_lt_zero.mpr h)]
        · simp [div, not_lt.mpr h.le, infSign_pos (inv_pos.mpr h)]
      | ninf =>
        show div ninf (fin b) = infSign (-b⁻¹)
        rcases lt_or_gt_of_ne hb with h | h
        · simp [div, h, infSign_pos (show 0 < -b⁻¹ by have := inv_lt_zero.mpr h; linarith)]
        · simp [div, not_lt.mpr h.le, infSign_neg (show -b⁻¹ < 0 by have := inv_pos.mpr h; linarith)]
      | nan => simp
  | pinf => cases x <;> (first | rfl | (rw [inv_pinf]; simp [fin_mul]; rfl))
  | ninf => cases x <;> (first | rfl | (rw [inv_ninf]; simp [fin_mul]; rfl))
  | nan => simp

/-- a positive real factor comes out of a reciprocal -/
theorem inv_fin_mul {c : ℝ} (hc : 0 < c) (x : XR) : inv (fin c * x) = fin c⁻¹ * inv x := by
  cases x with
  | fin a =>
    by_cases ha : a = 0
    · subst ha; simp [fin_mul, infSign_pos (inv_pos.mpr hc)]
    · rw [fin_mul, inv_fin ha, inv_fin (mul_ne_zero hc.ne' ha), fin_mul, mul_inv]
  | pinf => simp [infSign_pos hc, fin_mul]
  | ninf => simp [infSign_neg (show -c < 0 by linarith), fin_mul]
  | nan => simp

theorem sqrt_fin_mul {c : ℝ} (hc : 0 < c) (x : XR) :
    Scalar.sqrt (fin (c ^ 2) * x) = fin c * Scalar.sqrt x := by
  have h2 : 0 < c ^ 2 := by positivity
  show XR.sqrt _ = fin c * XR.sqrt x
  cases x with
  | fin a =>
    by_cases ha : a < 0
    · have : c ^ 2 * a < 0 := mul_neg_of_pos_of_neg h2 ha
      simp [fin_mul, XR.sqrt, ha, this]
    · have : ¬ c ^ 2 * a < 0 := not_lt.mpr (mul_nonneg h2.le (not_lt.mp ha))
      simp only [fin_mul, XR.sqrt, ha, this, if_false]
      rw [Real.sqrt_mul h2.le, Real.sqrt_sq hc.le]
  | pinf => simp [infSign_pos h2, XR.sqrt, infSign_pos hc]
  | ninf => simp [infSign_neg (show -c^2 < 0 by linarith), XR.sqrt]
  | nan => simp [XR.sqrt]

theorem isNaN_fin_mul {c : ℝ} (hc : c ≠ 0) (x : XR) :
    Scalar.isNaN (fin c * x) = Scalar.isNaN x := by
  cases x with
  | fin a => simp [fin_mul]
  | pinf => rcases lt_or_gt_of_ne hc with h | h <;> simp [infSign_pos, infSign_neg, h]
  | ninf =>
    rcases lt_or_gt_of_ne hc with h | h
    · simp [infSign_pos (show 0 < -c by linarith)]
    · simp [infSign_neg (show -c < 0 by linarith)]
  | nan => simp

theorem isZero_fin_mul {c : ℝ} (hc : c ≠ 0) (x : XR) :
    Scalar.isZero (fin c * x) = Scalar.isZero x := by
  rw [Bool.eq_iff_iff, isZero_iff, isZero_iff]
  cases x with
  | fin a => simp [fin_mul, hc]
  | pinf => rcases lt_or_gt_of_ne hc with h | h <;> simp [infSign_pos, infSign_neg, h]
  | ninf =>
    rcases lt_or_gt_of_ne hc with h | h
    · simp [infSign_pos (show 0 < -c by linarith)]
    · simp [infSign_neg (show -c < 0 by linarith)]
  | nan => simp

theorem leb_fin_mul {c : ℝ} (hc : 0 < c) (x y : XR) :
    Scalar.leb (fin c * x) (fin c * y) = Scalar.leb x y := by
  show XR.leb _ _ = XR.leb _ _
  cases x <;> cases y <;>
    simp [fin_mul, XR.leb, infSign_pos hc, infSign_neg (show -c < 0 by linarith), hc]

theorem leb_neg (x y : XR) : Scalar.leb (-x) (-y) = Scalar.leb y x := by
  show XR.leb _ _ = XR.leb _ _
  cases x <;> cases y <;> simp [fin_neg, XR.leb]
theorem isNaN_neg (x : XR) : Scalar.isNaN (-x) = Scalar.isNaN x := by cases x <;> rfl

theorem npow_zero (x : XR) : Scalar.npow x 0 = fin 1 := rfl
theorem npow_succ (x : XR) (n : Nat) : Scalar.npow x (n + 1) = Scalar.npow x n * x := rfl
theorem npow_eq_pow (x : XR) (n : Nat) : Scalar.npow x n = x ^ n := by
  induction n with
  | zero => rw [pow_zero]; rfl
  | succ n ih => rw [npow_succ, pow_succ, ih]

end XR
end CovPred
