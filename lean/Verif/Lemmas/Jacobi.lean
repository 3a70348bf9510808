import Verif.Spec.LinAlg
import Mathlib.Analysis.Calculus.Deriv.Mul
import Mathlib.Analysis.Calculus.Deriv.Add
import Mathlib.Analysis.SpecialFunctions.Log.Deriv
import Mathlib.LinearAlgebra.Matrix.Trace
import Mathlib.LinearAlgebra.Matrix.NonsingularInverse

/-
Jacobi's formula: the derivative of the determinant and of its logarithm.
-/
namespace CovPred
open Matrix

theorem hasDerivAt_det {n : ℕ} {P : ℝ → Mat n} {P' : Mat n} {s : ℝ} (h : ∀ i j, HasDerivAt (fun x => P x i j) (P' i j) s) :
    HasDerivAt (fun x => (P x).det) (((P s).adjugate * P').trace) s := by
  have h1 : HasDerivAt (fun x => ∑ σ : Equiv.Perm (Fin n), (Equiv.Perm.sign σ : ℝ) * ∏ i, P x (σ i) i)
      (∑ σ : Equiv.Perm (Fin n), (Equiv.Perm.sign σ : ℝ) *
        ∑ i, (∏ j ∈ Finset.univ.erase i, P s (σ j) j) • P' (σ i) i) s := by
    apply HasDerivAt.fun_sum
    intro σ _
    apply HasDerivAt.const_mul
    exact HasDerivAt.fun_finsetProd fun i _ => h (σ i) i
  have h2 : (fun x => (P x).det) = fun x => ∑ σ : Equiv.Perm (Fin n), (Equiv.Perm.sign σ : ℝ) * ∏ i, P x (σ i) i := by
    funext x
    rw [Matrix.det_apply']
  rw [h2]
  convert h1 using 1
  have h3 : ∀ i, ((P s).adjugate * P') i i = ((P s).updateCol i fun j => P' j i).det := by
    intro i
    rw [← Matrix.cramer_apply, Matrix.cramer_eq_adjugate_mulVec]
    rfl
  simp only [Matrix.trace, Matrix.diag_apply, h3, Matrix.det_apply', Finset.mul_sum]
  rw [Finset.sum_comm]
  refine Finset.sum_congr rfl fun σ _ => Finset.sum_congr rfl fun i _ => ?_
  congr 1
  rw [← Finset.mul_prod_erase _ _ (Finset.mem_univ i), Matrix.updateCol_self, smul_eq_mul, mul_comm]
  congr 1
  refine Finset.prod_congr rfl fun j hj => ?_
  rw [Matrix.updateCol_ne (Finset.ne_of_mem_erase hj)]

theorem hasDerivAt_logdet {n : ℕ} {P : ℝ → Mat n} {P' : Mat n} {s : ℝ}
    (h : ∀ i j, HasDerivAt (fun x => P x i j) (P' i j) s) (hd : (P s).det ≠ 0) :
    HasDerivAt (fun x => Real.log (P x).det) (((P s)⁻¹ * P').trace) s := by
  have := (hasDerivAt_det h).log hd
  convert this using 1
  rw [Matrix.inv_def, Matrix.smul_mul, Matrix.trace_smul, Ring.inverse_eq_inv', smul_eq_mul, div_eq_inv_mul]

end CovPred
