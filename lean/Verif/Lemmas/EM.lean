import Verif.Lemmas.Regularize
import Mathlib.LinearAlgebra.Matrix.SchurComplement

/-
The EM iteration of `regularization.py`: closed form, positivity, monotone likelihood, fixed points.
-/
namespace CovPred
open Matrix

variable {n k : ℕ}

/-- `diag(d)⁻¹` -/
noncomputable def rec' (d : Vec n) : Mat n := diagonal fun i => 1 / d i
/-- `Fᵀ diag(d)⁻¹ F + I` -/
noncomputable def emA (F : Matrix (Fin n) (Fin k) ℝ) (d : Vec n) : Mat k := Fᵀ * rec' d * F + 1
/-- the posterior covariance of the factors -/
noncomputable def emG (F : Matrix (Fin n) (Fin k) ℝ) (d : Vec n) : Mat k := (emA F d)⁻¹
/-- the regression of the factors on the returns -/
noncomputable def emL (F : Matrix (Fin n) (Fin k) ℝ) (d : Vec n) : Matrix (Fin k) (Fin n) ℝ := emG F d * Fᵀ * rec' d
/-- the second moment of the factors -/
noncomputable def emCss (S : Mat n) (F : Matrix (Fin n) (Fin k) ℝ) (d : Vec n) : Mat k :=
  emL F d * (S * (emL F d)ᵀ) + emG F d
/-- the cross moment -/
noncomputable def emCxs (S : Mat n) (F : Matrix (Fin n) (Fin k) ℝ) (d : Vec n) : Matrix (Fin n) (Fin k) ℝ := S * (emL F d)ᵀ
/-- the new loadings -/
noncomputable def emF (S : Mat n) (F : Matrix (Fin n) (Fin k) ℝ) (d : Vec n) : Matrix (Fin n) (Fin k) ℝ :=
  emCxs S F d * (emCss S F d)⁻¹
/-- the expected squared residual of asset `i` with loadings `f` -/
noncomputable def emPhi (S : Mat n) (F : Matrix (Fin n) (Fin k) ℝ) (d : Vec n) (i : Fin n) (f : Vec k) : ℝ :=
  S i i - 2 * (emCxs S F d i ⬝ᵥ f) + f ⬝ᵥ (emCss S F d *ᵥ f)

theorem rec'_symm (d : Vec n) : (rec' d)ᵀ = rec' d := Matrix.diagonal_transpose _

theorem symm_of_posSemidef {M : Mat n} (h : M.PosSemidef) : Mᵀ = M := by
  rw [← Matrix.conjTranspose_eq_transpose_of_trivial]; exact h.isHermitian

theorem conj_posSemidef {m : ℕ} {S : Mat n} (h : S.PosSemidef) (B : Matrix (Fin m) (Fin n) ℝ) : (B * S * Bᵀ).PosSemidef := by
  have := h.mul_mul_conjTranspose_same B
  rwa [Matrix.conjTranspose_eq_transpose_of_trivial] at this

theorem rec'_posDef {d : Vec n} (hd : ∀ i, 0 < d i) : (rec' d).PosDef := by
  rw [rec', Matrix.posDef_diagonal_iff]
  exact fun i => one_div_pos.mpr (hd i)

theorem emA_posDef (F : Matrix (Fin n) (Fin k) ℝ) {d : Vec n} (hd : ∀ i, 0 < d i) : (emA F d).PosDef := by
  have := conj_posSemidef (rec'_posDef hd).posSemidef Fᵀ
  rw [Matrix.transpose_transpose] at this
  exact Matrix.PosDef.posSemidef_add this Matrix.PosDef.one

theorem emG_posDef (F : Matrix (Fin n) (Fin k) ℝ) {d : Vec n} (hd : ∀ i, 0 < d i) : (emG F d).PosDef := (emA_posDef F hd).inv

theorem emCss_posDef {S : Mat n} (hS : S.PosSemidef) (F : Matrix (Fin n) (Fin k) ℝ) {d : Vec n} (hd : ∀ i, 0 < d i) :
    (emCss S F d).PosDef := by
  rw [emCss, ← Matrix.mul_assoc]
  exact Matrix.PosDef.posSemidef_add (conj_posSemidef hS _) (emG_posDef F hd)

theorem isUnit_det_of_posDef {M : Mat n} (h : M.PosDef) : IsUnit M.det := isUnit_iff_ne_zero.mpr h.det_pos.ne'

/-- closed form of one pass -/
theorem emStep_eq {S : Mat n} (hS : S.PosSemidef) (x : LowRankDiag n k) (hd : ∀ i, 0 < x.d i) :
    emStep S x = .ok { F := emF S x.F x.d, d := fun i => emPhi S x.F x.d i (emF S x.F x.d i) } := by
  have hno : ¬ ∃ i, x.d i = 0 := by
    rintro ⟨i, hi⟩
    exact absurd hi (hd i).ne'
  have e1 : (Matrix.of fun j i => x.Fᵀ j i * (1 / x.d i) : Matrix (Fin k) (Fin n) ℝ) = x.Fᵀ * rec' x.d := by
    ext j i; rw [rec', Matrix.mul_diagonal, Matrix.of_apply]
  have e2 : inv? (x.Fᵀ * rec' x.d * x.F + 1) = .ok (emG x.F x.d) := inv?_of_ne (emA_posDef x.F hd).det_pos.ne'
  have e3 : (Matrix.of fun j i => (emG x.F x.d * x.Fᵀ) j i * (1 / x.d i) : Matrix (Fin k) (Fin n) ℝ) = emL x.F x.d := by
    ext j i; rw [emL, rec', Matrix.mul_diagonal, Matrix.of_apply]
  have e4 : eStep S x = .ok { Cxx := S, Cxs := emCxs S x.F x.d, Css := emCss S x.F x.d } := by
    unfold eStep
    rw [if_neg hno]
    simp only [e1, e2, bind, Except.bind, e3, pure, Except.pure]
    rfl
  have e5 : inv? (emCss S x.F x.d) = .ok (emCss S x.F x.d)⁻¹ := inv?_of_ne (emCss_posDef hS x.F hd).det_pos.ne'
  unfold emStep
  rw [e4]
  simp only [mStep, e5, bind, Except.bind, pure, Except.pure]
  congr 2
  funext i
  rw [emPhi]
  congr 1
  simp only [dotProduct]
  refine Finset.sum_congr rfl fun j _ => ?_
  congr 1
  rw [← emF, Matrix.mul_apply]
  have hs := congrFun (congrFun (symm_of_posSemidef (emCss_posDef hS x.F hd).posSemidef) j)
  simp only [Matrix.mulVec, dotProduct]
  refine Finset.sum_congr rfl fun l _ => ?_
  rw [← hs l, Matrix.transpose_apply, mul_comm]

/-- the expected squared residual as a sum of squares -/
theorem emPhi_eq {S : Mat n} (hS : S.PosSemidef) (F : Matrix (Fin n) (Fin k) ℝ) (d : Vec n) (i : Fin n) (f : Vec k) :
    emPhi S F d i f = (Pi.single i 1 - (emL F d)ᵀ *ᵥ f) ⬝ᵥ (S *ᵥ (Pi.single i 1 - (emL F d)ᵀ *ᵥ f)) +
      f ⬝ᵥ (emG F d *ᵥ f) := by
  set L := emL F d
  set v := Lᵀ *ᵥ f with hv
  have hs := symm_of_posSemidef hS
  have e1 : emCxs S F d i ⬝ᵥ f = (S *ᵥ v) i := by
    rw [hv, Matrix.mulVec_mulVec]; rfl
  have e2 : f ⬝ᵥ (emCss S F d *ᵥ f) = v ⬝ᵥ (S *ᵥ v) + f ⬝ᵥ (emG F d *ᵥ f) := by
    rw [emCss, Matrix.add_mulVec, dotProduct_add]
    congr 1
    rw [← Matrix.mulVec_mulVec, ← Matrix.mulVec_mulVec, Matrix.dotProduct_mulVec, ← Matrix.mulVec_transpose]
  have e3 : v ⬝ᵥ (S *ᵥ Pi.single i 1) = (S *ᵥ v) i := by
    rw [Matrix.dotProduct_mulVec, ← Matrix.mulVec_transpose, hs, dotProduct_single, mul_one]
  have e4 : (Pi.single i 1 : Vec n) ⬝ᵥ (S *ᵥ v) = (S *ᵥ v) i := by rw [single_dotProduct, one_mul]
  have e5 : (Pi.single i 1 : Vec n) ⬝ᵥ (S *ᵥ Pi.single i 1) = S i i := by
    rw [single_dotProduct, one_mul]; simp
  rw [emPhi, e1, e2, Matrix.mulVec_sub, sub_dotProduct, dotProduct_sub, dotProduct_sub, e3, e4, e5]
  ring

/-- the expected squared residual is positive whatever the loadings -/
theorem emPhi_pos {S : Mat n} (hS : S.PosDef) (F : Matrix (Fin n) (Fin k) ℝ) {d : Vec n} (hd : ∀ i, 0 < d i) (i : Fin n)
    (f : Vec k) : 0 < emPhi S F d i f := by
  rw [emPhi_eq hS.posSemidef]
  by_cases hf : f = 0
  · subst hf
    rw [Matrix.mulVec_zero, sub_zero, zero_dotProduct, add_zero]
    have hne : (Pi.single i 1 : Vec n) ≠ 0 := by
      intro h0; have := congrFun h0 i; simp at this
    have := hS.dotProduct_mulVec_pos hne
    rwa [star_trivial] at this
  · have h1 := hS.posSemidef.dotProduct_mulVec_nonneg (Pi.single i 1 - (emL F d)ᵀ *ᵥ f)
    have h2 := (emG_posDef F hd).dotProduct_mulVec_pos hf
    rw [star_trivial] at h1 h2
    linarith

/-- completing the square -/
theorem emPhi_min {S : Mat n} (hS : S.PosSemidef) (F : Matrix (Fin n) (Fin k) ℝ) {d : Vec n} (hd : ∀ i, 0 < d i) (i : Fin n)
    (f : Vec k) : emPhi S F d i f = emPhi S F d i (emF S F d i) +
      (f - emF S F d i) ⬝ᵥ (emCss S F d *ᵥ (f - emF S F d i)) := by
  have hC := emCss_posDef hS F hd
  have hs := symm_of_posSemidef hC.posSemidef
  set C := emCss S F d with hCdef
  set g := emF S F d i with hg
  have hCg : C *ᵥ g = emCxs S F d i := by
    have : emF S F d * C = emCxs S F d := by
      rw [emF, ← hCdef, Matrix.mul_assoc, Matrix.nonsing_inv_mul _ (isUnit_det_of_posDef hC), Matrix.mul_one]
    have h2 := congrFun this i
    rw [← h2, ← hs, Matrix.mulVec_transpose, hs]
    rfl
  have e1 : f ⬝ᵥ (C *ᵥ g) = g ⬝ᵥ (C *ᵥ f) := by
    rw [Matrix.dotProduct_mulVec, ← Matrix.mulVec_transpose, hs, dotProduct_comm]
  rw [emPhi, emPhi, ← hCg, ← hCdef, Matrix.mulVec_sub, sub_dotProduct, dotProduct_sub, dotProduct_sub,
    dotProduct_comm (C *ᵥ g) f, dotProduct_comm (C *ᵥ g) g, e1]
  ring

/-! ### Likelihood -/

/-- For positive definite `X`: `log det X + k <= trace X`. -/
theorem log_det_le_trace {X : Mat k} (h : X.PosDef) : Real.log X.det + k ≤ X.trace := by
  have hH := h.isHermitian
  have h1 : X.det = ∏ i, hH.eigenvalues i := by
    have := hH.det_eq_prod_eigenvalues; simpa using this
  have h2 : X.trace = ∑ i, hH.eigenvalues i := by
    have := hH.trace_eq_sum_eigenvalues; simpa using this
  have hp : ∀ i, 0 < hH.eigenvalues i := h.eigenvalues_pos
  rw [h1, h2, Real.log_prod fun i _ => (hp i).ne']
  have : ∑ i, Real.log (hH.eigenvalues i) + (k : ℝ) = ∑ i, (Real.log (hH.eigenvalues i) + 1) := by
    rw [Finset.sum_add_distrib]; simp
  rw [this]
  refine Finset.sum_le_sum fun i _ => ?_
  have := Real.log_le_sub_one_of_pos (hp i)
  linarith

/-- The same for a product of positive definite matrices. -/
theorem log_det_mul_le_trace {A B : Mat k} (hA : A.PosDef) (hB : B.PosDef) :
    Real.log A.det + Real.log B.det + k ≤ (A * B).trace := by
  obtain ⟨K, hK⟩ := exists_chol hA
  have hKdet := hK.det_pos
  have hX : (Kᵀ * B * K).PosDef := by
    have := hB.conjTranspose_mul_mul_same (B := K) (by
      rw [Matrix.mulVec_injective_iff_isUnit, Matrix.isUnit_iff_isUnit_det]
      exact isUnit_iff_ne_zero.mpr hKdet.ne')
    rwa [Matrix.conjTranspose_eq_transpose_of_trivial] at this
  have h1 := log_det_le_trace hX
  have h2 : (Kᵀ * B * K).trace = (A * B).trace := by
    rw [← hK.eq, Matrix.trace_mul_comm, ← Matrix.mul_assoc]
  have h3 : (Kᵀ * B * K).det = A.det * B.det := by
    rw [← hK.eq, Matrix.det_mul, Matrix.det_mul, Matrix.det_mul]; ring
  rw [h2, h3, Real.log_mul hA.det_pos.ne' hB.det_pos.ne'] at h1
  exact h1

/-- the trace of a product of positive semidefinite matrices -/
theorem trace_mul_nonneg {A B : Mat k} (hA : A.PosDef) (hB : B.PosSemidef) : 0 ≤ (A * B).trace := by
  obtain ⟨K, hK⟩ := exists_chol hA
  have h2 : (Kᵀ * B * K).trace = (A * B).trace := by
    rw [← hK.eq, Matrix.trace_mul_comm, ← Matrix.mul_assoc]
  rw [← h2]
  have := conj_posSemidef hB Kᵀ
  rw [Matrix.transpose_transpose] at this
  exact this.trace_nonneg

theorem rec'_mul {d : Vec n} (hd : ∀ i, 0 < d i) : rec' d * diagonal d = 1 := by
  rw [rec', Matrix.diagonal_mul_diagonal]
  have : (fun i => 1 / d i * d i) = fun _ => (1 : ℝ) := by
    funext i; rw [one_div, inv_mul_cancel₀ (hd i).ne']
  rw [this, Matrix.diagonal_one]

theorem emA_mul_emL (F : Matrix (Fin n) (Fin k) ℝ) {d : Vec n} (hd : ∀ i, 0 < d i) : emA F d * emL F d = Fᵀ * rec' d := by
  rw [emL, emG, ← Matrix.mul_assoc, ← Matrix.mul_assoc, Matrix.mul_nonsing_inv _ (isUnit_det_of_posDef (emA_posDef F hd)),
    Matrix.one_mul]

/-- The Woodbury identity. -/
theorem factorCov_inv (F : Matrix (Fin n) (Fin k) ℝ) {d : Vec n} (hd : ∀ i, 0 < d i) :
    (factorCov F d)⁻¹ = rec' d - rec' d * F * emL F d := by
  apply Matrix.inv_eq_left_inv
  have h1 := rec'_mul hd
  have hA : Fᵀ * rec' d * F = emA F d - 1 := by rw [emA, add_sub_cancel_right]
  -- `emL * M = Fᵀ`
  have hLM : emL F d * factorCov F d = Fᵀ := by
    have hu := isUnit_det_of_posDef (emA_posDef F hd)
    rw [factorCov, Matrix.mul_add, ← Matrix.mul_assoc]
    have e1 : emL F d * F = 1 - emG F d := by
      rw [emL, Matrix.mul_assoc, Matrix.mul_assoc, ← Matrix.mul_assoc Fᵀ, hA, Matrix.mul_sub, emG,
        Matrix.nonsing_inv_mul _ hu, Matrix.mul_one]
    have e2 : emL F d * diagonal d = emG F d * Fᵀ := by
      rw [emL, Matrix.mul_assoc, h1, Matrix.mul_one]
    rw [e1, e2, Matrix.sub_mul, Matrix.one_mul]; abel
  rw [Matrix.sub_mul, Matrix.mul_assoc _ (emL F d), hLM, factorCov, Matrix.mul_add, h1, Matrix.mul_assoc]
  abel

theorem emL_mul (F : Matrix (Fin n) (Fin k) ℝ) {d : Vec n} (hd : ∀ i, 0 < d i) : emL F d * F = 1 - emG F d := by
  have hA : Fᵀ * rec' d * F = emA F d - 1 := by rw [emA, add_sub_cancel_right]
  rw [emL, Matrix.mul_assoc, Matrix.mul_assoc, ← Matrix.mul_assoc Fᵀ, hA, Matrix.mul_sub, emG,
        Matrix.nonsing_inv_mul _ (isUnit_det_of_posDef (emA_posDef F hd)), Matrix.mul_one]

theorem emL_mul_factorCov (F : Matrix (Fin n) (Fin k) ℝ) {d : Vec n} (hd : ∀ i, 0 < d i) : emL F d * factorCov F d = Fᵀ := by
  have e2 : emL F d * diagonal d = emG F d * Fᵀ := by
    rw [emL, Matrix.mul_assoc, rec'_mul hd, Matrix.mul_one]
  rw [factorCov, Matrix.mul_add, ← Matrix.mul_assoc, emL_mul F hd, e2, Matrix.sub_mul, Matrix.one_mul]; abel

/-- The matrix determinant lemma. -/
theorem factorCov_det (F : Matrix (Fin n) (Fin k) ℝ) {d : Vec n} (hd : ∀ i, 0 < d i) :
    (factorCov F d).det = (∏ i, d i) * (emA F d).det := by
  have h : factorCov F d = diagonal d * (1 + rec' d * F * Fᵀ) := by
    have : diagonal d * rec' d = 1 := mul_eq_one_comm.mp (rec'_mul hd)
    rw [Matrix.mul_add, Matrix.mul_one, ← Matrix.mul_assoc, ← Matrix.mul_assoc, this, Matrix.one_mul, factorCov, add_comm]
  rw [h, Matrix.det_mul, Matrix.det_diagonal, Matrix.det_one_add_mul_comm, emA, add_comm, Matrix.mul_assoc]

theorem factorCov_posDef (F : Matrix (Fin n) (Fin k) ℝ) {d : Vec n} (hd : ∀ i, 0 < d i) : (factorCov F d).PosDef := by
  have h1 : (F * Fᵀ).PosSemidef := by
    have := Matrix.posSemidef_self_mul_conjTranspose F
    rwa [Matrix.conjTranspose_eq_transpose_of_trivial] at this
  exact Matrix.PosDef.posSemidef_add h1 (by rw [Matrix.posDef_diagonal_iff]; exact hd)

/-- Minus the expected complete-data log-likelihood (up to a constant), with the posterior of `(F0, d0)`. -/
noncomputable def emQ (S : Mat n) (F0 : Matrix (Fin n) (Fin k) ℝ) (d0 : Vec n) (F : Matrix (Fin n) (Fin k) ℝ) (d : Vec n) : ℝ :=
  ∑ i, (Real.log (d i) + emPhi S F0 d0 i (F i) / d i) + (emCss S F0 d0).trace

/-- the expected squared residuals, weighted, as a trace -/
theorem sum_emPhi (S : Mat n) (F0 : Matrix (Fin n) (Fin k) ℝ) (d0 : Vec n) (F : Matrix (Fin n) (Fin k) ℝ) (d : Vec n) :
    ∑ i, emPhi S F0 d0 i (F i) / d i =
      (rec' d * S).trace - 2 * (rec' d * (emCxs S F0 d0 * Fᵀ)).trace + (rec' d * (F * emCss S F0 d0 * Fᵀ)).trace := by
  have ht : ∀ X : Mat n, (rec' d * X).trace = ∑ i, 1 / d i * X i i := by
    intro X
    simp only [Matrix.trace, Matrix.diag_apply, rec', Matrix.diagonal_mul]
  rw [ht, ht, ht, Finset.mul_sum, ← Finset.sum_sub_distrib, ← Finset.sum_add_distrib]
  refine Finset.sum_congr rfl fun i _ => ?_
  have e1 : (emCxs S F0 d0 * Fᵀ) i i = emCxs S F0 d0 i ⬝ᵥ F i := rfl
  have e2 : (F * emCss S F0 d0 * Fᵀ) i i = F i ⬝ᵥ (emCss S F0 d0 *ᵥ F i) := by
    rw [Matrix.mul_assoc, Matrix.mul_apply]
    simp only [dotProduct]
    refine Finset.sum_congr rfl fun j _ => ?_
    congr 1
  rw [e1, e2, emPhi]
  ring

/-- The decomposition of the complete-data likelihood into the marginal likelihood and a conditional term. -/
theorem emQ_eq {S : Mat n} (hS : S.PosSemidef) (F0 : Matrix (Fin n) (Fin k) ℝ) (d0 : Vec n)
    (F : Matrix (Fin n) (Fin k) ℝ) {d : Vec n} (hd : ∀ i, 0 < d i) :
    emQ S F0 d0 F d = -factorLogLik S F d - Real.log (emA F d).det + (emA F d * emG F0 d0).trace +
      (emA F d * ((emL F0 d0 - emL F d) * S * (emL F0 d0 - emL F d)ᵀ)).trace := by
  set L0 := emL F0 d0 with hL0
  set L := emL F d with hL
  set A := emA F d with hA
  set E := rec' d with hE
  have hs := symm_of_posSemidef hS
  have hAL : A * L = Fᵀ * E := emA_mul_emL F hd
  have hEs : Eᵀ = E := rec'_symm d
  -- log-determinants
  have hdet : ∑ i, Real.log (d i) = Real.log (factorCov F d).det - Real.log A.det := by
    rw [factorCov_det F hd, Real.log_mul (Finset.prod_pos fun i _ => hd i).ne' (emA_posDef F hd).det_pos.ne',
      Real.log_prod fun i _ => (hd i).ne']
    ring
  -- traces
  have t1 : (S * (factorCov F d)⁻¹).trace = (E * S).trace - (E * F * L * S).trace := by
    rw [factorCov_inv F hd, Matrix.mul_sub, Matrix.trace_sub, Matrix.trace_mul_comm, Matrix.trace_mul_comm S]
  have t2 : (A * (L0 * (S * L0ᵀ))).trace + (A * emG F0 d0).trace =
      (emCss S F0 d0).trace + (E * (F * emCss S F0 d0 * Fᵀ)).trace := by
    have : A * emCss S F0 d0 = Fᵀ * E * F * emCss S F0 d0 + emCss S F0 d0 := by
      rw [hA, emA, Matrix.add_mul, Matrix.one_mul]
    have h2 : (Fᵀ * E * F * emCss S F0 d0).trace = (E * (F * emCss S F0 d0 * Fᵀ)).trace := by
      rw [Matrix.mul_assoc, Matrix.mul_assoc, Matrix.trace_mul_comm, Matrix.mul_assoc, Matrix.mul_assoc]
    have h3 := congrArg Matrix.trace this
    rw [Matrix.trace_add] at h3
    have h4 : A * emCss S F0 d0 = A * (L0 * (S * L0ᵀ)) + A * emG F0 d0 := by rw [← Matrix.mul_add]; rfl
    rw [h4, Matrix.trace_add] at h3
    linarith
  have t3 : (A * (L * S * L0ᵀ)).trace = (E * (emCxs S F0 d0 * Fᵀ)).trace := by
    rw [emCxs, ← hL0, ← Matrix.mul_assoc, ← Matrix.mul_assoc, hAL, Matrix.mul_assoc, Matrix.mul_assoc,
      Matrix.trace_mul_comm]
    simp only [Matrix.mul_assoc]
  have t4 : (A * (L0 * S * Lᵀ)).trace = (A * (L * S * L0ᵀ)).trace := by
    have hAs : Aᵀ = A := symm_of_posSemidef (emA_posDef F hd).posSemidef
    rw [← Matrix.trace_transpose (A * (L0 * S * Lᵀ)), Matrix.transpose_mul, Matrix.transpose_mul, Matrix.transpose_mul,
      Matrix.transpose_transpose, hs, hAs, Matrix.trace_mul_comm, Matrix.mul_assoc L]
  have t5 : (A * (L * S * Lᵀ)).trace = (E * F * L * S).trace := by
    rw [← Matrix.mul_assoc, ← Matrix.mul_assoc, hAL, ← Matrix.trace_transpose, Matrix.transpose_mul,
      Matrix.transpose_mul, Matrix.transpose_mul, Matrix.transpose_transpose, Matrix.transpose_transpose, hs, hEs,
      Matrix.trace_mul_comm, Matrix.mul_assoc, Matrix.mul_assoc, Matrix.trace_mul_comm]
  have t6 : (A * ((L0 - L) * S * (L0 - L)ᵀ)).trace =
      (A * (L0 * (S * L0ᵀ))).trace - 2 * (E * (emCxs S F0 d0 * Fᵀ)).trace + (E * F * L * S).trace := by
    rw [← t3, ← t5]
    have : A * ((L0 - L) * S * (L0 - L)ᵀ) =
        A * (L0 * (S * L0ᵀ)) - A * (L0 * S * Lᵀ) - A * (L * S * L0ᵀ) + A * (L * S * Lᵀ) := by
      simp only [Matrix.transpose_sub, Matrix.sub_mul, Matrix.mul_sub, Matrix.mul_assoc]
      abel
    rw [this, Matrix.trace_add, Matrix.trace_sub, Matrix.trace_sub, t4]
    ring
  rw [emQ, Finset.sum_add_distrib, sum_emPhi, hdet, factorLogLik, t1, t6]
  linarith

/-- **The EM inequality.** -/
theorem em_monotone {S : Mat n} (hS : S.PosDef) (F : Matrix (Fin n) (Fin k) ℝ) {d : Vec n} (hd : ∀ i, 0 < d i) :
    factorLogLik S F d ≤ factorLogLik S (emF S F d) fun i => emPhi S F d i (emF S F d i) := by
  set F' := emF S F d
  set d' : Vec n := fun i => emPhi S F d i (F' i) with hd'
  have hd'pos : ∀ i, 0 < d' i := fun i => emPhi_pos hS F hd i _
  have h1 := emQ_eq hS.posSemidef F d F' hd'pos
  have h2 := emQ_eq hS.posSemidef F d F hd
  -- the M-step
  have h3 : emQ S F d F' d' ≤ emQ S F d F d := by
    unfold emQ
    refine add_le_add_left (Finset.sum_le_sum fun i _ => ?_) _
    have hp := hd'pos i
    have hq := hd i
    have hge : d' i ≤ emPhi S F d i (F i) := by
      rw [emPhi_min hS.posSemidef F hd i (F i)]
      have := (emCss_posDef hS.posSemidef F hd).posSemidef.dotProduct_mulVec_nonneg (F i - F' i)
      rw [star_trivial] at this
      show emPhi S F d i (F' i) ≤ _
      linarith
    have e1 : emPhi S F d i (F' i) / d' i = 1 := div_self hp.ne'
    rw [e1]
    have hl := Real.log_le_sub_one_of_pos (div_pos hp hq)
    rw [Real.log_div hp.ne' hq.ne'] at hl
    have : d' i / d i ≤ emPhi S F d i (F i) / d i := by gcongr
    linarith
  -- the conditional term
  have h4 := log_det_mul_le_trace (emA_posDef F' hd'pos) (emG_posDef F hd)
  have h5 := trace_mul_nonneg (emA_posDef F' hd'pos) (conj_posSemidef hS.posSemidef (emL F d - emL F' d'))
  have h6 : (emA F d * emG F d).trace = k := by
    rw [emG, Matrix.mul_nonsing_inv _ (isUnit_det_of_posDef (emA_posDef F hd)), Matrix.trace_one, Fintype.card_fin]
  have h7 : Real.log (emG F d).det = -Real.log (emA F d).det := by
    rw [emG, Matrix.det_nonsing_inv, Ring.inverse_eq_inv, Real.log_inv]
  rw [h6, sub_self, Matrix.zero_mul, Matrix.zero_mul, Matrix.mul_zero, Matrix.trace_zero] at h2
  linarith

/-- Exact factor models are fixed points. -/
theorem em_fixed (F : Matrix (Fin n) (Fin k) ℝ) {d : Vec n} (hd : ∀ i, 0 < d i) :
    emF (factorCov F d) F d = F ∧ ∀ i, emPhi (factorCov F d) F d i (emF (factorCov F d) F d i) = d i := by
  have hs := symm_of_posSemidef (factorCov_posDef F hd).posSemidef
  have hx : emCxs (factorCov F d) F d = F := by
    have := congrArg Matrix.transpose (emL_mul_factorCov F hd)
    rw [Matrix.transpose_mul, Matrix.transpose_transpose, hs] at this
    exact this
  have hc : emCss (factorCov F d) F d = 1 := by
    have : emCss (factorCov F d) F d = emL F d * emCxs (factorCov F d) F d + emG F d := rfl
    rw [this, hx, emL_mul F hd]; abel
  have hF : emF (factorCov F d) F d = F := by rw [emF, hc, hx, inv_one, Matrix.mul_one]
  refine ⟨hF, fun i => ?_⟩
  rw [hF, emPhi, hc, hx, Matrix.one_mulVec, factorCov, Matrix.add_apply, Matrix.diagonal_apply_eq]
  have : (F * Fᵀ) i i = F i ⬝ᵥ F i := rfl
  rw [this]; ring

end CovPred
