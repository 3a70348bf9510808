import Verif.Model.Ccp
import Verif.Lemmas.EM
import Verif.Lemmas.Jacobi

/-
Algebra of the convex-concave procedure: the precision `diag(e) - G Gᵀ`.
-/
namespace CovPred
open Matrix

variable {n k : ℕ}

/-- the precision matrix described by `e` and `G` -/
def ccpPrec (e : Vec n) (G : Matrix (Fin n) (Fin k) ℝ) : Mat n := diagonal e - G * Gᵀ

theorem rowScale_eq {m : ℕ} (d : Vec n) (A : Matrix (Fin n) (Fin m) ℝ) : rowScale (fun i => 1 / d i) A = rec' d * A := by
  ext i j; simp [rowScale, rec', Matrix.diagonal_mul]

theorem ccpPrec_symm (e : Vec n) (G : Matrix (Fin n) (Fin k) ℝ) : (ccpPrec e G)ᵀ = ccpPrec e G := by
  simp [ccpPrec, Matrix.transpose_sub, Matrix.transpose_mul]

theorem ccp_e_pos {e : Vec n} {G : Matrix (Fin n) (Fin k) ℝ} (h : (ccpPrec e G).PosDef) (i : Fin n) : 0 < e i := by
  have h1 := h.diag_pos (i := i)
  have h2 : (G * Gᵀ) i i = ∑ j, G i j ^ 2 := by
    rw [Matrix.mul_apply]; refine Finset.sum_congr rfl fun j _ => ?_; rw [Matrix.transpose_apply]; ring
  have h3 : 0 ≤ ∑ j, G i j ^ 2 := Finset.sum_nonneg fun j _ => sq_nonneg _
  rw [ccpPrec, Matrix.sub_apply, Matrix.diagonal_apply_eq, h2] at h1
  linarith

/-- `I + Gᵀ P⁻¹ G` -/
noncomputable def ccpK (e : Vec n) (G : Matrix (Fin n) (Fin k) ℝ) : Mat k := Gᵀ * (ccpPrec e G)⁻¹ * G + 1

theorem ccpK_posDef {e : Vec n} {G : Matrix (Fin n) (Fin k) ℝ} (h : (ccpPrec e G).PosDef) : (ccpK e G).PosDef := by
  have := conj_posSemidef h.inv.posSemidef Gᵀ
  rw [Matrix.transpose_transpose] at this
  exact Matrix.PosDef.posSemidef_add this Matrix.PosDef.one

theorem ccp_GGT (e : Vec n) (G : Matrix (Fin n) (Fin k) ℝ) : G * Gᵀ = diagonal e - ccpPrec e G := by
  rw [ccpPrec]; abel

theorem ccp_H_mul_K {e : Vec n} {G : Matrix (Fin n) (Fin k) ℝ} (h : (ccpPrec e G).PosDef) :
    (1 - Gᵀ * (rec' e * G)) * ccpK e G = 1 := by
  have hu := isUnit_det_of_posDef h
  have hr := rec'_mul (ccp_e_pos h)
  have e1 : Gᵀ * (rec' e * G) * (Gᵀ * (ccpPrec e G)⁻¹ * G) = Gᵀ * (ccpPrec e G)⁻¹ * G - Gᵀ * (rec' e * G) := by
    calc Gᵀ * (rec' e * G) * (Gᵀ * (ccpPrec e G)⁻¹ * G)
        = Gᵀ * (rec' e * (G * Gᵀ) * (ccpPrec e G)⁻¹ * G) := by simp only [Matrix.mul_assoc]
      _ = Gᵀ * ((1 * (ccpPrec e G)⁻¹ - rec' e * (ccpPrec e G * (ccpPrec e G)⁻¹)) * G) := by
          rw [ccp_GGT e G, Matrix.mul_sub, hr, Matrix.sub_mul, Matrix.mul_assoc (rec' e)]
      _ = _ := by
          rw [Matrix.mul_nonsing_inv _ hu, Matrix.one_mul, Matrix.mul_one, Matrix.sub_mul, Matrix.mul_sub, Matrix.mul_assoc]
  rw [ccpK, Matrix.mul_add, Matrix.mul_one, Matrix.sub_mul, Matrix.one_mul, e1]
  abel

theorem ccp_H_inv {e : Vec n} {G : Matrix (Fin n) (Fin k) ℝ} (h : (ccpPrec e G).PosDef) :
    (1 - Gᵀ * (rec' e * G))⁻¹ = ccpK e G := Matrix.inv_eq_right_inv (ccp_H_mul_K h)

theorem ccp_H_det {e : Vec n} {G : Matrix (Fin n) (Fin k) ℝ} (h : (ccpPrec e G).PosDef) :
    (1 - Gᵀ * (rec' e * G)).det ≠ 0 := by
  intro h0
  have := congrArg Matrix.det (ccp_H_mul_K h)
  rw [Matrix.det_mul, h0, zero_mul, Matrix.det_one] at this
  exact zero_ne_one this

/-- the common factor of the gradients is `P⁻¹ G` -/
theorem ccp_common {e : Vec n} {G : Matrix (Fin n) (Fin k) ℝ} (h : (ccpPrec e G).PosDef) :
    rec' e * (G * ccpK e G) = (ccpPrec e G)⁻¹ * G := by
  have hu := isUnit_det_of_posDef h
  have hr := rec'_mul (ccp_e_pos h)
  have : G * ccpK e G = diagonal e * (ccpPrec e G)⁻¹ * G := by
    rw [ccpK, Matrix.mul_add, Matrix.mul_one, ← Matrix.mul_assoc, ← Matrix.mul_assoc, ccp_GGT e G, Matrix.sub_mul,
      Matrix.mul_nonsing_inv _ hu, Matrix.sub_mul, Matrix.one_mul]
    abel
  rw [this, ← Matrix.mul_assoc, ← Matrix.mul_assoc, hr, Matrix.one_mul]

theorem ccp_inv_split {e : Vec n} {G : Matrix (Fin n) (Fin k) ℝ} (h : (ccpPrec e G).PosDef) :
    (ccpPrec e G)⁻¹ * G * Gᵀ * rec' e = (ccpPrec e G)⁻¹ - rec' e := by
  have hu := isUnit_det_of_posDef h
  have hr : diagonal e * rec' e = 1 := mul_eq_one_comm.mp (rec'_mul (ccp_e_pos h))
  rw [Matrix.mul_assoc _ G, ccp_GGT e G, Matrix.mul_sub, Matrix.nonsing_inv_mul _ hu, Matrix.sub_mul, Matrix.one_mul,
    Matrix.mul_assoc, hr, Matrix.mul_one]

/-- What `build` returns: the factors of the inverse of the precision. -/
theorem ccp_build {s : CcpState n k} (h : (ccpPrec s.ek s.Gk).PosDef) :
    ∃ x, s.build = .ok x ∧ (∀ i, 0 < x.d i) ∧ factorCov x.F x.d = (ccpPrec s.ek s.Gk)⁻¹ ∧
      ∃ L, IsChol L (ccpK s.ek s.Gk) ∧ x.F = rec' s.ek * (s.Gk * L) ∧ x.d = fun i => 1 / s.ek i := by
  have hpos := ccp_e_pos h
  have hK := ccpK_posDef h
  obtain ⟨L, hL⟩ := exists_chol hK
  have hc : chol? (ccpK s.ek s.Gk) = .ok L :=
    chol?_ok_iff.mpr (by rwa [symLower_of_symm (symm_of_posSemidef hK.posSemidef)])
  refine ⟨⟨rec' s.ek * (s.Gk * L), fun i => 1 / s.ek i⟩, ?_, fun i => one_div_pos.mpr (hpos i), ?_, L, hL, rfl, rfl⟩
  · unfold CcpState.build
    rw [if_neg (by push Not; exact fun i => (hpos i).ne')]
    simp only [rowScale_eq]
    rw [inv?_of_ne (ccp_H_det h), ccp_H_inv h]
    simp only [bind, Except.bind, hc, pure, Except.pure]
  · rw [factorCov]
    have e1 : rec' s.ek * (s.Gk * L) * (rec' s.ek * (s.Gk * L))ᵀ = (ccpPrec s.ek s.Gk)⁻¹ - rec' s.ek := by
      calc rec' s.ek * (s.Gk * L) * (rec' s.ek * (s.Gk * L))ᵀ
          = rec' s.ek * (s.Gk * (L * Lᵀ)) * s.Gkᵀ * rec' s.ek := by
            rw [Matrix.transpose_mul, Matrix.transpose_mul, rec'_symm]; simp only [Matrix.mul_assoc]
        _ = _ := by rw [hL.eq, ccp_common h, ccp_inv_split h]
    rw [e1, show (diagonal fun i => 1 / s.ek i) = rec' s.ek from rfl]
    abel

/-- What the constructor makes of `(F, d)`. -/
theorem ccp_init (Sigma : Mat n) (F : Matrix (Fin n) (Fin k) ℝ) {d : Vec n} (hd : ∀ i, 0 < d i) :
    ∃ s L, ccpInit Sigma F d = .ok s ∧ s.Sigma = Sigma ∧ IsChol L (emG F d) ∧ s.ek = (fun i => 1 / d i) ∧
      s.Gk = rec' d * (F * L) ∧ ccpPrec s.ek s.Gk = (factorCov F d)⁻¹ := by
  have hG := emG_posDef F hd
  obtain ⟨L, hL⟩ := exists_chol hG
  have hc : chol? (emG F d) = .ok L :=
    chol?_ok_iff.mpr (by rwa [symLower_of_symm (symm_of_posSemidef hG.posSemidef)])
  have hA : 1 + Fᵀ * (rec' d * F) = emA F d := by rw [emA, Matrix.mul_assoc, add_comm]
  refine ⟨⟨rec' d * (F * L), fun i => 1 / d i, Sigma⟩, L, ?_, rfl, hL, rfl, rfl, ?_⟩
  · unfold ccpInit
    rw [if_neg (by push Not; exact fun i => (hd i).ne')]
    simp only [rowScale_eq]
    rw [hA, inv?_of_ne (emA_posDef F hd).det_pos.ne', show (emA F d)⁻¹ = emG F d from rfl]
    simp only [bind, Except.bind, hc, pure, Except.pure]
  · rw [factorCov_inv F hd, ccpPrec, show (diagonal fun i => 1 / d i) = rec' d from rfl]
    congr 1
    rw [Matrix.transpose_mul, Matrix.transpose_mul, rec'_symm, emL, ← hL.eq]
    simp only [Matrix.mul_assoc]

theorem ccpBlock_det (e : Vec n) (G : Matrix (Fin n) (Fin k) ℝ) : (ccpBlock e G).det = (ccpPrec e G).det := by
  rw [ccpBlock, Matrix.det_fromBlocks_one₂₂, ccpPrec]

/-- `tr(Aᵀ A)` is the squared norm -/
theorem frobNorm_sq {m : ℕ} (A : Matrix (Fin n) (Fin m) ℝ) : frobNorm A ^ 2 = (Aᵀ * A).trace := by
  have h : 0 ≤ ∑ i, ∑ j, A i j ^ 2 := Finset.sum_nonneg fun _ _ => Finset.sum_nonneg fun _ _ => sq_nonneg _
  rw [frobNorm, Real.sq_sqrt h]
  simp only [Matrix.trace, Matrix.diag_apply, Matrix.mul_apply, Matrix.transpose_apply]
  rw [Finset.sum_comm]
  refine Finset.sum_congr rfl fun i _ => Finset.sum_congr rfl fun j _ => by ring

/-- The objective at a state with a positive definite covariance matrix. -/
theorem ccp_objective {s : CcpState n k} (hS : s.Sigma.PosDef) :
    s.objective = .ok (-Real.log (ccpPrec s.ek s.Gk).det + (s.Sigma * ccpPrec s.ek s.Gk).trace) := by
  obtain ⟨C, hC⟩ := exists_chol hS
  have hc : chol? s.Sigma = .ok C :=
    chol?_ok_iff.mpr (by rwa [symLower_of_symm (symm_of_posSemidef hS.posSemidef)])
  unfold CcpState.objective
  simp only [hc, bind, Except.bind, pure, Except.pure]
  rw [ccpBlock_det, frobNorm_sq]
  have : ((Cᵀ * s.Gk)ᵀ * (Cᵀ * s.Gk)).trace = (s.Sigma * (s.Gk * s.Gkᵀ)).trace := by
    rw [Matrix.transpose_mul, Matrix.transpose_transpose, Matrix.mul_assoc, ← Matrix.mul_assoc C, hC.eq,
      Matrix.trace_mul_comm, Matrix.mul_assoc]
  rw [this, ccpPrec, Matrix.mul_sub, Matrix.trace_sub]
  congr 1; ring

theorem ccpSurrogate_eq (Sigma : Mat n) (Gk : Matrix (Fin n) (Fin k) ℝ) (e : Vec n) (G : Matrix (Fin n) (Fin k) ℝ) :
    ccpSurrogate Sigma Gk e G =
      -Real.log (ccpPrec e G).det + (Sigma * diagonal e).trace - 2 * (Sigma * Gk * Gᵀ).trace := by
  rw [ccpSurrogate, ccpBlock_det]
  congr 2
  simp [Matrix.trace, Matrix.mul_diagonal]

/-- The surrogate majorises the objective: `- tr(Σ G Gᵀ) <= - 2 tr(Σ Gk Gᵀ) + tr(Σ Gk Gkᵀ)`. -/
theorem ccp_majorise {Sigma : Mat n} (hS : Sigma.PosSemidef) (Gk G : Matrix (Fin n) (Fin k) ℝ) :
    2 * (Sigma * Gk * Gᵀ).trace ≤ (Sigma * (G * Gᵀ)).trace + (Sigma * (Gk * Gkᵀ)).trace := by
  have h := conj_posSemidef hS (G - Gk)ᵀ
  rw [Matrix.transpose_transpose] at h
  have h0 := h.trace_nonneg
  have hsym := symm_of_posSemidef hS
  have e0 : ((G - Gk)ᵀ * Sigma * (G - Gk)).trace = (Sigma * ((G - Gk) * (G - Gk)ᵀ)).trace := by
    rw [Matrix.mul_assoc, Matrix.trace_mul_comm, Matrix.mul_assoc]
  rw [e0, Matrix.transpose_sub, Matrix.sub_mul, Matrix.mul_sub, Matrix.mul_sub, Matrix.mul_sub, Matrix.mul_sub,
    Matrix.mul_sub, Matrix.trace_sub, Matrix.trace_sub, Matrix.trace_sub] at h0
  have e1 : (Sigma * (G * Gkᵀ)).trace = (Sigma * (Gk * Gᵀ)).trace := by
    rw [← Matrix.trace_transpose, Matrix.transpose_mul, Matrix.transpose_mul, Matrix.transpose_transpose, hsym,
      Matrix.trace_mul_comm]
  rw [e1] at h0
  rw [Matrix.mul_assoc]
  linarith

end CovPred
