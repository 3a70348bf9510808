import Verif.Lemmas.Ccp
import Mathlib.Analysis.Matrix.Order
import Mathlib.Analysis.Calculus.LocalExtr.Basic

/-
The convex problem of the convex-concave procedure: domain, gradient, optimality.
-/
namespace CovPred
open Matrix

variable {n k : ℕ}

theorem ccpBlock_posDef_iff (e : Vec n) (G : Matrix (Fin n) (Fin k) ℝ) : (ccpBlock e G).PosDef ↔ (ccpPrec e G).PosDef := by
  have h1 : (ccpBlock e G).PosSemidef ↔ (ccpPrec e G).PosSemidef := by
    have : Invertible (1 : Mat k) := invertibleOne
    have := Matrix.PosDef.fromBlocks₂₂ (diagonal e) G (D := (1 : Mat k)) Matrix.PosDef.one
    rw [Matrix.conjTranspose_eq_transpose_of_trivial, inv_one, Matrix.mul_one] at this
    exact this
  constructor
  · intro h
    exact (h1.mp h.posSemidef).posDef_iff_det_ne_zero.mpr
      (by rw [← ccpBlock_det]; exact (h.posSemidef.posDef_iff_det_ne_zero.mp h))
  · intro h
    exact (h1.mpr h.posSemidef).posDef_iff_det_ne_zero.mpr (by rw [ccpBlock_det]; exact h.det_pos.ne')

/-- the common factor in closed form -/
theorem ccpCommonFactor_eq {e : Vec n} {G : Matrix (Fin n) (Fin k) ℝ} (h : (ccpPrec e G).PosDef) :
    ccpCommonFactor e G = .ok ((ccpPrec e G)⁻¹ * G) := by
  have hpos := ccp_e_pos h
  unfold ccpCommonFactor
  rw [if_neg (by push Not; exact fun i => (hpos i).ne')]
  simp only [rowScale_eq]
  rw [inv?_of_ne (ccp_H_det h), ccp_H_inv h]
  simp only [bind, Except.bind, pure, Except.pure, ccp_common h]

theorem ccpGradE_eq {e : Vec n} {G : Matrix (Fin n) (Fin k) ℝ} (h : (ccpPrec e G).PosDef) (i : Fin n) :
    ccpGradE e G ((ccpPrec e G)⁻¹ * G) i = -(ccpPrec e G)⁻¹ i i := by
  have e1 : (Matrix.of fun j i => Gᵀ j i * (1 / e i) : Matrix (Fin k) (Fin n) ℝ) = Gᵀ * rec' e := by
    ext j i; rw [rec', Matrix.mul_diagonal, Matrix.of_apply]
  rw [ccpGradE, e1, ← Matrix.mul_assoc, ccp_inv_split h, Matrix.sub_apply, rec', Matrix.diagonal_apply_eq]
  ring

/-- `Σ_ij A_ij B_ij` as a trace -/
theorem sum_mul_eq_trace {m : ℕ} (A B : Matrix (Fin n) (Fin m) ℝ) : ∑ i, ∑ j, A i j * B i j = (A * Bᵀ).trace := by
  simp [Matrix.trace, Matrix.mul_apply]

/-- Gradient of `- log det (diag e - G Gᵀ)`. -/
theorem ccp_hasDerivAt {e : Vec n} {G : Matrix (Fin n) (Fin k) ℝ} (h : (ccpPrec e G).PosDef) (de : Vec n)
    (dG : Matrix (Fin n) (Fin k) ℝ) :
    HasDerivAt (fun s : ℝ => -Real.log (ccpPrec (e + s • de) (G + s • dG)).det)
      (-∑ i, (ccpPrec e G)⁻¹ i i * de i + 2 * ((ccpPrec e G)⁻¹ * G * dGᵀ).trace) 0 := by
  have hP0 : ccpPrec (e + (0 : ℝ) • de) (G + (0 : ℝ) • dG) = ccpPrec e G := by simp
  have hent : ∀ i j, HasDerivAt (fun s : ℝ => ccpPrec (e + s • de) (G + s • dG) i j)
      ((diagonal de - (dG * Gᵀ + G * dGᵀ)) i j) 0 := by
    intro i j
    have h1 : HasDerivAt (fun s : ℝ => (diagonal (e + s • de) : Mat n) i j) ((diagonal de : Mat n) i j) 0 := by
      by_cases hij : i = j
      · subst hij
        simp only [Matrix.diagonal_apply_eq, Pi.add_apply, Pi.smul_apply, smul_eq_mul]
        simpa using ((hasDerivAt_id (0 : ℝ)).mul_const (de i)).const_add (e i)
      · simp only [Matrix.diagonal_apply_ne _ hij]
        exact hasDerivAt_const _ _
    have h2 : HasDerivAt (fun s : ℝ => ((G + s • dG) * (G + s • dG)ᵀ) i j) ((dG * Gᵀ + G * dGᵀ) i j) 0 := by
      have h3 : ∀ a b, HasDerivAt (fun s : ℝ => G a b + s * dG a b) (dG a b) 0 := by
        intro a b
        simpa using ((hasDerivAt_id (0 : ℝ)).mul_const (dG a b)).const_add (G a b)
      have h4 : HasDerivAt (fun s : ℝ => ∑ l, (G i l + s * dG i l) * (G j l + s * dG j l))
          (∑ l, (dG i l * (G j l + 0 * dG j l) + (G i l + 0 * dG i l) * dG j l)) 0 := by
        apply HasDerivAt.fun_sum
        intro l _
        exact (h3 i l).mul (h3 j l)
      refine h4.congr_deriv ?_
      simp [Matrix.add_apply, Matrix.mul_apply, Finset.sum_add_distrib]
    exact h1.sub h2
  have h5 := (hasDerivAt_logdet hent (by rw [hP0]; exact h.det_pos.ne')).neg
  rw [hP0] at h5
  refine h5.congr_deriv ?_
  have hsym : ((ccpPrec e G)⁻¹)ᵀ = (ccpPrec e G)⁻¹ := by rw [Matrix.transpose_nonsing_inv, ccpPrec_symm]
  have e1 : ((ccpPrec e G)⁻¹ * diagonal de).trace = ∑ i, (ccpPrec e G)⁻¹ i i * de i := by
    simp [Matrix.trace, Matrix.mul_diagonal]
  have e2 : ((ccpPrec e G)⁻¹ * (dG * Gᵀ)).trace = ((ccpPrec e G)⁻¹ * G * dGᵀ).trace := by
    rw [← Matrix.trace_transpose, Matrix.transpose_mul, Matrix.transpose_mul, Matrix.transpose_transpose, hsym,
      Matrix.trace_mul_comm, Matrix.mul_assoc]
  rw [Matrix.mul_sub, Matrix.mul_add, Matrix.trace_sub, Matrix.trace_add, e1, e2, Matrix.mul_assoc]
  ring

/-- Gradient of the surrogate. -/
theorem ccpSurrogate_hasDerivAt (Sigma : Mat n) (Gk : Matrix (Fin n) (Fin k) ℝ) {e : Vec n} {G : Matrix (Fin n) (Fin k) ℝ}
    (h : (ccpPrec e G).PosDef) (de : Vec n) (dG : Matrix (Fin n) (Fin k) ℝ) :
    HasDerivAt (fun s : ℝ => ccpSurrogate Sigma Gk (e + s • de) (G + s • dG))
      (∑ i, (Sigma i i - (ccpPrec e G)⁻¹ i i) * de i + 2 * (((ccpPrec e G)⁻¹ * G - Sigma * Gk) * dGᵀ).trace) 0 := by
  have h1 := ccp_hasDerivAt h de dG
  have h2 : HasDerivAt (fun s : ℝ => (Sigma * diagonal (e + s • de)).trace) (∑ i, Sigma i i * de i) 0 := by
    have : (fun s : ℝ => (Sigma * diagonal (e + s • de)).trace) = fun s => ∑ i, Sigma i i * e i + s * ∑ i, Sigma i i * de i := by
      funext s
      simp only [Matrix.trace, Matrix.diag_apply, Matrix.mul_diagonal, Pi.add_apply, Pi.smul_apply, smul_eq_mul,
        Finset.mul_sum, ← Finset.sum_add_distrib]
      exact Finset.sum_congr rfl fun i _ => by ring
    rw [this]
    simpa using ((hasDerivAt_id (0 : ℝ)).mul_const (∑ i, Sigma i i * de i)).const_add (∑ i, Sigma i i * e i)
  have h3 : HasDerivAt (fun s : ℝ => 2 * (Sigma * Gk * (G + s • dG)ᵀ).trace) (2 * (Sigma * Gk * dGᵀ).trace) 0 := by
    have : (fun s : ℝ => 2 * (Sigma * Gk * (G + s • dG)ᵀ).trace) =
        fun s => 2 * (Sigma * Gk * Gᵀ).trace + s * (2 * (Sigma * Gk * dGᵀ).trace) := by
      funext s
      rw [Matrix.transpose_add, Matrix.transpose_smul, Matrix.mul_add, Matrix.trace_add, Matrix.mul_smul, Matrix.trace_smul,
        smul_eq_mul]
      ring
    rw [this]
    simpa using ((hasDerivAt_id (0 : ℝ)).mul_const (2 * (Sigma * Gk * dGᵀ).trace)).const_add (2 * (Sigma * Gk * Gᵀ).trace)
  have h4 := (h1.add h2).sub h3
  have e0 : (fun s : ℝ => ccpSurrogate Sigma Gk (e + s • de) (G + s • dG)) = fun s : ℝ =>
      -Real.log (ccpPrec (e + s • de) (G + s • dG)).det + (Sigma * diagonal (e + s • de)).trace
        - 2 * (Sigma * Gk * (G + s • dG)ᵀ).trace := by
    funext s; rw [ccpSurrogate_eq]
  rw [e0]
  refine h4.congr_deriv ?_
  rw [Matrix.sub_mul, Matrix.trace_sub]
  simp only [sub_mul, Finset.sum_sub_distrib]
  ring

/-- Strict version of `log_det_le_trace`. -/
theorem eq_one_of_log_det {X : Mat k} (h : X.PosDef) (he : X.trace ≤ Real.log X.det + k) : X = 1 := by
  have hH := h.isHermitian
  have h1 : X.det = ∏ i, hH.eigenvalues i := by
    have := hH.det_eq_prod_eigenvalues; simpa using this
  have h2 : X.trace = ∑ i, hH.eigenvalues i := by
    have := hH.trace_eq_sum_eigenvalues; simpa using this
  have hpos := fun i => h.eigenvalues_pos i
  rw [h1, h2, Real.log_prod (fun i _ => (hpos i).ne')] at he
  have hk : (k : ℝ) = ∑ _i : Fin k, (1 : ℝ) := by simp
  rw [hk, ← Finset.sum_add_distrib] at he
  have hle : ∀ i ∈ Finset.univ, Real.log (hH.eigenvalues i) + 1 ≤ hH.eigenvalues i := fun i _ => by
    have := Real.log_le_sub_one_of_pos (hpos i); linarith
  have heq := (Finset.sum_eq_sum_iff_of_le hle).mp (le_antisymm (Finset.sum_le_sum hle) he)
  have hone : ∀ i, hH.eigenvalues i = 1 := by
    intro i
    by_contra hne
    have := Real.log_lt_sub_one_of_pos (hpos i) hne
    have := heq i (Finset.mem_univ i)
    linarith
  have hs := hH.spectral_theorem
  have : (diagonal ((RCLike.ofReal : ℝ → ℝ) ∘ hH.eigenvalues) : Mat k) = 1 := by
    rw [← Matrix.diagonal_one]; congr 1; funext i; simp [hone i]
  rw [this] at hs
  simpa using hs

theorem eq_inv_of_log_det {A B : Mat k} (hA : A.PosDef) (hB : B.PosDef)
    (he : (A * B).trace ≤ Real.log A.det + Real.log B.det + k) : A * B = 1 := by
  obtain ⟨K, hK⟩ := exists_chol hA
  have hKu : IsUnit K.det := isUnit_iff_ne_zero.mpr hK.det_pos.ne'
  have hX : (Kᵀ * B * K).PosDef := by
    have := hB.conjTranspose_mul_mul_same (B := K) (by
      rw [Matrix.mulVec_injective_iff_isUnit, Matrix.isUnit_iff_isUnit_det]
      exact hKu)
    rwa [Matrix.conjTranspose_eq_transpose_of_trivial] at this
  have h2 : (Kᵀ * B * K).trace = (A * B).trace := by
    rw [← hK.eq, Matrix.trace_mul_comm, ← Matrix.mul_assoc]
  have h3 : (Kᵀ * B * K).det = A.det * B.det := by
    rw [← hK.eq, Matrix.det_mul, Matrix.det_mul, Matrix.det_mul]; ring
  have h1 := eq_one_of_log_det hX (by rw [h2, h3, Real.log_mul hA.det_pos.ne' hB.det_pos.ne']; exact he)
  have h4 : K * (Kᵀ * B) = 1 := mul_eq_one_comm.mp h1
  rw [← hK.eq, Matrix.mul_assoc]
  exact h4

/-- The linear lower bound of `tr(A G' G'ᵀ)`, with equality only for `G' = G`. -/
theorem trace_quad_eq {A : Mat n} (hA : A.PosDef) {H : Matrix (Fin n) (Fin k) ℝ} (h : (A * (H * Hᵀ)).trace ≤ 0) : H = 0 := by
  obtain ⟨K, hK⟩ := exists_chol hA
  have h1 : (A * (H * Hᵀ)).trace = ((Kᵀ * H)ᵀ * (Kᵀ * H)).trace := by
    rw [Matrix.transpose_mul, Matrix.transpose_transpose, Matrix.mul_assoc, ← Matrix.mul_assoc K, hK.eq,
      ← Matrix.mul_assoc A, Matrix.trace_mul_comm]
  have h2 : ((Kᵀ * H)ᵀ * (Kᵀ * H)).trace = ∑ j, ∑ i, (Kᵀ * H) i j ^ 2 := by
    simp only [Matrix.trace, Matrix.diag_apply, Matrix.mul_apply (M := (Kᵀ * H)ᵀ), Matrix.transpose_apply]
    exact Finset.sum_congr rfl fun _ _ => Finset.sum_congr rfl fun _ _ => by ring
  have h3 : ∑ j, ∑ i, (Kᵀ * H) i j ^ 2 = 0 :=
    le_antisymm (by rw [← h2, ← h1]; exact h) (Finset.sum_nonneg fun _ _ => Finset.sum_nonneg fun _ _ => sq_nonneg _)
  have h4 : Kᵀ * H = 0 := by
    ext i j
    have := (Finset.sum_eq_zero_iff_of_nonneg (fun _ _ => Finset.sum_nonneg fun _ _ => sq_nonneg _)).mp h3 j (Finset.mem_univ j)
    have := (Finset.sum_eq_zero_iff_of_nonneg (fun _ _ => sq_nonneg _)).mp this i (Finset.mem_univ i)
    simpa using this
  have hu : IsUnit Kᵀ.det := by rw [Matrix.det_transpose]; exact isUnit_iff_ne_zero.mpr hK.det_pos.ne'
  calc H = Kᵀ⁻¹ * (Kᵀ * H) := by rw [← Matrix.mul_assoc, Matrix.nonsing_inv_mul _ hu, Matrix.one_mul]
    _ = 0 := by rw [h4, Matrix.mul_zero]

/-- The stationarity equations of the surrogate. -/
def CcpStationary (Sigma : Mat n) (Gk : Matrix (Fin n) (Fin k) ℝ) (e : Vec n) (G : Matrix (Fin n) (Fin k) ℝ) : Prop :=
  (∀ i, (ccpPrec e G)⁻¹ i i = Sigma i i) ∧ (ccpPrec e G)⁻¹ * G = Sigma * Gk

/-- At a stationary point: the surrogate exceeds its value there by two non-negative amounts. -/
theorem ccpSurrogate_diff {Sigma : Mat n} {Gk : Matrix (Fin n) (Fin k) ℝ} {e : Vec n} {G : Matrix (Fin n) (Fin k) ℝ}
    (hst : CcpStationary Sigma Gk e G) (h : (ccpPrec e G).PosDef) (e' : Vec n) (G' : Matrix (Fin n) (Fin k) ℝ) :
    ccpSurrogate Sigma Gk e' G' - ccpSurrogate Sigma Gk e G =
      (((ccpPrec e G)⁻¹ * ccpPrec e' G').trace - n - (Real.log (ccpPrec e' G').det - Real.log (ccpPrec e G).det))
        + ((ccpPrec e G)⁻¹ * ((G' - G) * (G' - G)ᵀ)).trace := by
  have hu := isUnit_det_of_posDef h
  set Q := (ccpPrec e G)⁻¹ with hQ
  have hQs : Qᵀ = Q := by rw [hQ, Matrix.transpose_nonsing_inv, ccpPrec_symm]
  have hd : ∀ x : Vec n, (Sigma * diagonal x).trace = (Q * diagonal x).trace := by
    intro x
    simp only [Matrix.trace, Matrix.diag_apply, Matrix.mul_diagonal]
    exact Finset.sum_congr rfl fun i _ => by
      have := hst.1 i
      rw [← hQ] at this
      rw [this]
  have hn : (Q * diagonal e).trace - (Q * (G * Gᵀ)).trace = n := by
    rw [← Matrix.trace_sub, ← Matrix.mul_sub, show diagonal e - G * Gᵀ = ccpPrec e G from rfl, hQ,
      Matrix.nonsing_inv_mul _ hu, Matrix.trace_one, Fintype.card_fin]
  have hc : (Q * (G' * Gᵀ)).trace = (Q * (G * G'ᵀ)).trace := by
    rw [← Matrix.trace_transpose, Matrix.transpose_mul, Matrix.transpose_mul, Matrix.transpose_transpose, hQs,
      Matrix.trace_mul_comm]
  have hp : (Q * ccpPrec e' G').trace = (Q * diagonal e').trace - (Q * (G' * G'ᵀ)).trace := by
    rw [ccpPrec, Matrix.mul_sub, Matrix.trace_sub]
  rw [ccpSurrogate_eq, ccpSurrogate_eq, hd, hd, ← hst.2, hp, Matrix.transpose_sub, Matrix.sub_mul, Matrix.mul_sub,
    Matrix.mul_sub, Matrix.mul_sub, Matrix.mul_sub, Matrix.mul_sub, Matrix.trace_sub, Matrix.trace_sub, Matrix.trace_sub,
    hc, Matrix.mul_assoc Q G, Matrix.mul_assoc Q G]
  linarith

theorem logdet_gap {P P' : Mat n} (h : P.PosDef) (h' : P'.PosDef) :
    0 ≤ (P⁻¹ * P').trace - n - (Real.log P'.det - Real.log P.det) := by
  have := log_det_mul_le_trace h.inv h'
  rw [Matrix.det_nonsing_inv, Ring.inverse_eq_inv', Real.log_inv] at this
  linarith

/-- Stationary points minimise the surrogate. -/
theorem ccp_minimal {Sigma : Mat n} {Gk : Matrix (Fin n) (Fin k) ℝ} {e : Vec n} {G : Matrix (Fin n) (Fin k) ℝ}
    (hst : CcpStationary Sigma Gk e G) (h : (ccpPrec e G).PosDef) {e' : Vec n} {G' : Matrix (Fin n) (Fin k) ℝ}
    (h' : (ccpPrec e' G').PosDef) : ccpSurrogate Sigma Gk e G ≤ ccpSurrogate Sigma Gk e' G' := by
  have h1 := ccpSurrogate_diff hst h e' G'
  have h2 := logdet_gap h h'
  have h3 : 0 ≤ ((ccpPrec e G)⁻¹ * ((G' - G) * (G' - G)ᵀ)).trace := trace_mul_nonneg h.inv (by
    have := Matrix.posSemidef_self_mul_conjTranspose (G' - G)
    rwa [Matrix.conjTranspose_eq_transpose_of_trivial] at this)
  linarith

/-- ... and there is only one minimiser. -/
theorem ccp_minimal_unique {Sigma : Mat n} {Gk : Matrix (Fin n) (Fin k) ℝ} {e : Vec n} {G : Matrix (Fin n) (Fin k) ℝ}
    (hst : CcpStationary Sigma Gk e G) (h : (ccpPrec e G).PosDef) {e' : Vec n} {G' : Matrix (Fin n) (Fin k) ℝ}
    (h' : (ccpPrec e' G').PosDef) (hle : ccpSurrogate Sigma Gk e' G' ≤ ccpSurrogate Sigma Gk e G) : e' = e ∧ G' = G := by
  have h1 := ccpSurrogate_diff hst h e' G'
  have h2 := logdet_gap h h'
  have h3 : 0 ≤ ((ccpPrec e G)⁻¹ * ((G' - G) * (G' - G)ᵀ)).trace := trace_mul_nonneg h.inv (by
    have := Matrix.posSemidef_self_mul_conjTranspose (G' - G)
    rwa [Matrix.conjTranspose_eq_transpose_of_trivial] at this)
  have hG : G' - G = 0 := trace_quad_eq h.inv (by linarith)
  have hG : G' = G := sub_eq_zero.mp hG
  have hP : (ccpPrec e G)⁻¹ * ccpPrec e' G' = 1 := eq_inv_of_log_det h.inv h' (by
    rw [Matrix.det_nonsing_inv, Ring.inverse_eq_inv', Real.log_inv]
    linarith)
  have hP2 : ccpPrec e' G' = ccpPrec e G := by
    have hu := isUnit_det_of_posDef h
    calc ccpPrec e' G' = ccpPrec e G * ((ccpPrec e G)⁻¹ * ccpPrec e' G') := by
          rw [← Matrix.mul_assoc, Matrix.mul_nonsing_inv _ hu, Matrix.one_mul]
      _ = _ := by rw [hP, Matrix.mul_one]
  refine ⟨?_, hG⟩
  rw [hG, ccpPrec, ccpPrec, sub_left_inj] at hP2
  exact Matrix.diagonal_injective hP2

/-- Positive definiteness is preserved by small changes along a line. -/
theorem ccpPrec_open {e : Vec n} {G : Matrix (Fin n) (Fin k) ℝ} (h : (ccpPrec e G).PosDef) (de : Vec n)
    (dG : Matrix (Fin n) (Fin k) ℝ) : ∀ᶠ s : ℝ in nhds 0, (ccpPrec (e + s • de) (G + s • dG)).PosDef := by
  obtain ⟨K, hK⟩ := exists_chol h
  have hKu : IsUnit K.det := isUnit_iff_ne_zero.mpr hK.det_pos.ne'
  -- a lower bound `δ |x|²` of the quadratic form
  have hlow : ∃ δ : ℝ, 0 < δ ∧ ∀ x : Vec n, δ * (x ⬝ᵥ x) ≤ x ⬝ᵥ (ccpPrec e G *ᵥ x) := by
    have hH := h.isHermitian
    rcases Nat.eq_zero_or_pos n with hn | hn
    · subst hn
      exact ⟨1, one_pos, fun x => by simp [dotProduct]⟩
    · have : Nonempty (Fin n) := ⟨⟨0, hn⟩⟩
      obtain ⟨i0, hi0⟩ := Finite.exists_min hH.eigenvalues
      refine ⟨hH.eigenvalues i0, h.eigenvalues_pos i0, fun x => ?_⟩
      obtain ⟨U, mu, hU, hM, hmu⟩ : ∃ (U : Mat n) (mu : Vec n), Uᵀ * U = 1 ∧ ccpPrec e G = U * diagonal mu * Uᵀ ∧
          ∀ i, hH.eigenvalues i0 ≤ mu i := by
        refine ⟨(hH.eigenvectorUnitary : Mat n), hH.eigenvalues, ?_, ?_, hi0⟩
        · have := Unitary.coe_star_mul_self hH.eigenvectorUnitary
          rwa [Matrix.star_eq_conjTranspose, Matrix.conjTranspose_eq_transpose_of_trivial] at this
        · have := hH.spectral_theorem
          rw [Unitary.conjStarAlgAut_apply] at this
          rw [Matrix.star_eq_conjTranspose, Matrix.conjTranspose_eq_transpose_of_trivial] at this
          exact this
      have hU' : U * Uᵀ = 1 := mul_eq_one_comm.mp hU
      have e1 : x ⬝ᵥ x = (Uᵀ *ᵥ x) ⬝ᵥ (Uᵀ *ᵥ x) := by
        rw [dotProduct_mulVec (Uᵀ *ᵥ x), vecMul_transpose, mulVec_mulVec, hU', one_mulVec]
      have e2 : x ⬝ᵥ (ccpPrec e G *ᵥ x) = (Uᵀ *ᵥ x) ⬝ᵥ (diagonal mu *ᵥ (Uᵀ *ᵥ x)) := by
        rw [hM, ← mulVec_mulVec, ← mulVec_mulVec, dotProduct_mulVec x U, ← mulVec_transpose]
      rw [e1, e2]
      simp only [dotProduct, Matrix.mulVec_diagonal, Finset.mul_sum]
      refine Finset.sum_le_sum fun i _ => ?_
      nlinarith [hmu i, mul_self_nonneg ((Uᵀ *ᵥ x) i)]
  obtain ⟨δ, hδ, hx⟩ := hlow
  -- the entries of the difference are small
  have hcont : ∀ i j, Filter.Tendsto (fun s : ℝ => (ccpPrec (e + s • de) (G + s • dG) - ccpPrec e G) i j) (nhds 0) (nhds 0) := by
    intro i j
    have hc : Continuous fun s : ℝ => (ccpPrec (e + s • de) (G + s • dG) - ccpPrec e G) i j := by
      simp only [ccpPrec, Matrix.sub_apply, Matrix.mul_apply, Matrix.transpose_apply, Matrix.add_apply, Matrix.smul_apply,
        smul_eq_mul, Matrix.diagonal_apply, Pi.add_apply, Pi.smul_apply]
      split <;> fun_prop
    have := hc.tendsto 0
    simpa using this
  have hsmall : ∀ᶠ s : ℝ in nhds 0, ∀ i j,
      |(ccpPrec (e + s • de) (G + s • dG) - ccpPrec e G) i j| < δ / (n + 1) := by
    rw [Filter.eventually_all]
    intro i
    rw [Filter.eventually_all]
    intro j
    have := (hcont i j).abs
    rw [abs_zero] at this
    exact this.eventually (gt_mem_nhds (by positivity))
  filter_upwards [hsmall] with s hs
  refine Matrix.PosDef.of_dotProduct_mulVec_pos ?_ ?_
  · rw [Matrix.IsHermitian, Matrix.conjTranspose_eq_transpose_of_trivial, ccpPrec_symm]
  · intro x hx0
    have hxx : 0 < x ⬝ᵥ x := by
      have : x ⬝ᵥ x = ∑ i, x i ^ 2 := Finset.sum_congr rfl fun i _ => by ring
      rw [this]
      obtain ⟨i, hi⟩ := Function.ne_iff.mp hx0
      exact Finset.sum_pos' (fun _ _ => sq_nonneg _) ⟨i, Finset.mem_univ i, by simpa using sq_pos_of_ne_zero hi⟩
    set Δ := ccpPrec (e + s • de) (G + s • dG) - ccpPrec e G with hΔ
    have e1 : ccpPrec (e + s • de) (G + s • dG) = ccpPrec e G + Δ := by rw [hΔ]; abel
    have hb : |x ⬝ᵥ (Δ *ᵥ x)| ≤ δ / (n + 1) * (n * (x ⬝ᵥ x)) := by
      have e2 : x ⬝ᵥ (Δ *ᵥ x) = ∑ i, ∑ j, Δ i j * (x i * x j) := by
        simp only [dotProduct, Matrix.mulVec, Finset.mul_sum]
        exact Finset.sum_congr rfl fun i _ => Finset.sum_congr rfl fun j _ => by ring
      rw [e2]
      calc |∑ i, ∑ j, Δ i j * (x i * x j)| ≤ ∑ i, ∑ j, δ / (n + 1) * ((x i ^ 2 + x j ^ 2) / 2) := by
            refine (Finset.abs_sum_le_sum_abs _ _).trans (Finset.sum_le_sum fun i _ =>
              (Finset.abs_sum_le_sum_abs _ _).trans (Finset.sum_le_sum fun j _ => ?_))
            rw [abs_mul]
            refine mul_le_mul (hs i j).le ?_ (abs_nonneg _) (by positivity)
            rw [abs_le]
            constructor <;> nlinarith [sq_nonneg (x i + x j), sq_nonneg (x i - x j)]
        _ = _ := by
            have hq : x ⬝ᵥ x = ∑ i, x i ^ 2 := Finset.sum_congr rfl fun i _ => by ring
            simp only [← Finset.mul_sum, add_div, Finset.sum_add_distrib, Finset.sum_const, Finset.card_univ,
              Fintype.card_fin, nsmul_eq_mul, ← Finset.sum_div]
            rw [hq]; ring
    have hlt : δ / (n + 1) * (n * (x ⬝ᵥ x)) < δ * (x ⬝ᵥ x) := by
      have : δ / (n + 1) * n < δ := by
        rw [div_mul_eq_mul_div, div_lt_iff₀ (by positivity)]; nlinarith
      nlinarith
    have h3 := hx x
    have h4 := neg_abs_le (x ⬝ᵥ (Δ *ᵥ x))
    rw [e1, Matrix.add_mulVec, dotProduct_add]
    simp only [star_trivial]
    linarith

/-- Minimisers of the surrogate are stationary. -/
theorem ccp_stationary {Sigma : Mat n} {Gk : Matrix (Fin n) (Fin k) ℝ} {e : Vec n} {G : Matrix (Fin n) (Fin k) ℝ}
    (h : (ccpPrec e G).PosDef)
    (hmin : ∀ e' G', (ccpPrec e' G').PosDef → ccpSurrogate Sigma Gk e G ≤ ccpSurrogate Sigma Gk e' G') :
    CcpStationary Sigma Gk e G := by
  have h0 : ∀ (de : Vec n) (dG : Matrix (Fin n) (Fin k) ℝ), ∑ i, (Sigma i i - (ccpPrec e G)⁻¹ i i) * de i
      + 2 * (((ccpPrec e G)⁻¹ * G - Sigma * Gk) * dGᵀ).trace = 0 := by
    intro de dG
    have hd := ccpSurrogate_hasDerivAt Sigma Gk h de dG
    refine IsLocalMin.hasDerivAt_eq_zero ?_ hd
    filter_upwards [ccpPrec_open h de dG] with s hs
    simpa using hmin _ _ hs
  constructor
  · intro i
    have := h0 (Pi.single i 1) 0
    simp [Pi.single_apply] at this
    linarith
  · have := h0 0 ((ccpPrec e G)⁻¹ * G - Sigma * Gk)
    simp only [Pi.zero_apply, mul_zero, Finset.sum_const_zero, zero_add] at this
    have h2 : (((ccpPrec e G)⁻¹ * G - Sigma * Gk) * ((ccpPrec e G)⁻¹ * G - Sigma * Gk)ᵀ).trace = 0 := by linarith
    have h3 := trace_quad_eq (A := (1 : Mat n)) Matrix.PosDef.one (H := (ccpPrec e G)⁻¹ * G - Sigma * Gk)
      (by rw [Matrix.one_mul, h2])
    exact sub_eq_zero.mp h3

end CovPred
