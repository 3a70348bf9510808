import Verif.Props.EM
import Verif.Lemmas.Jacobi
import Verif.Lemmas.Ccp2

/-
Fixed points of the EM iteration (regularization.py) and the maximum-likelihood equations: property C92.
-/
set_option linter.unusedSectionVars false

namespace CovPred
open Matrix

variable {n k : ℕ}

private theorem emLT (F : Matrix (Fin n) (Fin k) ℝ) {d : Vec n} (hd : ∀ i, 0 < d i) :
    (emL F d)ᵀ = (factorCov F d)⁻¹ * F := by
  have hp := factorCov_posDef F hd
  have h := congrArg Matrix.transpose (emL_mul_factorCov F hd)
  rw [Matrix.transpose_mul, Matrix.transpose_transpose, symm_of_posSemidef hp.posSemidef] at h
  have h' := congrArg (fun X : Matrix (Fin n) (Fin k) ℝ => (factorCov F d)⁻¹ * X) h
  simp only [← Matrix.mul_assoc, Matrix.nonsing_inv_mul _ (isUnit_det_of_posDef hp), Matrix.one_mul] at h'
  exact h'

/-- The new loadings are the old ones exactly if `S Σ̂⁻¹ F = F`. -/
private theorem emF_fixed_iff {S : Mat n} (hS : S.PosSemidef) (F : Matrix (Fin n) (Fin k) ℝ) {d : Vec n}
    (hd : ∀ i, 0 < d i) : emF S F d = F ↔ emCxs S F d = F := by
  have hC := isUnit_det_of_posDef (emCss_posDef hS F hd)
  have hcs : emCss S F d = emL F d * emCxs S F d + emG F d := rfl
  have hG : emG F d = 1 - emL F d * F := by rw [emL_mul F hd]; abel
  constructor
  · intro h
    have h1 : emCxs S F d = F * emCss S F d := by
      have h' := congrArg (fun X : Matrix (Fin n) (Fin k) ℝ => X * emCss S F d) h
      simp only [emF, Matrix.mul_assoc, Matrix.nonsing_inv_mul _ hC, Matrix.mul_one] at h'
      exact h'
    have h2 : (1 - F * emL F d) * (emCxs S F d - F) = 0 := by
      rw [Matrix.sub_mul, Matrix.one_mul, sub_eq_zero]
      conv_lhs => rw [h1]
      rw [hcs, hG, Matrix.mul_add, Matrix.mul_sub, Matrix.mul_sub, Matrix.mul_one, Matrix.mul_assoc, Matrix.mul_assoc]
      abel
    have h3 : (1 - F * emL F d) * factorCov F d = diagonal d := by
      rw [Matrix.sub_mul, Matrix.one_mul, Matrix.mul_assoc, emL_mul_factorCov F hd, factorCov]; abel
    have h4 : IsUnit (1 - F * emL F d).det := by
      have := congrArg Matrix.det h3
      rw [Matrix.det_mul, Matrix.det_diagonal] at this
      refine isUnit_iff_ne_zero.mpr fun h0 => ?_
      rw [h0, zero_mul] at this
      exact (Finset.prod_pos fun i _ => hd i).ne this
    have h5 := congrArg (fun X => (1 - F * emL F d)⁻¹ * X) h2
    simp only [← Matrix.mul_assoc, Matrix.nonsing_inv_mul _ h4, Matrix.one_mul, Matrix.mul_zero] at h5
    exact sub_eq_zero.mp h5
  · intro h
    have : emCss S F d = 1 := by rw [hcs, h, hG]; abel
    rw [emF, this, h, inv_one, Matrix.mul_one]

private theorem em_fixed_iff {S : Mat n} (hS : S.PosSemidef) (F : Matrix (Fin n) (Fin k) ℝ) {d : Vec n}
    (hd : ∀ i, 0 < d i) :
    (emF S F d = F ∧ ∀ i, emPhi S F d i (emF S F d i) = d i) ↔ LikelihoodEquations S F d := by
  have hx : emCxs S F d = S * (factorCov F d)⁻¹ * F := by rw [emCxs, emLT F hd, Matrix.mul_assoc]
  unfold LikelihoodEquations
  rw [emF_fixed_iff hS F hd, ← hx, and_comm]
  refine and_congr_left fun h => ?_
  have hF := (emF_fixed_iff hS F hd).mpr h
  have hc : emCss S F d = 1 := by
    have : emCss S F d = emL F d * emCxs S F d + emG F d := rfl
    rw [this, h, emL_mul F hd]; abel
  refine forall_congr' fun i => ?_
  rw [hF, emPhi, hc, h, Matrix.one_mulVec, factorCov, Matrix.add_apply, Matrix.diagonal_apply_eq]
  have : (F * Fᵀ) i i = F i ⬝ᵥ F i := rfl
  rw [this]
  constructor <;> intro h <;> linarith

/-- **C92** A pass of the EM loop returns the factor model it started from exactly if this solves the maximum-likelihood
equations. -/
theorem C92_fixed_iff {S : Mat n} (hS : S.PosSemidef) (x : LowRankDiag n k) (hd : ∀ i, 0 < x.d i) :
    emStep S x = .ok x ↔ LikelihoodEquations S x.F x.d := by
  rw [emStep_eq hS x hd, ← em_fixed_iff hS x.F hd, Except.ok.injEq]
  cases x with
  | mk F d =>
    simp only [LowRankDiag.mk.injEq]
    exact and_congr Iff.rfl ⟨fun h i => congrFun h i, fun h => funext h⟩

/-- **C92** Otherwise the pass makes the likelihood strictly larger. -/
theorem C92_strict {S : Mat n} (hS : S.PosDef) (x : LowRankDiag n k) (hd : ∀ i, 0 < x.d i)
    (hne : ¬ LikelihoodEquations S x.F x.d) :
    ∃ y, emStep S x = .ok y ∧ (∀ i, 0 < y.d i) ∧ factorLogLik S x.F x.d < factorLogLik S y.F y.d := by
  refine ⟨_, emStep_eq hS.posSemidef x hd, fun i => emPhi_pos hS x.F hd i _, ?_⟩
  obtain ⟨F, d⟩ := x
  simp only at hd hne ⊢
  rw [← em_fixed_iff hS.posSemidef F hd] at hne
  set F' := emF S F d with hF'
  set d' : Vec n := fun i => emPhi S F d i (F' i) with hd'
  have hd'pos : ∀ i, 0 < d' i := fun i => emPhi_pos hS F hd i _
  have h1 := emQ_eq hS.posSemidef F d F' hd'pos
  have h2 := emQ_eq hS.posSemidef F d F hd
  have hge : ∀ i, d' i ≤ emPhi S F d i (F i) ∧ (F' i ≠ F i → d' i < emPhi S F d i (F i)) := by
    intro i
    rw [emPhi_min hS.posSemidef F hd i (F i)]
    have h0 := (emCss_posDef hS.posSemidef F hd).posSemidef.dotProduct_mulVec_nonneg (F i - F' i)
    rw [star_trivial] at h0
    refine ⟨by change emPhi S F d i (F' i) ≤ _; linarith, fun hne => ?_⟩
    have h0 := (emCss_posDef hS.posSemidef F hd).dotProduct_mulVec_pos (x := F i - F' i)
      (by rw [Ne, sub_eq_zero]; exact fun h => hne h.symm)
    rw [star_trivial] at h0
    change emPhi S F d i (F' i) < _
    linarith
  have hterm : ∀ i, Real.log (d' i) + emPhi S F d i (F' i) / d' i ≤ Real.log (d i) + emPhi S F d i (F i) / d i ∧
      ((F' i ≠ F i ∨ d' i ≠ d i) →
        Real.log (d' i) + emPhi S F d i (F' i) / d' i < Real.log (d i) + emPhi S F d i (F i) / d i) := by
    intro i
    have hp := hd'pos i
    have hq := hd i
    have e1 : emPhi S F d i (F' i) / d' i = 1 := div_self hp.ne'
    rw [e1]
    have hl := Real.log_le_sub_one_of_pos (div_pos hp hq)
    rw [Real.log_div hp.ne' hq.ne'] at hl
    have h3 : d' i / d i ≤ emPhi S F d i (F i) / d i := by gcongr; exact (hge i).1
    refine ⟨by linarith, fun h => ?_⟩
    by_cases hdd : d' i = d i
    · have hF := h.resolve_right (not_not.mpr hdd)
      have h4 : d' i / d i < emPhi S F d i (F i) / d i := by gcongr; exact (hge i).2 hF
      linarith
    · have hl' := Real.log_lt_sub_one_of_pos (div_pos hp hq) (by rw [Ne, div_eq_one_iff_eq hq.ne']; exact hdd)
      rw [Real.log_div hp.ne' hq.ne'] at hl'
      linarith
  have h3 : emQ S F d F' d' < emQ S F d F d := by
    unfold emQ
    refine add_lt_add_left (Finset.sum_lt_sum (fun i _ => (hterm i).1) ?_) _
    by_contra hc
    push Not at hc
    apply hne
    have key : ∀ i, F' i = F i ∧ d' i = d i := by
      intro i
      by_contra hi
      have := (hterm i).2 (by
        by_cases h : F' i = F i
        · exact Or.inr fun h' => hi ⟨h, h'⟩
        · exact Or.inl h)
      exact absurd (hc i (Finset.mem_univ i)) (not_le.mpr this)
    exact ⟨funext fun i => (key i).1, fun i => (key i).2⟩
  have h4 := log_det_mul_le_trace (emA_posDef F' hd'pos) (emG_posDef F hd)
  have h5 := trace_mul_nonneg (emA_posDef F' hd'pos) (conj_posSemidef hS.posSemidef (emL F d - emL F' d'))
  have h6 : (emA F d * emG F d).trace = k := by
    rw [emG, Matrix.mul_nonsing_inv _ (isUnit_det_of_posDef (emA_posDef F hd)), Matrix.trace_one, Fintype.card_fin]
  have h7 : Real.log (emG F d).det = -Real.log (emA F d).det := by
    rw [emG, Matrix.det_nonsing_inv, Ring.inverse_eq_inv, Real.log_inv]
  rw [h6, sub_self, Matrix.zero_mul, Matrix.zero_mul, Matrix.mul_zero, Matrix.trace_zero] at h2
  linarith

/-- **C92** If the result of the five passes is no more likely than the initial model, the initial model solves the
equations and is returned unchanged. -/
theorem C92_no_gain {S : Mat n} (hS : S.PosDef) (x : LowRankDiag n k) (hd : ∀ i, 0 < x.d i) :
    ∃ y, emLowRankApproximation S x = .ok y ∧
      (factorLogLik S y.F y.d ≤ factorLogLik S x.F x.d ↔ LikelihoodEquations S x.F x.d) ∧
      (LikelihoodEquations S x.F x.d → y = x) := by
  obtain ⟨y, h1, _, h3⟩ := emLoop_ok hS 5 x hd
  have hfix : LikelihoodEquations S x.F x.d → y = x := by
    intro h
    have hs := (C92_fixed_iff hS.posSemidef x hd).mpr h
    have : ∀ m, emLoop S m x = .ok x := by
      intro m
      induction m with
      | zero => rfl
      | succ m ih =>
        change (emStep S x >>= fun y => emLoop _ m y) = _
        rw [hs]; exact ih
    rw [this] at h1
    injection h1 with h1
    exact h1.symm
  refine ⟨y, h1, ⟨fun hle => ?_, fun h => by rw [hfix h]⟩, hfix⟩
  by_contra hne
  obtain ⟨z, hz, hzd, hlt⟩ := C92_strict hS x hd hne
  obtain ⟨w, hw1, _, hw3⟩ := emLoop_ok hS 4 z hzd
  have : emLoop S 5 x = .ok w := by
    change (emStep S x >>= fun y => emLoop _ 4 y) = _
    rw [hz]; exact hw1
  rw [this] at h1
  cases h1
  linarith

/-! ### The equations say that the gradient of the likelihood vanishes -/

private theorem tendsto_aux {A B C : Mat n} {f g : ℝ → Mat n} {l : Filter ℝ}
    (hf : ∀ i j, Filter.Tendsto (fun x => f x i j) l (nhds (B i j)))
    (hg : ∀ i j, Filter.Tendsto (fun x => g x i j) l (nhds (C i j))) :
    Filter.Tendsto (fun x => -(A * f x * g x).trace) l (nhds (-(A * B * C).trace)) := by
  simp only [Matrix.trace, Matrix.diag_apply, Matrix.mul_apply]
  refine Filter.Tendsto.neg (tendsto_finsetSum _ fun i _ => tendsto_finsetSum _ fun j _ => ?_)
  exact Filter.Tendsto.mul (tendsto_finsetSum _ fun m _ => (hf m j).const_mul _) (hg j i)

private theorem hasDerivAt_trace_inv {S : Mat n} {P : ℝ → Mat n} {P' : Mat n} {s : ℝ}
    (h : ∀ i j, HasDerivAt (fun x => P x i j) (P' i j) s) (hd : (P s).det ≠ 0) :
    HasDerivAt (fun x => (S * (P x)⁻¹).trace) (-((P s)⁻¹ * S * (P s)⁻¹ * P').trace) s := by
  have hc : ContinuousAt P s := by
    refine continuousAt_pi.mpr fun i => continuousAt_pi.mpr fun j => (h i j).continuousAt
  have hdc : ContinuousAt (fun x => (P x).det) s := (continuous_id.matrix_det).continuousAt.comp hc
  have hinv : ContinuousAt (fun x => (P x)⁻¹) s := by
    have : (fun x => (P x)⁻¹) = fun x => ((P x).det)⁻¹ • (P x).adjugate := by
      funext x; rw [Matrix.inv_def, Ring.inverse_eq_inv']
    rw [this]
    exact (hdc.inv₀ hd).smul ((continuous_id.matrix_adjugate).continuousAt.comp hc)
  rw [hasDerivAt_iff_tendsto_slope]
  have hne : ∀ᶠ x in nhdsWithin s {s}ᶜ, (P x).det ≠ 0 :=
    (hdc.eventually_ne hd).filter_mono nhdsWithin_le_nhds
  have hlim : Filter.Tendsto (fun x => -((P s)⁻¹ * S * (P x)⁻¹ * Matrix.of fun i j => slope (fun x => P x i j) s x).trace)
      (nhdsWithin s {s}ᶜ) (nhds (-((P s)⁻¹ * S * (P s)⁻¹ * P').trace)) := by
    refine tendsto_aux (fun i j => ?_) fun i j => hasDerivAt_iff_tendsto_slope.mp (h i j)
    exact ((continuousAt_pi.mp (continuousAt_pi.mp hinv i) j).tendsto).mono_left nhdsWithin_le_nhds
  refine hlim.congr' ?_
  filter_upwards [hne, self_mem_nhdsWithin] with x hx hxs
  have hxs' : x - s ≠ 0 := sub_ne_zero.mpr hxs
  have e1 : (Matrix.of fun i j => slope (fun x => P x i j) s x : Mat n) = (x - s)⁻¹ • (P x - P s) := by
    ext i j
    simp [slope, vsub_eq_sub]
  have e2 : (P x)⁻¹ - (P s)⁻¹ = -((P x)⁻¹ * (P x - P s) * (P s)⁻¹) := by
    rw [Matrix.mul_sub, Matrix.nonsing_inv_mul _ (isUnit_iff_ne_zero.mpr hx), Matrix.sub_mul, Matrix.one_mul,
      Matrix.mul_assoc, Matrix.mul_nonsing_inv _ (isUnit_iff_ne_zero.mpr hd), Matrix.mul_one]
    abel
  rw [e1, slope_def_field, ← Matrix.trace_sub, ← Matrix.mul_sub, e2, Matrix.mul_smul, Matrix.trace_smul, Matrix.mul_neg,
    Matrix.trace_neg, smul_eq_mul, div_eq_inv_mul, mul_neg]
  congr 2
  have e3 : (S * ((P x)⁻¹ * (P x - P s) * (P s)⁻¹)).trace = ((P s)⁻¹ * (S * ((P x)⁻¹ * (P x - P s)))).trace := by
    rw [← Matrix.mul_assoc S, Matrix.trace_mul_comm]
  rw [e3]
  simp only [Matrix.mul_assoc]

private theorem factorLogLik_hasDerivAt (S : Mat n) (F : Matrix (Fin n) (Fin k) ℝ) {d : Vec n} (hd : ∀ i, 0 < d i)
    (dF : Matrix (Fin n) (Fin k) ℝ) (dd : Vec n) :
    HasDerivAt (fun s : ℝ => factorLogLik S (F + s • dF) (d + s • dd))
      ((((factorCov F d)⁻¹ * S * (factorCov F d)⁻¹ - (factorCov F d)⁻¹) * (dF * Fᵀ + F * dFᵀ + diagonal dd)).trace) 0 := by
  have hP : ∀ i j, HasDerivAt (fun s : ℝ => factorCov (F + s • dF) (d + s • dd) i j)
      ((dF * Fᵀ + F * dFᵀ + diagonal dd) i j) 0 := by
    intro i j
    have hform : (fun s : ℝ => factorCov (F + s • dF) (d + s • dd) i j) = fun s =>
        factorCov F d i j + s * (dF * Fᵀ + F * dFᵀ + diagonal dd) i j + s ^ 2 * (dF * dFᵀ) i j := by
      funext s
      have : factorCov (F + s • dF) (d + s • dd) =
          factorCov F d + s • (dF * Fᵀ + F * dFᵀ + diagonal dd) + s ^ 2 • (dF * dFᵀ) := by
        have hdiag : diagonal (d + s • dd) = diagonal d + s • diagonal dd := by
          ext a b; by_cases hab : a = b
          · subst hab; simp
          · simp [hab]
        rw [factorCov, factorCov, Matrix.transpose_add, Matrix.transpose_smul, Matrix.add_mul, Matrix.mul_add, Matrix.mul_add,
          hdiag]
        simp only [Matrix.smul_mul, Matrix.mul_smul, smul_smul, smul_add, pow_two]
        abel
      rw [this]
      rw [Matrix.add_apply, Matrix.add_apply, Matrix.smul_apply, Matrix.smul_apply, smul_eq_mul, smul_eq_mul]
    rw [hform]
    have h1 := ((hasDerivAt_id (0 : ℝ)).mul_const ((dF * Fᵀ + F * dFᵀ + diagonal dd) i j)).const_add (factorCov F d i j)
    have h2 := ((hasDerivAt_pow 2 (0 : ℝ)).mul_const ((dF * dFᵀ) i j))
    refine (h1.fun_add h2).congr_deriv ?_
    simp
  have h0 : factorCov (F + (0 : ℝ) • dF) (d + (0 : ℝ) • dd) = factorCov F d := by simp
  have hne : (factorCov (F + (0 : ℝ) • dF) (d + (0 : ℝ) • dd)).det ≠ 0 := by
    rw [h0]; exact (factorCov_posDef F hd).det_pos.ne'
  have h1 := hasDerivAt_logdet hP hne
  have h2 := hasDerivAt_trace_inv (S := S) hP hne
  rw [h0] at h1 h2
  refine ((h1.fun_neg).fun_sub h2).congr_deriv ?_
  rw [Matrix.sub_mul, Matrix.trace_sub]
  ring

/-- **C92** The equations hold exactly if the likelihood has derivative zero in every direction, in the loadings and in the
idiosyncratic variances. -/
theorem C92_stationary_iff {S : Mat n} (hS : Sᵀ = S) (F : Matrix (Fin n) (Fin k) ℝ) {d : Vec n} (hd : ∀ i, 0 < d i) :
    LikelihoodEquations S F d ↔ ∀ (dF : Matrix (Fin n) (Fin k) ℝ) (dd : Vec n),
      HasDerivAt (fun s : ℝ => factorLogLik S (F + s • dF) (d + s • dd)) 0 0 := by
  have hp := factorCov_posDef F hd
  have hu := isUnit_det_of_posDef hp
  have hsym : (factorCov F d)⁻¹ᵀ = (factorCov F d)⁻¹ := by
    rw [Matrix.transpose_nonsing_inv, symm_of_posSemidef hp.posSemidef]
  set W := (factorCov F d)⁻¹ with hW
  set M := W * S * W - W with hM
  have hMs : Mᵀ = M := by
    rw [hM, Matrix.transpose_sub, Matrix.transpose_mul, Matrix.transpose_mul, hsym, hS, Matrix.mul_assoc]
  have hCM : factorCov F d * M * factorCov F d = S - factorCov F d := by
    rw [hM, Matrix.mul_sub, Matrix.sub_mul, hW, Matrix.mul_nonsing_inv _ hu, Matrix.one_mul]
    simp only [← Matrix.mul_assoc]
    rw [Matrix.mul_nonsing_inv _ hu, Matrix.one_mul, Matrix.mul_assoc, Matrix.nonsing_inv_mul _ hu, Matrix.mul_one]
  have hMF : M * F = 0 ↔ S * W * F = F := by
    rw [hM, Matrix.sub_mul, sub_eq_zero]
    constructor
    · intro h
      have := congrArg (fun X : Matrix (Fin n) (Fin k) ℝ => factorCov F d * X) h
      simp only [← Matrix.mul_assoc, hW] at this
      rw [Matrix.mul_nonsing_inv _ hu, Matrix.one_mul, Matrix.one_mul] at this
      exact this
    · intro h
      rw [Matrix.mul_assoc, Matrix.mul_assoc, ← Matrix.mul_assoc S, h]
  have hdiag : M * F = 0 → ((∀ i, factorCov F d i i = S i i) ↔ ∀ i, M i i = 0) := by
    intro h
    have hF : Fᵀ * M = 0 := by
      have := congrArg Matrix.transpose h
      rwa [Matrix.transpose_mul, hMs, Matrix.transpose_zero] at this
    have h1 : diagonal d * M * diagonal d = S - factorCov F d := by
      rw [← hCM, factorCov, Matrix.add_mul, Matrix.mul_assoc F, hF, Matrix.mul_zero, zero_add, Matrix.mul_add,
        Matrix.mul_assoc (diagonal d) M (F * Fᵀ), ← Matrix.mul_assoc M F, h, Matrix.zero_mul, Matrix.mul_zero, zero_add]
    refine forall_congr' fun i => ?_
    have h2 := congrFun (congrFun h1 i) i
    rw [Matrix.mul_diagonal, Matrix.diagonal_mul, Matrix.sub_apply] at h2
    have hdi := (hd i).ne'
    constructor
    · intro h3
      rw [h3, sub_self] at h2
      simpa [hdi] using h2
    · intro h3
      rw [h3] at h2
      linarith
  have hval : ∀ (dF : Matrix (Fin n) (Fin k) ℝ) (dd : Vec n), (M * (dF * Fᵀ + F * dFᵀ + diagonal dd)).trace =
      2 * ((M * F) * dFᵀ).trace + ∑ i, M i i * dd i := by
    intro dF dd
    rw [Matrix.mul_add, Matrix.mul_add, Matrix.trace_add, Matrix.trace_add]
    have e1 : (M * (dF * Fᵀ)).trace = (M * F * dFᵀ).trace := by
      rw [← Matrix.trace_transpose, Matrix.transpose_mul, Matrix.transpose_mul, hMs, Matrix.transpose_transpose,
        Matrix.trace_mul_comm, ← Matrix.mul_assoc]
    have e2 : (M * diagonal dd).trace = ∑ i, M i i * dd i := by
      simp [Matrix.trace, Matrix.mul_diagonal]
    rw [e1, e2, ← Matrix.mul_assoc]; ring
  have hLE : LikelihoodEquations S F d ↔ M * F = 0 ∧ ∀ i, M i i = 0 := by
    unfold LikelihoodEquations
    rw [← hW, ← hMF, and_comm]
    exact and_congr_right fun h => hdiag h
  rw [hLE]
  constructor
  · rintro ⟨h1, h2⟩ dF dd
    refine (factorLogLik_hasDerivAt S F hd dF dd).congr_deriv ?_
    rw [← hW, ← hM, hval, h1]
    simp [h2]
  · intro h
    have hz : ∀ (dF : Matrix (Fin n) (Fin k) ℝ) (dd : Vec n), 2 * ((M * F) * dFᵀ).trace + ∑ i, M i i * dd i = 0 := by
      intro dF dd
      rw [← hval]
      exact (factorLogLik_hasDerivAt S F hd dF dd).unique (h dF dd)
    constructor
    · have h1 := hz (M * F) 0
      have h2 : ((M * F) * (M * F)ᵀ).trace = 0 := by simpa using h1
      rw [← sum_mul_eq_trace] at h2
      ext i j
      have h3 := (Finset.sum_eq_zero_iff_of_nonneg (fun i _ => Finset.sum_nonneg fun j _ => mul_self_nonneg _)).mp h2 i
        (Finset.mem_univ i)
      have h4 := (Finset.sum_eq_zero_iff_of_nonneg (fun j _ => mul_self_nonneg _)).mp h3 j (Finset.mem_univ j)
      simpa using h4
    · intro i
      have h1 := hz 0 (Pi.single i 1)
      simpa [Pi.single_apply] using h1

/-- A second moment that is not the covariance of the model: the equations fail, the pass gains. -/
example : ¬ LikelihoodEquations (diagonal fun _ => 2 : Mat 2) (0 : Matrix (Fin 2) (Fin 1) ℝ) (fun _ => 1) := by
  rintro ⟨h, _⟩
  have := h 0
  simp [factorCov] at this

/-- With no loadings the equations only ask for the variances: a saddle point from which EM never moves, although the
correlation of the assets is not explained. -/
theorem C92_zero_loadings {S : Mat n} : LikelihoodEquations S (0 : Matrix (Fin n) (Fin k) ℝ) fun i => S i i := by
  refine ⟨fun i => by simp [factorCov], by rw [Matrix.mul_zero]⟩

end CovPred
