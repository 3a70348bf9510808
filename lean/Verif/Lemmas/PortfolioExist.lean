import Verif.Props.Portfolio3
import Verif.Props.Limits
import Verif.Props.Backtests3
import Mathlib.Analysis.Normed.Module.FiniteDimension
import Mathlib.Topology.Order.Compact

/-
Existence and uniqueness of least-risk portfolios: the predicted variance of a positive definite covariance grows without
bound in every direction and is strictly convex.
-/
namespace CovPred
open Matrix
set_option linter.unusedSectionVars false

variable {n : ℕ}

theorem predictedStd_nonneg (S : Mat n) (w : Vec n) : 0 ≤ predictedStd S w := Real.sqrt_nonneg _

theorem quad_nonneg {S : Mat n} (hS : S.PosDef) (w : Vec n) : 0 ≤ w ⬝ᵥ (S *ᵥ w) := by
  simpa using hS.posSemidef.dotProduct_mulVec_nonneg w

theorem predictedStd_sq {S : Mat n} (hS : S.PosDef) (w : Vec n) : predictedStd S w ^ 2 = w ⬝ᵥ (S *ᵥ w) :=
  Real.sq_sqrt (quad_nonneg hS w)

theorem predictedStd_continuous (S : Mat n) : Continuous (predictedStd S) := by
  unfold predictedStd
  refine Real.continuous_sqrt.comp ?_
  unfold dotProduct mulVec dotProduct
  fun_prop

/-- the risk expression is the predicted standard deviation -/
theorem riskExpr_eq {S L : Mat n} (hS : S.PosDef) (hL : getLInv S = .ok L) (w : Vec n) : riskExpr L w = predictedStd S w := by
  obtain ⟨L', hL', hrisk⟩ := C56_whitener hS
  rw [hL] at hL'
  cases hL'
  exact hrisk w

/-- the risk grows at least linearly with the size of the portfolio -/
theorem risk_coercive {S : Mat n} (hS : S.PosDef) : ∃ m : ℝ, 0 < m ∧ ∀ w : Vec n, m * ‖w‖ ≤ predictedStd S w := by
  rcases isEmpty_or_nonempty (Fin n) with he | he
  · refine ⟨1, one_pos, fun w => ?_⟩
    have : w = 0 := Subsingleton.elim _ _
    rw [this, norm_zero, mul_zero]
    exact predictedStd_nonneg _ _
  · obtain ⟨u, hu, hmin⟩ := (isCompact_sphere (0 : Vec n) 1).exists_isMinOn
      (NormedSpace.sphere_nonempty.2 zero_le_one) (predictedStd_continuous S).continuousOn
    have hu1 : ‖u‖ = 1 := by simpa using hu
    have hune : u ≠ 0 := by rintro rfl; simp at hu1
    refine ⟨predictedStd S u, predictedStd_pos hS hune, fun w => ?_⟩
    by_cases hw : w = 0
    · rw [hw, norm_zero, mul_zero]; exact predictedStd_nonneg _ _
    · have hp : 0 < ‖w‖ := norm_pos_iff.2 hw
      have hmem : (‖w‖⁻¹ • w) ∈ Metric.sphere (0 : Vec n) 1 := by
        rw [mem_sphere_zero_iff_norm, norm_smul, norm_inv, norm_norm, inv_mul_cancel₀ hp.ne']
      have h1 := hmin hmem
      have h2 : predictedStd S (‖w‖⁻¹ • w) = ‖w‖⁻¹ * predictedStd S w := predictedStd_smul S w (inv_nonneg.2 hp.le)
      have h3 : predictedStd S u ≤ ‖w‖⁻¹ * predictedStd S w := by rw [← h2]; exact h1
      calc predictedStd S u * ‖w‖ ≤ ‖w‖⁻¹ * predictedStd S w * ‖w‖ := mul_le_mul_of_nonneg_right h3 hp.le
        _ = predictedStd S w := by field_simp

/-- portfolios of bounded risk are bounded -/
theorem risk_ball_compact {S : Mat n} (hS : S.PosDef) (C : Set (Vec n)) (hC : IsClosed C) (r : ℝ) :
    IsCompact (C ∩ {w | predictedStd S w ≤ r}) := by
  obtain ⟨m, hm, hco⟩ := risk_coercive hS
  refine (isCompact_closedBall (0 : Vec n) (r / m)).of_isClosed_subset
    (hC.inter (isClosed_le (predictedStd_continuous S) continuous_const)) ?_
  rintro w ⟨-, hw⟩
  rw [mem_closedBall_zero_iff, le_div_iff₀ hm, mul_comm]
  exact (hco w).trans hw

/-- a closed set of portfolios which is not empty has one that minimises the risk plus a non-negative continuous term -/
theorem exists_least {S : Mat n} (hS : S.PosDef) (C : Set (Vec n)) (hC : IsClosed C) (hne : C.Nonempty) (g : Vec n → ℝ)
    (hg : Continuous g) (hg0 : ∀ w, 0 ≤ g w) :
    ∃ w ∈ C, ∀ v ∈ C, predictedStd S w + g w ≤ predictedStd S v + g v := by
  obtain ⟨w0, hw0⟩ := hne
  set r := predictedStd S w0 + g w0 with hr
  have hmem : w0 ∈ C ∩ {w | predictedStd S w ≤ r} := ⟨hw0, by have := hg0 w0; simp only [Set.mem_setOf_eq, hr]; linarith⟩
  obtain ⟨w, hw, hmin⟩ := (risk_ball_compact hS C hC r).exists_isMinOn ⟨w0, hmem⟩
    ((predictedStd_continuous S).add hg).continuousOn
  refine ⟨w, hw.1, fun v hv => ?_⟩
  by_cases hvr : predictedStd S v ≤ r
  · exact hmin ⟨hv, hvr⟩
  · have h1 : predictedStd S w + g w ≤ r := hmin hmem
    have h2 := hg0 v
    push Not at hvr
    linarith

/-- the inner product of a covariance -/
theorem quad_symm {S : Mat n} (hS : S.PosDef) (u v : Vec n) : u ⬝ᵥ (S *ᵥ v) = v ⬝ᵥ (S *ᵥ u) := by
  rw [Matrix.dotProduct_mulVec, ← Matrix.mulVec_transpose, posDef_symm hS, dotProduct_comm]

theorem quad_cauchy {S : Mat n} (hS : S.PosDef) (u v : Vec n) :
    u ⬝ᵥ (S *ᵥ v) ≤ predictedStd S u * predictedStd S v := by
  by_cases hu : u = 0
  · rw [hu, zero_dotProduct]
    exact mul_nonneg (predictedStd_nonneg _ _) (predictedStd_nonneg _ _)
  by_cases hv : v = 0
  · rw [hv, mulVec_zero, dotProduct_zero]
    exact mul_nonneg (predictedStd_nonneg _ _) (predictedStd_nonneg _ _)
  have hpu := predictedStd_pos hS hu
  have hpv := predictedStd_pos hS hv
  have h := quad_nonneg hS (predictedStd S v • u - predictedStd S u • v)
  simp only [mulVec_sub, mulVec_smul, dotProduct_sub, sub_dotProduct, dotProduct_smul, smul_dotProduct, smul_eq_mul,
    quad_symm hS v u, ← predictedStd_sq hS u, ← predictedStd_sq hS v] at h
  have hpp := mul_pos hpu hpv
  have : 0 ≤ predictedStd S u * predictedStd S v * (predictedStd S u * predictedStd S v - u ⬝ᵥ (S *ᵥ v)) := by nlinarith
  have := nonneg_of_mul_nonneg_right this hpp
  linarith

/-- the risk of the half-way portfolio is at most the average risk, with equality only for portfolios on one ray -/
theorem risk_midpoint {S : Mat n} (hS : S.PosDef) (u v : Vec n) :
    predictedStd S ((1 / 2 : ℝ) • (u + v)) ≤ (predictedStd S u + predictedStd S v) / 2 ∧
      (predictedStd S ((1 / 2 : ℝ) • (u + v)) = (predictedStd S u + predictedStd S v) / 2 →
        predictedStd S v • u = predictedStd S u • v) := by
  have hc := quad_cauchy hS u v
  have hsum : predictedStd S ((1 / 2 : ℝ) • (u + v)) ^ 2
      = (predictedStd S u ^ 2 + 2 * (u ⬝ᵥ (S *ᵥ v)) + predictedStd S v ^ 2) / 4 := by
    rw [predictedStd_sq hS, predictedStd_sq hS, predictedStd_sq hS]
    simp only [mulVec_smul, mulVec_add, dotProduct_smul, smul_dotProduct, dotProduct_add, add_dotProduct, smul_eq_mul,
      quad_symm hS v u]
    ring
  have h0 := predictedStd_nonneg S u
  have h1 := predictedStd_nonneg S v
  have h2 := predictedStd_nonneg S ((1 / 2 : ℝ) • (u + v))
  refine ⟨by nlinarith, fun he => ?_⟩
  have hcs : u ⬝ᵥ (S *ᵥ v) = predictedStd S u * predictedStd S v := by rw [he] at hsum; nlinarith
  by_contra hne
  have hpos := hS.dotProduct_mulVec_pos (sub_ne_zero.2 hne)
  simp only [star_trivial] at hpos
  have hz : (predictedStd S v • u - predictedStd S u • v) ⬝ᵥ (S *ᵥ (predictedStd S v • u - predictedStd S u • v)) = 0 := by
    simp only [mulVec_sub, mulVec_smul, dotProduct_sub, sub_dotProduct, dotProduct_smul, smul_dotProduct, smul_eq_mul,
      quad_symm hS v u, ← predictedStd_sq hS u, ← predictedStd_sq hS v, hcs]
    ring
  exact hpos.ne' hz

/-- In a convex set of portfolios no two of which are on one ray, the portfolio of least risk (plus a convex term) is
unique. -/
theorem least_unique {S : Mat n} (hS : S.PosDef) (C : Set (Vec n)) (hC : ∀ u ∈ C, ∀ v ∈ C, (1 / 2 : ℝ) • (u + v) ∈ C)
    (hray : ∀ u ∈ C, ∀ v ∈ C, predictedStd S v • u = predictedStd S u • v → u = v) (g : Vec n → ℝ)
    (hg : ∀ u v, g ((1 / 2 : ℝ) • (u + v)) ≤ (g u + g v) / 2) {u v : Vec n} (hu : u ∈ C) (hv : v ∈ C)
    (hmu : ∀ x ∈ C, predictedStd S u + g u ≤ predictedStd S x + g x)
    (hmv : ∀ x ∈ C, predictedStd S v + g v ≤ predictedStd S x + g x) : u = v := by
  obtain ⟨h1, h2⟩ := risk_midpoint hS u v
  have h3 := hmu _ (hC u hu v hv)
  have h4 := hmv _ (hC u hu v hv)
  have h5 := hg u v
  exact hray u hu v hv (h2 (by linarith))

/-- on the plane of fully invested portfolios there are no two on one ray -/
theorem ray_of_sum {S : Mat n} (hS : S.PosDef) {c : Vec n} {u v : Vec n} (hu : c ⬝ᵥ u = 1) (hv : c ⬝ᵥ v = 1)
    (h : predictedStd S v • u = predictedStd S u • v) : u = v := by
  have h' := congrArg (c ⬝ᵥ ·) h
  simp only [dotProduct_smul, hu, hv, smul_eq_mul, mul_one] at h'
  rw [h'] at h
  have hne : u ≠ 0 := by rintro rfl; simp at hu
  have hp := (predictedStd_pos hS hne).ne'
  funext i
  have := congrFun h i
  simp only [Pi.smul_apply, smul_eq_mul] at this
  exact mul_left_cancel₀ hp this

end CovPred
