import Verif.Spec.Random
import Verif.Props.Volatility
import Verif.Props.Causality
import Mathlib.Probability.Moments.Variance
import Mathlib.Algebra.Order.Chebyshev
import Mathlib.Probability.UniformOn

/-
Property C175: what the estimates estimate when the returns are random.
-/
set_option linter.unusedSectionVars false
namespace CovPred
open XR MeasureTheory ProbabilityTheory

variable {τ ι : Type} [LinearOrder τ] [Ix ι] {Ω : Type} [MeasurableSpace Ω] {P : Measure Ω}

theorem integral_halflifeAverage (h : ℝ) {Y : ℕ → Ω → ℝ} {t : ℕ} (hY : ∀ k ≤ t, Integrable (Y k) P) :
    Integrable (fun ω => halflifeAverage h (fun k => Y k ω) t) P ∧
    ∫ ω, halflifeAverage h (fun k => Y k ω) t ∂P = halflifeAverage h (fun k => ∫ ω, Y k ω ∂P) t := by
  unfold halflifeAverage
  have hi : ∀ k ∈ Finset.range (t + 1), Integrable (fun ω => (2 : ℝ) ^ (-((t - k : ℕ) : ℝ) / h) * Y k ω) P := fun k hk =>
    (hY k (Nat.lt_succ_iff.mp (Finset.mem_range.mp hk))).const_mul _
  refine ⟨(integrable_finsetSum _ hi).div_const _, ?_⟩
  rw [integral_div, integral_finsetSum _ hi]
  simp only [integral_const_mul]

/-- **C175.** `_ewma_cov` of random returns: the expected value of every entry is the weighted average of the expected products
of the returns. -/
theorem C175_covariance [Nonempty ι] {h : ℝ} (hh : 0 < h) (mp : Int) {T : ℕ} (hT : 0 < T) (tm : ℕ → τ) (X : Ω → ℕ → ι → ℝ)
    (hX : ∀ k < T, ∀ i j, Integrable (fun ω => X ω k i * X ω k j) P) :
    ∃ C : Ω → ℕ → ι × ι → ℝ, (∀ ω, ewmaCov (finFrame T tm (X ω)) (fin h) mp = .ok (finRows (rowsFrom mp T) tm (C ω))) ∧
      ∀ t < T, ∀ i j, Integrable (fun ω => C ω t (i, j)) P ∧
        ∫ ω, C ω t (i, j) ∂P = halflifeAverage h (fun k => ∫ ω, X ω k i * X ω k j ∂P) t := by
  refine ⟨fun ω t p => halflifeAverage h (fun k => X ω k p.1 * X ω k p.2) t, fun ω => ?_, fun t ht i j => ?_⟩
  · rw [ewmaCov_fin hh mp hT]
    simp only [halflifeAverage_eq]
  · exact integral_halflifeAverage h fun k hk => hX k (lt_of_le_of_lt hk ht) i j

theorem halflifeAverage_const (h c : ℝ) (t : ℕ) : halflifeAverage h (fun _ => c) t = c := by
  rw [halflifeAverage_eq]; exact emaAvg_const (betaOf_pos h) c t

/-- **C175.** `_ewma_mean` of random returns: the expected value is the weighted average of the expected returns; if these are all
the same, the estimate is unbiased. -/
theorem C175_mean [Nonempty ι] {h : ℝ} (hh : 0 < h) (mp : Int) {T : ℕ} (hT : 0 < T) (tm : ℕ → τ) (X : Ω → ℕ → ι → ℝ)
    (hX : ∀ k < T, ∀ i, Integrable (fun ω => X ω k i) P) :
    ∃ C : Ω → ℕ → ι → ℝ, (∀ ω, ewmaMean (finFrame T tm (X ω)) (fin h) mp none = .ok (finRows (rowsFrom mp T) tm (C ω))) ∧
      ∀ t < T, ∀ i, ∫ ω, C ω t i ∂P = halflifeAverage h (fun k => ∫ ω, X ω k i ∂P) t ∧
        ∀ m : ℝ, (∀ k < T, ∫ ω, X ω k i ∂P = m) → ∫ ω, C ω t i ∂P = m := by
  refine ⟨fun ω t i => halflifeAverage h (fun k => X ω k i) t, fun ω => ?_, fun t ht i => ?_⟩
  · rw [ewmaMean_fin hh mp hT]
    simp only [halflifeAverage_eq]
  · have h1 := (integral_halflifeAverage h (Y := fun k ω => X ω k i) (t := t) fun k hk => hX k (lt_of_le_of_lt hk ht) i).2
    refine ⟨h1, fun m hm => h1.trans ?_⟩
    have : halflifeAverage h (fun k => ∫ ω, X ω k i ∂P) t = halflifeAverage h (fun _ => m) t := by
      unfold halflifeAverage
      congr 1
      refine Finset.sum_congr rfl fun k hk => ?_
      dsimp only
      rw [hm k (by have := Finset.mem_range.mp hk; omega)]
    rw [this, halflifeAverage_const]

/-- **C175.** If the second moments of the returns are the same in all rows, `_ewma_cov` is an unbiased estimate of them. -/
theorem C175_unbiased [Nonempty ι] {h : ℝ} (hh : 0 < h) (mp : Int) {T : ℕ} (hT : 0 < T) (tm : ℕ → τ) (X : Ω → ℕ → ι → ℝ)
    (hX : ∀ k < T, ∀ i j, Integrable (fun ω => X ω k i * X ω k j) P) (S : ι → ι → ℝ)
    (hS : ∀ k < T, ∀ i j, ∫ ω, X ω k i * X ω k j ∂P = S i j) :
    ∃ C : Ω → ℕ → ι × ι → ℝ, (∀ ω, ewmaCov (finFrame T tm (X ω)) (fin h) mp = .ok (finRows (rowsFrom mp T) tm (C ω))) ∧
      ∀ t < T, ∀ i j, ∫ ω, C ω t (i, j) ∂P = S i j := by
  obtain ⟨C, h1, h2⟩ := C175_covariance hh mp hT tm X hX
  refine ⟨C, h1, fun t ht i j => ?_⟩
  rw [(h2 t ht i j).2]
  have : halflifeAverage h (fun k => ∫ ω, X ω k i * X ω k j ∂P) t = halflifeAverage h (fun _ => S i j) t := by
    unfold halflifeAverage
    congr 1
    apply Finset.sum_congr rfl
    intro k hk
    dsimp only
    rw [hS k (by have := Finset.mem_range.mp hk; omega)]
  rw [this, halflifeAverage_const]

/-- **C175.** `volatility` (without clipping) of random returns: the expected value of its square is the weighted average of the
expected squared returns; its own expected value is at most the root of that, so on average the volatility is not overstated. -/
theorem C175_volatility [IsProbabilityMeasure P] [Nonempty ι] {h : ℝ} (hh : 0 < h) (mp : Int) {T : ℕ} (hT : 0 < T) (tm : ℕ → τ)
    (X : Ω → ℕ → ι → ℝ) (hm : ∀ k < T, ∀ i, MemLp (fun ω => X ω k i) 2 P) :
    ∃ V : Ω → ℕ → ι → ℝ, (∀ ω, volatility (finFrame T tm (X ω)) (fin h) mp none = .ok (finRows (rowsFrom mp T) tm (V ω))) ∧
      ∀ t < T, ∀ i, ∫ ω, V ω t i ^ 2 ∂P = halflifeAverage h (fun k => ∫ ω, X ω k i ^ 2 ∂P) t ∧
        ∫ ω, V ω t i ∂P ≤ Real.sqrt (halflifeAverage h (fun k => ∫ ω, X ω k i ^ 2 ∂P) t) := by
  have hav : ∀ (ω : Ω) t i, 0 ≤ halflifeAverage h (fun k => X ω k i ^ 2) t := fun ω t i => by
    rw [halflifeAverage_eq]; exact emaAvg_nonneg (betaOf_pos h) fun k _ => sq_nonneg _
  refine ⟨fun ω t i => Real.sqrt (halflifeAverage h (fun k => X ω k i ^ 2) t), fun ω => ?_, fun t ht i => ?_⟩
  · exact C01_volatility (show Represents (finFrame T tm (X ω)) false T tm (X ω) from
      ⟨fun t => finRow (X ω t), rfl, fun t _ i => Or.inl (by simp [finRow])⟩) hT hh mp
  · obtain ⟨h1, h2⟩ := integral_halflifeAverage (P := P) h (Y := fun k ω => X ω k i ^ 2) (t := t)
      fun k hk => (hm k (lt_of_le_of_lt hk ht) i).integrable_sq
    have hsq : (fun ω => Real.sqrt (halflifeAverage h (fun k => X ω k i ^ 2) t) ^ 2)
        = fun ω => halflifeAverage h (fun k => X ω k i ^ 2) t := by
      funext ω; exact Real.sq_sqrt (hav ω t i)
    have e : ∫ ω, Real.sqrt (halflifeAverage h (fun k => X ω k i ^ 2) t) ^ 2 ∂P
        = halflifeAverage h (fun k => ∫ ω, X ω k i ^ 2 ∂P) t := by rw [hsq]; exact h2
    refine ⟨e, ?_⟩
    have hmeas : AEStronglyMeasurable (fun ω => Real.sqrt (halflifeAverage h (fun k => X ω k i ^ 2) t)) P :=
      Real.continuous_sqrt.comp_aestronglyMeasurable h1.aestronglyMeasurable
    have hL2 : MemLp (fun ω => Real.sqrt (halflifeAverage h (fun k => X ω k i ^ 2) t)) 2 P := by
      rw [memLp_two_iff_integrable_sq hmeas, hsq]
      exact h1
    have hv := variance_nonneg (fun ω => Real.sqrt (halflifeAverage h (fun k => X ω k i ^ 2) t)) P
    rw [variance_eq_sub hL2] at hv
    apply Real.le_sqrt_of_sq_le
    rw [← e]
    simp only [Pi.pow_apply] at hv
    linarith

/-! ### how precise the estimate is -/

theorem effectiveObs_eq (h : ℝ) (t : ℕ) :
    effectiveObs h t = (∑ k ∈ Finset.range (t + 1), betaOf h ^ (t - k)) ^ 2 /
      ∑ k ∈ Finset.range (t + 1), (betaOf h ^ (t - k)) ^ 2 := by
  unfold effectiveObs
  simp only [betaOf_pow]

/-- **C175.** If the products of the returns of two assets are uncorrelated over time with variance `v`, then the variance of the
estimate is `v` divided by the effective number of observations. -/
theorem C175_variance [IsProbabilityMeasure P] [Nonempty ι] {h : ℝ} (hh : 0 < h) (mp : Int) {T : ℕ} (hT : 0 < T) (tm : ℕ → τ)
    (X : Ω → ℕ → ι → ℝ) (i j : ι) (hm : ∀ k < T, MemLp (fun ω => X ω k i * X ω k j) 2 P) {v : ℝ}
    (hv : ∀ k < T, ProbabilityTheory.variance (fun ω => X ω k i * X ω k j) P = v)
    (hu : ∀ k < T, ∀ l < T, k ≠ l → ProbabilityTheory.covariance (fun ω => X ω k i * X ω k j) (fun ω => X ω l i * X ω l j) P = 0) :
    ∃ C : Ω → ℕ → ι × ι → ℝ, (∀ ω, ewmaCov (finFrame T tm (X ω)) (fin h) mp = .ok (finRows (rowsFrom mp T) tm (C ω))) ∧
      ∀ t < T, ProbabilityTheory.variance (fun ω => C ω t (i, j)) P = v / effectiveObs h t := by
  refine ⟨fun ω t p => halflifeAverage h (fun k => X ω k p.1 * X ω k p.2) t, fun ω => ?_, fun t ht => ?_⟩
  · rw [ewmaCov_fin hh mp hT]
    simp only [halflifeAverage_eq]
  · simp only [halflifeAverage_eq, emaAvg]
    have hd := emaAvg_den_pos (betaOf_pos h) t
    have e : (fun ω => (∑ k ∈ Finset.range (t + 1), betaOf h ^ (t - k) * (X ω k i * X ω k j)) /
          ∑ k ∈ Finset.range (t + 1), betaOf h ^ (t - k))
        = fun ω => (∑ k ∈ Finset.range (t + 1), betaOf h ^ (t - k))⁻¹ *
            ∑ k ∈ Finset.range (t + 1), betaOf h ^ (t - k) * (X ω k i * X ω k j) := by
      funext ω; rw [div_eq_inv_mul]
    rw [e, variance_const_mul, variance_fun_sum' (X := fun k ω => betaOf h ^ (t - k) * (X ω k i * X ω k j))
      fun k hk => (hm k (by have := Finset.mem_range.mp hk; omega)).const_mul _]
    have hcov : ∀ k ∈ Finset.range (t + 1), ∑ l ∈ Finset.range (t + 1),
        covariance (fun ω => betaOf h ^ (t - k) * (X ω k i * X ω k j)) (fun ω => betaOf h ^ (t - l) * (X ω l i * X ω l j)) P
        = (betaOf h ^ (t - k)) ^ 2 * v := by
      intro k hk
      have hk' : k < T := by have := Finset.mem_range.mp hk; omega
      rw [Finset.sum_eq_single k]
      · rw [covariance_const_mul_left, covariance_const_mul_right, covariance_self (hm k hk').aemeasurable, hv k hk']
        ring
      · intro l hl hne
        rw [covariance_const_mul_left, covariance_const_mul_right,
          hu k hk' l (by have := Finset.mem_range.mp hl; omega) (Ne.symm hne)]
        ring
      · intro hk2; exact absurd hk hk2
    rw [Finset.sum_congr rfl hcov, ← Finset.sum_mul, effectiveObs_eq]
    rw [inv_pow, div_div_eq_mul_div]
    field_simp

theorem sum_pow_sub (b : ℝ) (t : ℕ) : ∑ k ∈ Finset.range (t + 1), b ^ (t - k) = ∑ k ∈ Finset.range (t + 1), b ^ k := by
  rw [← Finset.sum_range_reflect]
  apply Finset.sum_congr rfl
  intro k hk
  congr 1
  have := Finset.mem_range.mp hk
  omega

theorem effectiveObs_closed {h : ℝ} (hh : 0 < h) (t : ℕ) :
    effectiveObs h t = (1 + betaOf h) / (1 - betaOf h) * ((1 - betaOf h ^ (t + 1)) / (1 + betaOf h ^ (t + 1))) := by
  have h0 := betaOf_pos h
  have h1 := betaOf_lt_one hh
  have hd : (1 : ℝ) - betaOf h ≠ 0 := by linarith
  have hd2 : (1 : ℝ) - betaOf h ^ 2 ≠ 0 := by nlinarith
  have hp := one_sub_pow_pos h0 h1 t
  have hq : (0 : ℝ) < 1 + betaOf h ^ (t + 1) := by positivity
  have e1 : ∑ k ∈ Finset.range (t + 1), betaOf h ^ (t - k) = (1 - betaOf h ^ (t + 1)) / (1 - betaOf h) := by
    rw [sum_pow_sub, geom_sum_eq h1.ne, ← neg_div_neg_eq]
    congr 1 <;> ring
  have e2 : ∑ k ∈ Finset.range (t + 1), (betaOf h ^ (t - k)) ^ 2 = (1 - (betaOf h ^ (t + 1)) ^ 2) / (1 - betaOf h ^ 2) := by
    have : ∀ k, (betaOf h ^ (t - k)) ^ 2 = (betaOf h ^ 2) ^ (t - k) := fun k => by rw [← pow_mul, ← pow_mul, Nat.mul_comm]
    simp only [this]
    rw [sum_pow_sub, geom_sum_eq (by nlinarith), ← neg_div_neg_eq]
    congr 1
    · rw [← pow_mul, ← pow_mul, Nat.mul_comm]; ring
    · ring
  rw [effectiveObs_eq, e1, e2]
  have e3 : (1 : ℝ) - (betaOf h ^ (t + 1)) ^ 2 = (1 - betaOf h ^ (t + 1)) * (1 + betaOf h ^ (t + 1)) := by ring
  have e4 : (1 : ℝ) - betaOf h ^ 2 = (1 - betaOf h) * (1 + betaOf h) := by ring
  rw [e3, e4]
  have hp' := hp.ne'
  have hq' := hq.ne'
  have h5 : (1 : ℝ) + betaOf h ≠ 0 := by linarith
  field_simp

/-- **C175.** The effective number of observations: 1 at first, growing with every row, at most the number of rows, and with limit
`(1 + b) / (1 - b)` where `b = 2^(-1/h)`; so the estimate does not become arbitrarily precise. -/
theorem C175_effective {h : ℝ} (hh : 0 < h) :
    effectiveObs h 0 = 1 ∧ StrictMono (effectiveObs h) ∧ (∀ t, effectiveObs h t ≤ t + 1) ∧
    (∀ t, effectiveObs h t < (1 + (2 : ℝ) ^ (-1 / h)) / (1 - (2 : ℝ) ^ (-1 / h))) ∧
    Filter.Tendsto (effectiveObs h) Filter.atTop (nhds ((1 + (2 : ℝ) ^ (-1 / h)) / (1 - (2 : ℝ) ^ (-1 / h)))) := by
  have hb : (2 : ℝ) ^ (-1 / h) = betaOf h := by
    have := betaOf_pow h 1
    rw [pow_one] at this
    rw [this]; norm_num
  have h0 := betaOf_pos h
  have h1 := betaOf_lt_one hh
  rw [hb]
  set b := betaOf h with hbd
  have hc : 0 < (1 + b) / (1 - b) := div_pos (by linarith) (by linarith)
  refine ⟨?_, ?_, ?_, ?_, ?_⟩
  · simp [effectiveObs]
  · apply strictMono_nat_of_lt_succ
    intro t
    rw [effectiveObs_closed hh, effectiveObs_closed hh]
    apply mul_lt_mul_of_pos_left _ hc
    rw [div_lt_div_iff₀ (by positivity) (by positivity)]
    have : b ^ (t + 1 + 1) < b ^ (t + 1) := pow_lt_pow_right_of_lt_one₀ h0 h1 (Nat.lt_succ_self _)
    nlinarith
  · intro t
    rw [effectiveObs_eq, div_le_iff₀ (Finset.sum_pos (fun k _ => by positivity) ⟨0, by simp⟩)]
    have := sq_sum_le_card_mul_sum_sq (s := Finset.range (t + 1)) (f := fun k => b ^ (t - k))
    rw [Finset.card_range] at this
    push_cast at this
    exact this
  · intro t
    rw [effectiveObs_closed hh]
    have hp : (0 : ℝ) < b ^ (t + 1) := by positivity
    have : (1 - b ^ (t + 1)) / (1 + b ^ (t + 1)) < 1 := by rw [div_lt_one (by positivity)]; linarith
    calc _ < (1 + b) / (1 - b) * 1 := mul_lt_mul_of_pos_left this hc
      _ = _ := by ring
  · have hlim : Filter.Tendsto (fun t : ℕ => b ^ (t + 1)) Filter.atTop (nhds 0) :=
      (tendsto_pow_atTop_nhds_zero_of_lt_one h0.le h1).comp (Filter.tendsto_add_atTop_nat 1)
    have : Filter.Tendsto (fun t : ℕ => (1 + b) / (1 - b) * ((1 - b ^ (t + 1)) / (1 + b ^ (t + 1)))) Filter.atTop
        (nhds ((1 + b) / (1 - b) * ((1 - 0) / (1 + 0)))) :=
      ((tendsto_const_nhds.sub hlim).div (tendsto_const_nhds.add hlim) (by norm_num)).const_mul _
    have e : effectiveObs h = fun t : ℕ => (1 + b) / (1 - b) * ((1 - b ^ (t + 1)) / (1 + b ^ (t + 1))) := by
      funext t; exact effectiveObs_closed hh t
    rw [e]
    simpa using this

end CovPred

/-
Two rows of independent returns of two assets, each 1 or 2 with probability 1/2 (both assets alike).
-/
namespace CovPred.RandomEx
open MeasureTheory ProbabilityTheory XR

/-- four equally likely outcomes -/
noncomputable def P : Measure (Fin 4) := uniformOn Set.univ

instance : IsProbabilityMeasure P := by unfold P; infer_instance

/-- outcome `(a, b)` as the number `2a + b` -/
noncomputable def X (ω : Fin 4) (k : ℕ) (_i : Fin 2) : ℝ :=
  if k = 0 then (if ω.1 < 2 then 1 else 2) else (if ω.1 = 0 ∨ ω.1 = 2 then 1 else 2)

theorem real_singleton (ω : Fin 4) : P.real {ω} = 1 / 4 := by
  unfold P Measure.real uniformOn
  rw [cond_apply MeasurableSet.univ]
  simp

theorem integral_eq (f : Fin 4 → ℝ) : ∫ ω, f ω ∂P = 1 / 4 * (f 0 + f 1 + f 2 + f 3) := by
  rw [integral_fintype .of_finite, Fin.sum_univ_four]
  simp only [real_singleton, smul_eq_mul]
  ring

theorem memLp (f : Fin 4 → ℝ) : MemLp f 2 P := MemLp.of_discrete

/-- the hypotheses of `C175_unbiased`, `C175_volatility` and `C175_variance` hold, with positive variance -/
example : (∀ k < 2, ∀ i j, Integrable (fun ω => X ω k i * X ω k j) P) ∧
    (∀ k < 2, ∀ i j, ∫ ω, X ω k i * X ω k j ∂P = 5 / 2) ∧ (∀ k < 2, ∀ i, MemLp (fun ω => X ω k i) 2 P) ∧
    (∀ k < 2, ProbabilityTheory.variance (fun ω => X ω k 0 * X ω k 1) P = 9 / 4) ∧
    (∀ k < 2, ∀ l < 2, k ≠ l →
      ProbabilityTheory.covariance (fun ω => X ω k 0 * X ω k 1) (fun ω => X ω l 0 * X ω l 1) P = 0) := by
  refine ⟨fun _ _ _ _ => .of_finite, ?_, fun _ _ _ => memLp _, ?_, ?_⟩
  · intro k hk i j
    rw [integral_eq]
    interval_cases k <;> norm_num [X]
  · intro k hk
    rw [variance_eq_integral (memLp _).aemeasurable, integral_eq, integral_eq]
    interval_cases k <;> norm_num [X]
  · intro k hk l hl h
    rw [ProbabilityTheory.covariance, integral_eq, integral_eq, integral_eq]
    interval_cases k <;> interval_cases l <;> first | exact absurd rfl h | norm_num [X]

end CovPred.RandomEx
