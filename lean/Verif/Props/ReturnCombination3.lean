import Verif.Lemmas.Lasso
import Verif.Props.ReturnCombination2
import Mathlib.Topology.Order.Compact
import Mathlib.Topology.MetricSpace.ProperSpace.Real
import Mathlib.Topology.MetricSpace.ProperSpace
import Mathlib.Analysis.Normed.Group.Constructions

/-
C119: the lasso combination of return predictions (`ReturnCombinatorOld`, `ewma_return_combination`).
-/
namespace CovPred
open Matrix
set_option linter.unusedSectionVars false

variable {τ : Type} [LinearOrder τ] {K : ℕ}

/-- **C119.** The optimality conditions: `w` minimises the loss exactly if no predictor's correlation with the residual
exceeds `alpha / 2`, and a predictor with a nonzero weight has just that correlation, with the sign of its weight. -/
theorem C119_conditions (N : ℕ) (y : ℕ → ℝ) (X : ℕ → Vec K) {alpha : ℝ} (ha : 0 ≤ alpha) (w : Vec K) :
    (∀ v, lassoLoss N y X alpha w ≤ lassoLoss N y X alpha v) ↔
      ∀ k, |2 * ∑ s ∈ Finset.range N, X s k * (y s - X s ⬝ᵥ w)| ≤ alpha ∧
        (0 < w k → 2 * ∑ s ∈ Finset.range N, X s k * (y s - X s ⬝ᵥ w) = alpha) ∧
        (w k < 0 → 2 * ∑ s ∈ Finset.range N, X s k * (y s - X s ⬝ᵥ w) = -alpha) := by
  constructor
  · intro h k
    have hm : ∀ e : ℝ, lassoLoss N y X alpha w ≤ lassoLoss N y X alpha w + e ^ 2 * ∑ s ∈ Finset.range N, X s k ^ 2
        + alpha * (|w k + e| - |w k|) - (2 * ∑ s ∈ Finset.range N, X s k * (y s - X s ⬝ᵥ w)) * e := by
      intro e
      rw [← lasso_move]
      exact h _
    generalize lassoLoss N y X alpha w = L at hm
    generalize 2 * ∑ s ∈ Finset.range N, X s k * (y s - X s ⬝ᵥ w) = g at hm ⊢
    generalize ∑ s ∈ Finset.range N, X s k ^ 2 = C at hm
    have up : g ≤ alpha := by
      have := nonneg_of_small (a := alpha - g) (C := C) one_pos (fun e he _ => by
        have h1 := hm e
        have h2 : |w k + e| - |w k| ≤ e := by
          have := abs_add_le (w k) e
          rw [abs_of_pos he] at this
          linarith
        have := mul_le_mul_of_nonneg_left h2 ha
        nlinarith)
      linarith
    have lo : -alpha ≤ g := by
      have := nonneg_of_small (a := alpha + g) (C := C) one_pos (fun e he _ => by
        have h1 := hm (-e)
        have h2 : |w k + -e| - |w k| ≤ e := by
          have := abs_add_le (w k) (-e)
          rw [abs_neg, abs_of_pos he] at this
          linarith
        have := mul_le_mul_of_nonneg_left h2 ha
        nlinarith)
      linarith
    refine ⟨abs_le.2 ⟨lo, up⟩, fun hp => le_antisymm up ?_, fun hn => le_antisymm ?_ lo⟩
    · have := nonneg_of_small (a := g - alpha) (C := C) hp (fun e he hle => by
        have h1 := hm (-e)
        rw [abs_of_nonneg (by linarith : 0 ≤ w k + -e), abs_of_pos hp] at h1
        nlinarith)
      linarith
    · have := nonneg_of_small (a := -alpha - g) (C := C) (neg_pos.2 hn) (fun e he hle => by
        have h1 := hm e
        rw [abs_of_nonpos (by linarith : w k + e ≤ 0), abs_of_neg hn] at h1
        nlinarith)
      linarith
  · intro h v
    rw [lasso_expand N y X alpha w v]
    have h1 : 0 ≤ ∑ s ∈ Finset.range N, (X s ⬝ᵥ (v - w)) ^ 2 := Finset.sum_nonneg fun s _ => sq_nonneg _
    have h2 : 0 ≤ ∑ k, (alpha * (|v k| - |w k|) - (2 * ∑ s ∈ Finset.range N, X s k * (y s - X s ⬝ᵥ w)) * (v k - w k)) := by
      refine Finset.sum_nonneg fun k _ => ?_
      obtain ⟨hb, hp, hn⟩ := h k
      generalize 2 * ∑ s ∈ Finset.range N, X s k * (y s - X s ⬝ᵥ w) = g at hb hp hn ⊢
      have hv : g * v k ≤ alpha * |v k| := by
        calc g * v k ≤ |g * v k| := le_abs_self _
          _ = |g| * |v k| := abs_mul _ _
          _ ≤ alpha * |v k| := mul_le_mul_of_nonneg_right hb (abs_nonneg _)
      have hw : g * w k = alpha * |w k| := by
        rcases lt_trichotomy (w k) 0 with h0 | h0 | h0
        · rw [hn h0, abs_of_neg h0]; ring
        · rw [h0]; simp
        · rw [hp h0, abs_of_pos h0]
      nlinarith
    linarith

/-- **C119.** All weights are zero exactly if `alpha` is at least twice the largest correlation of a predictor with the
returns. -/
theorem C119_zero (N : ℕ) (y : ℕ → ℝ) (X : ℕ → Vec K) {alpha : ℝ} (ha : 0 ≤ alpha) :
    (∀ v, lassoLoss N y X alpha 0 ≤ lassoLoss N y X alpha v) ↔ ∀ k, |2 * ∑ s ∈ Finset.range N, X s k * y s| ≤ alpha := by
  rw [C119_conditions N y X ha]
  simp

/-- **C119.** With a positive `alpha` the problem has a solution, whatever the data. -/
theorem C119_exists (N : ℕ) (y : ℕ → ℝ) (X : ℕ → Vec K) {alpha : ℝ} (ha : 0 < alpha) :
    ∃ w, ∀ v, lassoLoss N y X alpha w ≤ lassoLoss N y X alpha v := by
  have hcont : Continuous (lassoLoss N y X alpha) := by
    unfold lassoLoss dotProduct
    fun_prop
  set R := lassoLoss N y X alpha 0 / alpha with hR
  have h0 : 0 ≤ lassoLoss N y X alpha 0 := by
    unfold lassoLoss
    exact add_nonneg (Finset.sum_nonneg fun s _ => sq_nonneg _)
      (mul_nonneg ha.le (Finset.sum_nonneg fun k _ => abs_nonneg _))
  obtain ⟨w, hw, hmin⟩ := (isCompact_closedBall (0 : Vec K) R).exists_isMinOn ⟨0, by
    rw [Metric.mem_closedBall, dist_self]; positivity⟩ hcont.continuousOn
  refine ⟨w, fun v => ?_⟩
  by_cases hv : v ∈ Metric.closedBall (0 : Vec K) R
  · exact hmin hv
  · have hw0 : lassoLoss N y X alpha w ≤ lassoLoss N y X alpha 0 :=
      hmin (show (0 : Vec K) ∈ _ by rw [Metric.mem_closedBall, dist_self]; positivity)
    refine hw0.trans ?_
    by_contra hcon
    push Not at hcon
    apply hv
    rw [mem_closedBall_zero_iff, pi_norm_le_iff_of_nonneg (by positivity)]
    intro k
    rw [hR, le_div_iff₀ ha, Real.norm_eq_abs]
    have : alpha * |v k| ≤ lassoLoss N y X alpha v := by
      unfold lassoLoss
      have h1 : 0 ≤ ∑ s ∈ Finset.range N, (y s - X s ⬝ᵥ v) ^ 2 := Finset.sum_nonneg fun s _ => sq_nonneg _
      have h2 : |v k| ≤ ∑ j, |v j| := Finset.single_le_sum (f := fun j => |v j|) (fun j _ => abs_nonneg _) (Finset.mem_univ k)
      have := mul_le_mul_of_nonneg_left h2 ha.le
      linarith
    linarith

/-- **C119.** Two solutions give the same fitted returns on the window and the same total absolute weight (times
`alpha`). -/
theorem C119_unique_fit (N : ℕ) (y : ℕ → ℝ) (X : ℕ → Vec K) {alpha : ℝ} (ha : 0 ≤ alpha) {w v : Vec K}
    (hw : ∀ u, lassoLoss N y X alpha w ≤ lassoLoss N y X alpha u) (hv : ∀ u, lassoLoss N y X alpha v ≤ lassoLoss N y X alpha u) :
    (∀ s < N, X s ⬝ᵥ w = X s ⬝ᵥ v) ∧ alpha * ∑ k, |w k| = alpha * ∑ k, |v k| := by
  have heq := le_antisymm (hw v) (hv w)
  -- the loss at the mid-point
  have hmid := hw ((1 / 2 : ℝ) • (w + v))
  have hsq : ∀ s, (y s - X s ⬝ᵥ ((1 / 2 : ℝ) • (w + v))) ^ 2
      = (y s - X s ⬝ᵥ w) ^ 2 / 2 + (y s - X s ⬝ᵥ v) ^ 2 / 2 - (X s ⬝ᵥ w - X s ⬝ᵥ v) ^ 2 / 4 := by
    intro s
    rw [dotProduct_smul, dotProduct_add, smul_eq_mul]
    ring
  have habs : ∑ k, |((1 / 2 : ℝ) • (w + v)) k| ≤ (∑ k, |w k|) / 2 + (∑ k, |v k|) / 2 := by
    rw [Finset.sum_div, Finset.sum_div, ← Finset.sum_add_distrib]
    refine Finset.sum_le_sum fun k _ => ?_
    rw [Pi.smul_apply, Pi.add_apply, smul_eq_mul, abs_mul, abs_of_pos (by norm_num : (0 : ℝ) < 1 / 2)]
    have := abs_add_le (w k) (v k)
    linarith
  have habs := mul_le_mul_of_nonneg_left habs ha
  have hz : ∑ s ∈ Finset.range N, (X s ⬝ᵥ w - X s ⬝ᵥ v) ^ 2 ≤ 0 := by
    unfold lassoLoss at heq hmid
    simp only [hsq, Finset.sum_add_distrib, Finset.sum_sub_distrib, ← Finset.sum_div] at hmid
    linarith
  have hz' := le_antisymm hz (Finset.sum_nonneg fun s _ => sq_nonneg _)
  rw [Finset.sum_eq_zero_iff_of_nonneg fun s _ => sq_nonneg _] at hz'
  have hfit : ∀ s < N, X s ⬝ᵥ w = X s ⬝ᵥ v := fun s hs =>
    sub_eq_zero.1 (pow_eq_zero_iff two_ne_zero |>.1 (hz' s (Finset.mem_range.2 hs)))
  refine ⟨hfit, ?_⟩
  unfold lassoLoss at heq
  have : ∑ s ∈ Finset.range N, (y s - X s ⬝ᵥ w) ^ 2 = ∑ s ∈ Finset.range N, (y s - X s ⬝ᵥ v) ^ 2 :=
    Finset.sum_congr rfl fun s hs => by rw [hfit s (Finset.mem_range.1 hs)]
  linarith

/-- **C119.** What `ReturnCombinatorOld.fit` returns with an exact solver: one prediction per row from the `memory`-th row of
the predictions on, in order; on row `t` the combination of the predictions of row `t` with weights that solve the lasso
problem of the `memory` rows before `t`. -/
theorem C119_fit {solver : LassoSolver K} (hs : LassoExact solver) {T : ℕ} {tm : ℕ → τ} (htm : Increasing T tm) {p q : ℕ}
    (hpq : p + q ≤ T) (y : ℕ → ℝ) (x : ℕ → Vec K) {memory : ℕ} (hm : 1 ≤ memory) (alpha : ℝ) {hats : Dict τ ℝ} {ws : Dict τ (Vec K)}
    (h : oldFit solver memory alpha (rowDict T tm y) (blockDict p q tm x) = .ok (hats, ws)) :
    ∃ w : ℕ → Vec K, ws = blockDict (p + memory) (q - memory) tm w ∧
      hats = blockDict (p + memory) (q - memory) tm (fun t => x t ⬝ᵥ w t) ∧
      ∀ t, p + memory ≤ t → t < p + q → ∀ v,
        lassoLoss memory (fun s => y (t - memory + s)) (fun s => x (t - memory + s)) alpha (w t) ≤
          lassoLoss memory (fun s => y (t - memory + s)) (fun s => x (t - memory + s)) alpha v := by
  obtain ⟨w, hw, rfl, rfl⟩ := (oldFit_ok_iff solver htm hpq y x hm alpha hats ws).1 h
  exact ⟨w, rfl, rfl, fun t h1 h2 => hs memory _ _ alpha (w t) (hw t (by rw [List.mem_range'_1]; omega))⟩

/-- **C119.** `ReturnCombinatorOld.fit` and `ewma_return_combination` agree on predictions that cover the returns, and fail
exactly if the solver fails on some window. -/
theorem C119_variants (solver : LassoSolver K) {T : ℕ} {tm : ℕ → τ} (htm : Increasing T tm) (y : ℕ → ℝ) (x : ℕ → Vec K) {memory : ℕ}
    (hm : 1 ≤ memory) (alpha : ℝ) :
    (∀ r, ewmaReturnCombination solver (rowDict T tm y) (rowDict T tm x) alpha memory = .ok r ↔
      oldFit solver memory alpha (rowDict T tm y) (rowDict T tm x) = .ok r) ∧
    ((∃ r, oldFit solver memory alpha (rowDict T tm y) (rowDict T tm x) = .ok r) ↔ ∀ t, memory ≤ t → t < T →
      ∃ w, solver ((List.range memory).map fun s => y (t - memory + s)) ((List.range memory).map fun s => x (t - memory + s)) alpha
        = .ok w) := by
  have hold := fun hats ws => oldFit_ok_iff solver htm (by omega : 0 + T ≤ T) y x hm alpha hats ws
  rw [blockDict_zero] at hold
  simp only [zero_add] at hold
  refine ⟨fun ⟨hats, ws⟩ => ?_, ?_⟩
  · rw [hold, ewmaReturnCombination_ok_iff solver htm y x hm alpha hats ws]
  · constructor
    · rintro ⟨⟨hats, ws⟩, h⟩ t h1 h2
      obtain ⟨w, hw, _⟩ := (hold hats ws).1 h
      exact ⟨w t, hw t (by rw [List.mem_range'_1]; omega)⟩
    · intro h
      have : ∀ t ∈ List.range' memory (T - memory), ∃ w, lassoWindow solver y x memory alpha t = .ok w := by
        intro t ht
        rw [List.mem_range'_1] at ht
        exact h t (by omega) (by omega)
      choose! w hw using this
      exact ⟨(_, _), (hold _ _).2 ⟨w, hw, rfl, rfl⟩⟩

/-- **C119.** No look-ahead: the predicted return of row `t` only depends on the returns before row `t` and the predictions
up to row `t`. -/
theorem C119_no_lookahead (solver : LassoSolver K) {T T' : ℕ} {tm : ℕ → τ} (htm : Increasing T tm) (htm' : Increasing T' tm)
    {p q q' : ℕ} (hpq : p + q ≤ T) (hpq' : p + q' ≤ T') (y y' : ℕ → ℝ) (x x' : ℕ → Vec K) {memory : ℕ} (hm : 1 ≤ memory) {alpha : ℝ}
    {hats hats' : Dict τ ℝ} {ws ws' : Dict τ (Vec K)}
    (h : oldFit solver memory alpha (rowDict T tm y) (blockDict p q tm x) = .ok (hats, ws))
    (h' : oldFit solver memory alpha (rowDict T' tm y') (blockDict p q' tm x') = .ok (hats', ws'))
    {t : ℕ} (ht : p + memory ≤ t) (h1 : t < p + q) (h2 : t < p + q') (hy : ∀ s < t, y s = y' s) (hx : ∀ s ≤ t, x s = x' s) :
    ∃ r, hats.lookup (tm t) = some r ∧ hats'.lookup (tm t) = some r := by
  obtain ⟨w, hw, rfl, rfl⟩ := (oldFit_ok_iff solver htm hpq y x hm alpha hats ws).1 h
  obtain ⟨w', hw', rfl, rfl⟩ := (oldFit_ok_iff solver htm' hpq' y' x' hm alpha hats' ws').1 h'
  refine ⟨_, lookup_block htm (by omega) _ ht (by omega), ?_⟩
  rw [lookup_block htm' (by omega) _ ht (by omega)]
  have e1 := hw t (by rw [List.mem_range'_1]; omega)
  have e2 := hw' t (by rw [List.mem_range'_1]; omega)
  have e3 : lassoWindow solver y x memory alpha t = lassoWindow solver y' x' memory alpha t := by
    unfold lassoWindow
    congr 1
    · refine List.map_congr_left fun s hs => ?_
      rw [List.mem_range] at hs
      exact hy _ (by omega)
    · refine List.map_congr_left fun s hs => ?_
      rw [List.mem_range] at hs
      exact hx _ (by omega)
  rw [e3, e2] at e1
  rw [Except.ok.inj e1, hx t le_rfl]

/-- **C119.** The predictions of `ewma_predictors` start one row later than the returns; given to `ewma_return_combination`
together with the same returns, they always make it raise `ValueError` (if there is a row to predict). -/
theorem C119_misaligned (solver : LassoSolver K) {T : ℕ} {tm : ℕ → τ} (htm : Increasing T tm) (y : ℕ → ℝ) (x : ℕ → Vec K) {memory : ℕ}
    (hm : 1 ≤ memory) (hT : memory < T) (alpha : ℝ) :
    ewmaReturnCombination solver (rowDict T tm y) (blockDict 1 (T - 1) tm x) alpha memory = .error .valueError := by
  have htimes : (rowDict T tm y).map Prod.fst = (List.range' 0 T).map tm := by
    unfold rowDict; rw [List.map_map, List.range_eq_range']; rfl
  unfold ewmaReturnCombination
  rw [htimes]
  dsimp only
  rw [List.length_map, List.length_range']
  obtain ⟨m, hmT⟩ : ∃ m, T - memory = m + 1 := ⟨T - memory - 1, by omega⟩
  rw [hmT, List.range'_succ, List.mapM_cons]
  have : lassoRow solver alpha (rowDict T tm y) (blockDict 1 (T - 1) tm x) memory ((List.range' 0 T).map tm) memory
      = .error .valueError := by
    unfold lassoRow
    rw [times_get 0 T tm (by omega), times_get 0 T tm (by omega)]
    simp only [bind, Except.bind]
    rw [← blockDict_zero, locRange_block htm (by omega : 0 + T ≤ T) y (by omega) (by omega) (by omega) (by omega), if_neg, if_pos]
    · have hsub : locRange (blockDict 1 (T - 1) tm x) (tm (0 + (memory - memory))) (tm (0 + (memory - 1)))
          = blockDict 1 (memory - 1) tm x := by
        by_cases h1 : memory = 1
        · subst h1
          unfold locRange blockDict
          simp only [Nat.sub_self, List.range'_zero, List.map_nil, zero_add]
          rw [List.filter_eq_nil_iff]
          intro r hr
          obtain ⟨s, hs, rfl⟩ := List.mem_map.1 hr
          rw [List.mem_range'_1] at hs
          simp only [decide_eq_true_eq, not_and, not_le]
          intro _
          exact htm 0 s (by omega) (by omega)
        · have e : locRange (blockDict 1 (T - 1) tm x) (tm (0 + (memory - memory))) (tm (0 + (memory - 1)))
              = locRange (blockDict 1 (T - 1) tm x) (tm 1) (tm (memory - 1)) := by
            unfold locRange
            refine List.filter_congr fun r hr => ?_
            unfold blockDict at hr
            obtain ⟨s, hs, rfl⟩ := List.mem_map.1 hr
            rw [List.mem_range'_1] at hs
            have h0 : tm 0 ≤ tm s := (htm 0 s (by omega) (by omega)).le
            have h1' : tm 1 ≤ tm s := by
              rcases Nat.eq_or_lt_of_le hs.1 with h | h
              · rw [h]
              · exact (htm 1 s h (by omega)).le
            simp [h0, h1']
          rw [e, locRange_block htm (by omega : 1 + (T - 1) ≤ T) x le_rfl (by omega) (by omega) (by omega)]
          congr 1
      rw [hsub]
      simp [blockDict]
      omega
    · simp [blockDict]
      omega
  rw [this]
  rfl

end CovPred
