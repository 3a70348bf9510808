import Verif.Model.Trading
import Mathlib.Algebra.BigOperators.Field
import Mathlib.Tactic.Linarith
import Mathlib.Tactic.Positivity

/-
What the limits of the portfolio problems (trading_model.py) mean: property C94.
-/
set_option linter.unusedSectionVars false
namespace CovPred
open Matrix

variable {n : ℕ}

/-- **C94.** The portfolios a `min_risk` backtest may choose are fully invested, keep every position within the bounds,
and, with `short_lim` `s`, hold at most `(s - 1) / 2` short and `(s + 1) / 2` long in total; conversely every such
portfolio is allowed. -/
theorem C94_min_risk (s u l : ℝ) (w : Vec n) :
    minRiskCons { shortLim := some s, upperBound := some u, lowerBound := some l } w ↔
      ∑ i, w i = 1 ∧ ∑ i, max (-w i) 0 ≤ (s - 1) / 2 ∧ ∑ i, max (w i) 0 ≤ (s + 1) / 2 ∧ ∀ i, l ≤ w i ∧ w i ≤ u := by
  have h1 : ∑ i, |w i| = ∑ i, max (w i) 0 + ∑ i, max (-w i) 0 := by
    rw [← Finset.sum_add_distrib]
    refine Finset.sum_congr rfl fun i _ => ?_
    rcases le_total 0 (w i) with h | h
    · rw [abs_of_nonneg h, max_eq_left h, max_eq_right (by linarith), add_zero]
    · rw [abs_of_nonpos h, max_eq_right h, max_eq_left (by linarith), zero_add]
  have h2 : ∑ i, w i = ∑ i, max (w i) 0 - ∑ i, max (-w i) 0 := by
    rw [← Finset.sum_sub_distrib]
    refine Finset.sum_congr rfl fun i _ => ?_
    rcases le_total 0 (w i) with h | h
    · rw [max_eq_left h, max_eq_right (by linarith), sub_zero]
    · rw [max_eq_right h, max_eq_left (by linarith)]; ring
  unfold minRiskCons
  constructor
  · rintro ⟨a, b, c, d⟩
    have b := b s rfl
    exact ⟨a, by linarith, by linarith, fun i => ⟨d l rfl i, c u rfl i⟩⟩
  · rintro ⟨a, b, c, d⟩
    refine ⟨a, fun s' hs => ?_, fun u' hu i => ?_, fun l' hl i => ?_⟩
    · cases hs; linarith
    · cases hu; exact (d i).2
    · cases hl; exact (d i).1

/-- **C94.** With the standard bounds there is such a portfolio exactly if there are at least seven assets. -/
theorem C94_min_risk_feasible : (∃ w : Vec n, minRiskCons {} w) ↔ 7 ≤ n := by
  constructor
  · rintro ⟨w, h1, _, h3, _⟩
    by_contra hn
    have : ∑ i, w i ≤ ∑ _i : Fin n, (15 / 100 : ℝ) := Finset.sum_le_sum fun i _ => h3 _ rfl i
    rw [h1, Finset.sum_const, Finset.card_univ, Fintype.card_fin, nsmul_eq_mul] at this
    have hm' : (n : ℝ) ≤ 6 := by exact_mod_cast (by omega : n ≤ 6)
    linarith
  · intro hn
    have hn' : (7 : ℝ) ≤ n := by exact_mod_cast hn
    have hpos : (0 : ℝ) < n := by linarith
    have hsum : ∑ _i : Fin n, (1 / (n : ℝ)) = 1 := by
      rw [Finset.sum_const, Finset.card_univ, Fintype.card_fin, nsmul_eq_mul, mul_one_div_cancel hpos.ne']
    refine ⟨fun _ => 1 / (n : ℝ), hsum, fun s hs => ?_, fun u hu i => ?_, fun l hl i => ?_⟩
    · cases hs
      have : ∀ i : Fin n, |(fun _ : Fin n => 1 / (n : ℝ)) i| = 1 / (n : ℝ) := fun i => abs_of_pos (by positivity)
      rw [Finset.sum_congr rfl fun i _ => this i, hsum]; norm_num
    · cases hu
      change 1 / (n : ℝ) ≤ 15 / 100
      rw [div_le_div_iff₀ hpos (by norm_num)]; linarith
    · cases hl
      have : 0 < 1 / (n : ℝ) := by positivity
      change -10 / 100 ≤ 1 / (n : ℝ)
      linarith

/-- **C94.** In a `mean_variance` backtest cash is what the positions leave, so with `short_lim` `s` it lies between
`1 - s` and `1 + s`, and holding only cash is always allowed (for non-negative limits and targets). -/
theorem C94_mean_variance (s u l adjustFactor sigmaDes : ℝ) (LInv : Mat n) :
    (∀ w c, meanVarianceCons { shortLim := some s, upperBound := some u, lowerBound := some l } adjustFactor sigmaDes LInv w c →
      c = 1 - ∑ i, w i ∧ 1 - s ≤ c ∧ c ≤ 1 + s ∧ ∀ i, l ≤ w i ∧ w i ≤ u) ∧
    (0 ≤ s → 0 ≤ u → l ≤ 0 → 0 ≤ sigmaDes * adjustFactor →
      meanVarianceCons { shortLim := some s, upperBound := some u, lowerBound := some l } adjustFactor sigmaDes LInv 0 1) := by
  refine ⟨fun w c h => ?_, fun hs hu hl ha => ?_⟩
  · obtain ⟨h1, _, h3, h4, h5⟩ := h
    have h3 := h3 s rfl
    have h6 : |∑ i, w i| ≤ s := (Finset.abs_sum_le_sum_abs _ _).trans h3
    rw [abs_le] at h6
    exact ⟨by linarith, by linarith, by linarith, fun i => ⟨h5 l rfl i, h4 u rfl i⟩⟩
  · refine ⟨by simp, ?_, fun s' h => ?_, fun u' h i => ?_, fun l' h i => ?_⟩
    · have h0 : riskExpr LInv (0 : Vec n) = 0 := by simp [riskExpr]
      rw [h0]
      positivity
    · cases h; simpa using hs
    · cases h; simpa using hu
    · cases h; simpa using hl

end CovPred
