import Verif.Lemmas.ReturnCombination

/-
pandas' recursion for the exponentially weighted standard deviation computes the direct formula.
-/
namespace CovPred
set_option linter.unusedSectionVars false

/-- the total weight after `t + 1` values -/
noncomputable def wt (b : ℝ) (t : ℕ) : ℝ := ∑ u ∈ Finset.range (t + 1), b ^ (t - u)

theorem wt_succ (b : ℝ) (t : ℕ) : wt b (t + 1) = wt b t * b + 1 := by
  have := emaNum_succ b (fun _ => 1) t
  simp only [mul_one] at this
  unfold wt
  rw [this]
  ring

theorem wt_pos {b : ℝ} (hb : 0 < b) (t : ℕ) : 0 < wt b t := emaAvg_den_pos hb t

/-- the biased variance -/
noncomputable def bvar (b : ℝ) (x : ℕ → ℝ) (t : ℕ) : ℝ :=
  (∑ u ∈ Finset.range (t + 1), b ^ (t - u) * (x u - emaAvg b x t) ^ 2) / wt b t

theorem emaAvg_wt {b : ℝ} (hb : 0 < b) (x : ℕ → ℝ) (t : ℕ) :
    emaAvg b x t * wt b t = ∑ u ∈ Finset.range (t + 1), b ^ (t - u) * x u := by
  unfold emaAvg
  exact div_mul_cancel₀ _ (wt_pos hb t).ne'

/-- the second moment -/
theorem bvar_mul {b : ℝ} (hb : 0 < b) (x : ℕ → ℝ) (t : ℕ) :
    bvar b x t * wt b t = ∑ u ∈ Finset.range (t + 1), b ^ (t - u) * x u ^ 2 - wt b t * emaAvg b x t ^ 2 := by
  unfold bvar
  rw [div_mul_cancel₀ _ (wt_pos hb t).ne']
  have e : ∀ u, b ^ (t - u) * (x u - emaAvg b x t) ^ 2
      = b ^ (t - u) * x u ^ 2 - 2 * emaAvg b x t * (b ^ (t - u) * x u) + emaAvg b x t ^ 2 * b ^ (t - u) := fun u => by ring
  simp only [e, Finset.sum_add_distrib, Finset.sum_sub_distrib, ← Finset.mul_sum]
  rw [← emaAvg_wt hb x t]
  change _ - _ + _ * wt b t = _
  ring

theorem emaAvg_next {b : ℝ} (hb : 0 < b) (x : ℕ → ℝ) (t : ℕ) :
    emaAvg b x (t + 1) = (wt b t * b * emaAvg b x t + x (t + 1)) / (wt b t * b + 1) := by
  have h1 := emaAvg_wt hb x (t + 1)
  rw [emaNum_succ, ← emaAvg_wt hb x t, wt_succ] at h1
  have := wt_pos hb t
  rw [eq_div_iff (by positivity), h1]
  ring

theorem bvar_step {b : ℝ} (hb : 0 < b) (x : ℕ → ℝ) (t : ℕ) :
    bvar b x (t + 1) = (wt b t * b * (bvar b x t + (emaAvg b x t - emaAvg b x (t + 1)) * (emaAvg b x t - emaAvg b x (t + 1)))
      + (x (t + 1) - emaAvg b x (t + 1)) * (x (t + 1) - emaAvg b x (t + 1))) / (wt b t * b + 1) := by
  have h1 := bvar_mul hb x (t + 1)
  have h0 := bvar_mul hb x t
  rw [emaNum_succ b (fun u => x u ^ 2) t] at h1
  have hs : ∑ u ∈ Finset.range (t + 1), b ^ (t - u) * x u ^ 2 = bvar b x t * wt b t + wt b t * emaAvg b x t ^ 2 := by linarith
  rw [hs, wt_succ] at h1
  have hw := wt_pos hb t
  have hm : emaAvg b x (t + 1) * (wt b t * b + 1) = wt b t * b * emaAvg b x t + x (t + 1) := by
    rw [emaAvg_next hb]
    exact div_mul_cancel₀ _ (by positivity)
  rw [eq_div_iff (by positivity), h1]
  generalize emaAvg b x (t + 1) = m' at hm ⊢
  generalize emaAvg b x t = m at hm ⊢
  have hx : x (t + 1) = m' * (wt b t * b + 1) - wt b t * b * m := by linarith
  rw [hx]
  ring

/-- the total squared weight -/
noncomputable def wt2 (b : ℝ) (t : ℕ) : ℝ := ∑ u ∈ Finset.range (t + 1), (b ^ (t - u)) ^ 2

theorem wt2_succ (b : ℝ) (t : ℕ) : wt2 b (t + 1) = wt2 b t * (b * b) + 1 := by
  have := wt_succ (b ^ 2) t
  unfold wt at this
  unfold wt2
  simp only [← pow_mul, Nat.mul_comm _ 2] at this ⊢
  rw [this]
  ring

theorem wt_sq_gt {b : ℝ} (hb : 0 < b) (t : ℕ) : wt2 b (t + 1) < wt b (t + 1) * wt b (t + 1) := by
  have h : ∀ t, wt2 b t ≤ wt b t * wt b t := by
    intro t
    induction t with
    | zero => simp [wt2, wt]
    | succ t ih =>
      rw [wt2_succ, wt_succ]
      have := wt_pos hb t
      have h2 := mul_le_mul_of_nonneg_right ih (by positivity : 0 ≤ b * b)
      have h3 : 0 < wt b t * b := by positivity
      nlinarith
  rw [wt2_succ, wt_succ]
  have := wt_pos hb t
  have h2 := mul_le_mul_of_nonneg_right (h t) (by positivity : 0 ≤ b * b)
  have h3 : 0 < wt b t * b := by positivity
  nlinarith

/-- the unbiased variance -/
noncomputable def uvar (b : ℝ) (x : ℕ → ℝ) (t : ℕ) : ℝ := wt b t * wt b t / (wt b t * wt b t - wt2 b t) * bvar b x t

theorem ewmVarLoop_spec {b : ℝ} (hb : 0 < b) (x : ℕ → ℝ) (m t : ℕ) :
    ewmVarLoop b (emaAvg b x t) (bvar b x t) (wt b t) (wt2 b t) (wt b t) ((List.range' (t + 1) m).map x)
      = (List.range' (t + 1) m).map fun s => some (uvar b x s) := by
  induction m generalizing t with
  | zero => rfl
  | succ m ih =>
    rw [List.range'_succ, List.map_cons, List.map_cons]
    unfold ewmVarLoop
    dsimp only
    have hw := wt_pos hb t
    have hmean : (if emaAvg b x t ≠ x (t + 1) then (wt b t * b * emaAvg b x t + x (t + 1)) / (wt b t * b + 1) else emaAvg b x t)
        = emaAvg b x (t + 1) := by
      rw [emaAvg_next hb]
      split
      · rfl
      · rename_i h
        push Not at h
        rw [← h]
        field_simp
    rw [hmean, ← bvar_step hb x t, ← wt_succ, ← wt2_succ, ih (t + 1), if_pos (by linarith [wt_sq_gt hb t])]
    rfl

theorem halflifeVariance_eq (h : ℝ) (x : ℕ → ℝ) (t : ℕ) : halflifeVariance h x t = uvar (betaOf h) x t := by
  have hb := betaOf_pos h
  have hw := wt_pos hb t
  unfold halflifeVariance uvar bvar
  rw [halflifeAverage_eq]
  simp only [← betaOf_pow]
  change _ / (wt (betaOf h) t - wt2 (betaOf h) t / wt (betaOf h) t) = _
  by_cases hz : wt (betaOf h) t * wt (betaOf h) t - wt2 (betaOf h) t = 0
  · have : wt (betaOf h) t - wt2 (betaOf h) t / wt (betaOf h) t = 0 := by
      field_simp
      linarith
    rw [this, hz]
    simp
  · have : wt (betaOf h) t - wt2 (betaOf h) t / wt (betaOf h) t = (wt (betaOf h) t * wt (betaOf h) t - wt2 (betaOf h) t) / wt (betaOf h) t := by
      field_simp
    rw [this]
    field_simp

theorem pandasEwmStd_spec (h : ℝ) (x : ℕ → ℝ) (N : ℕ) :
    pandasEwmStd h ((List.range N).map x) = (List.range N).map fun t => if t = 0 then none else some (Real.sqrt (halflifeVariance h x t)) := by
  cases N with
  | zero => rfl
  | succ N =>
    rw [List.range_eq_range', List.range'_succ, List.map_cons, List.map_cons]
    simp only [pandasEwmStd, zero_add]
    have hb : 1 - (1 - Real.exp (-Real.log 2 / h)) = betaOf h := by
      unfold betaOf
      ring_nf
    have h0 : emaAvg (betaOf h) x 0 = x 0 := by unfold emaAvg; simp
    have h1 : bvar (betaOf h) x 0 = 0 := by unfold bvar; simp [h0]
    have h2 : wt (betaOf h) 0 = 1 := by simp [wt]
    have h3 : wt2 (betaOf h) 0 = 1 := by simp [wt2]
    have := ewmVarLoop_spec (betaOf_pos h) x N 0
    rw [h0, h1, h2, h3, zero_add] at this
    rw [hb, this, List.map_map]
    congr 1
    refine List.map_congr_left fun t ht => ?_
    rw [List.mem_range'_1] at ht
    rw [if_neg (by omega), halflifeVariance_eq]
    rfl

end CovPred
