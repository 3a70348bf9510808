import Verif.Props.Portfolio2

/-
Properties C84-C87, continued: uniqueness of risk parity, the constructor, and robust objectives (trading_model.py).
-/
namespace CovPred
open Matrix
set_option linter.unusedSectionVars false

variable {n : ℕ} {τ : Type} [DecidableEq τ]

/-- **C84.** The risk parity problem has at most one solution. -/
theorem C84_unique {S L : Mat n} (hn : 0 < n) (hS : S.PosDef) (hL : getLInv S = .ok L) (w v : Vec n)
    (hw : ParityOptimal L w) (hv : ParityOptimal L v) : v = w := by
  obtain ⟨hw0, hwc⟩ := (C84_optimal_iff hn hS hL w).1 hw
  obtain ⟨hv0, hvc⟩ := (C84_optimal_iff hn hS hL v).1 hv
  have hn' : (0 : ℝ) < n := by exact_mod_cast hn
  have hsym : Sᵀ = S := by
    have := hS.isHermitian
    rwa [Matrix.IsHermitian, Matrix.conjTranspose_eq_transpose_of_trivial] at this
  have htot : ∀ u : Vec n, (∀ i, u i * (S *ᵥ u) i = 4 / n) → u ⬝ᵥ (S *ᵥ u) = 4 := by
    intro u hu
    rw [dotProduct, Finset.sum_congr rfl fun i _ => hu i, Finset.sum_const, Finset.card_univ, Fintype.card_fin, nsmul_eq_mul]
    field_simp
  have hdiff : 0 ≤ (v - w) ⬝ᵥ (S *ᵥ (v - w)) := by simpa using hS.posSemidef.dotProduct_mulVec_nonneg (v - w)
  have hs1 : w ⬝ᵥ (S *ᵥ v) = v ⬝ᵥ (S *ᵥ w) := by
    rw [Matrix.dotProduct_mulVec, ← Matrix.mulVec_transpose, hsym, dotProduct_comm]
  rw [Matrix.mulVec_sub, dotProduct_sub, sub_dotProduct, sub_dotProduct, htot v hvc, htot w hwc, hs1] at hdiff
  have e1 : v ⬝ᵥ (S *ᵥ w) = 4 / n * ∑ i, v i / w i := by
    rw [dotProduct, Finset.mul_sum]
    refine Finset.sum_congr rfl fun i _ => ?_
    have : (S *ᵥ w) i = 4 / n / w i := by rw [eq_div_iff (hw0 i).ne', mul_comm]; exact hwc i
    rw [this]; ring
  have e2 : v ⬝ᵥ (S *ᵥ w) = 4 / n * ∑ i, w i / v i := by
    rw [← hs1, dotProduct, Finset.mul_sum]
    refine Finset.sum_congr rfl fun i _ => ?_
    have : (S *ᵥ v) i = 4 / n / v i := by rw [eq_div_iff (hv0 i).ne', mul_comm]; exact hvc i
    rw [this]; ring
  have hsum : ∑ i, (v i / w i + w i / v i - 2) ≤ 0 := by
    rw [Finset.sum_sub_distrib, Finset.sum_add_distrib, Finset.sum_const, Finset.card_univ, Fintype.card_fin, nsmul_eq_mul]
    have h1 : ∑ i, v i / w i ≤ n := by
      have : 4 / (n : ℝ) * ∑ i, v i / w i ≤ 4 := by rw [← e1]; linarith
      rw [div_mul_eq_mul_div, div_le_iff₀ hn'] at this
      linarith
    have h2 : ∑ i, w i / v i ≤ n := by
      have : 4 / (n : ℝ) * ∑ i, w i / v i ≤ 4 := by rw [← e2]; linarith
      rw [div_mul_eq_mul_div, div_le_iff₀ hn'] at this
      linarith
    linarith
  have hterm : ∀ i, v i / w i + w i / v i - 2 = (v i - w i) ^ 2 / (v i * w i) := by
    intro i
    have := (hv0 i).ne'
    have := (hw0 i).ne'
    field_simp
    ring
  have hnn : ∀ i ∈ Finset.univ, 0 ≤ v i / w i + w i / v i - 2 := by
    intro i _
    rw [hterm i]
    exact div_nonneg (sq_nonneg _) (mul_pos (hv0 i) (hw0 i)).le
  have hz := (Finset.sum_eq_zero_iff_of_nonneg hnn).1 (le_antisymm hsum (Finset.sum_nonneg hnn))
  funext i
  have := hz i (Finset.mem_univ i)
  rw [hterm i, div_eq_zero_iff] at this
  rcases this with h | h
  · exact sub_eq_zero.1 (pow_eq_zero_iff (two_ne_zero) |>.1 h)
  · exact absurd h (mul_pos (hv0 i) (hw0 i)).ne'

/-- Two uncorrelated assets: the solution exists. -/
example : ∃ L, getLInv (1 : Mat 2) = .ok L ∧ ParityOptimal L (fun _ => Real.sqrt 2) := by
  obtain ⟨L, hL, _⟩ := C56_whitener (Matrix.PosDef.one (n := Fin 2) (R := ℝ))
  refine ⟨L, hL, (C84_optimal_iff (by norm_num) Matrix.PosDef.one hL _).2 ⟨fun _ => by positivity, fun i => ?_⟩⟩
  rw [Matrix.one_mulVec]
  rw [Real.mul_self_sqrt (by norm_num)]
  norm_num

/-- Two uncorrelated assets: the even weights solve the problem of `max_diverse`. -/
example : ∃ L, getLInv (1 : Mat 2) = .ok L ∧ DiverseOptimal L 1 (fun i => Real.sqrt ((1 : Mat 2) i i)) (fun _ => 1 / 2) := by
  obtain ⟨L, hL, hr⟩ := C56_whitener (Matrix.PosDef.one (n := Fin 2) (R := ℝ))
  refine ⟨L, hL, ⟨fun i => by norm_num, fun i => by norm_num, by simp⟩, ?_⟩
  rintro z ⟨h0, h1, h2⟩
  rw [hr, hr]
  unfold predictedStd
  apply Real.sqrt_le_sqrt
  simp only [Matrix.one_mulVec, dotProduct, Fin.sum_univ_two, Matrix.one_apply_eq, Real.sqrt_one, one_mul] at h2 ⊢
  nlinarith [sq_nonneg (z 0 - z 1)]

/-! ### C85: the constructor -/

private theorem mapM_whiten (sigmas : List (τ × Mat n)) (h : ∀ p ∈ sigmas, p.2.PosDef) :
    ∃ Ls, sigmas.mapM (fun p => (do
      let L ← getLInv p.2
      pure (p.1, L) : Except Err (τ × Mat n))) = .ok Ls ∧
      List.Forall₂ (fun p q => q.1 = p.1 ∧ ∀ w, riskExpr q.2 w = predictedStd p.2 w) sigmas Ls := by
  induction sigmas with
  | nil => exact ⟨[], rfl, List.Forall₂.nil⟩
  | cons p sigmas ih =>
    obtain ⟨Ls, h1, h2⟩ := ih fun q hq => h q (List.mem_cons_of_mem _ hq)
    obtain ⟨L, hL, hr⟩ := C56_whitener (h p (by simp))
    refine ⟨(p.1, L) :: Ls, ?_, List.Forall₂.cons ⟨rfl, hr⟩ h2⟩
    rw [List.mapM_cons, hL, h1]
    rfl

/-- **C85.** With positive definite covariances under the labels of the returns (and expected returns, if any, under the
same labels) the constructor succeeds and has a whitener for every date in order, which measures that date's predicted
risk. -/
theorem C85_ok (labels : List τ) (sigmas : List (τ × Mat n)) (rHats : Option (List τ)) (hl : labels = sigmas.map Prod.fst)
    (hr : rHats = none ∨ rHats = some labels) (hpd : ∀ p ∈ sigmas, p.2.PosDef) :
    ∃ Ls, traderInit labels sigmas rHats = .ok Ls ∧
      List.Forall₂ (fun p q => q.1 = p.1 ∧ ∀ w, riskExpr q.2 w = predictedStd p.2 w) sigmas Ls := by
  obtain ⟨Ls, h1, h2⟩ := mapM_whiten sigmas hpd
  refine ⟨Ls, ?_, h2⟩
  unfold traderInit
  rw [if_neg (not_not.2 hl), if_neg, if_neg (by simp)]
  · exact h1
  · rintro ⟨ha, hb⟩
    rcases hr with h | h
    · rw [h] at ha; cases ha
    · exact hb h

/-- **C85.** Other labels, also in another order, are refused. -/
theorem C85_labels (labels : List τ) (sigmas : List (τ × Mat n)) (rHats : Option (List τ)) (b : Bool)
    (h : labels ≠ sigmas.map Prod.fst ∨ ∃ l, rHats = some l ∧ l ≠ labels) :
    traderInit labels sigmas rHats b = .error .assertionError := by
  unfold traderInit
  by_cases h1 : labels ≠ sigmas.map Prod.fst
  · rw [if_pos h1]
  · rw [if_neg h1]
    obtain ⟨l, hl, hne⟩ := h.resolve_left h1
    rw [if_pos]
    rw [hl]
    exact ⟨rfl, fun hc => hne (Option.some.inj hc)⟩

/-- **C85.** The argument `rhos` can never be used: every call with it fails. -/
theorem C85_rhos (labels : List τ) (sigmas : List (τ × Mat n)) (rHats : Option (List τ)) :
    ∃ e, traderInit labels sigmas rHats true = .error e := by
  unfold traderInit
  by_cases h1 : labels ≠ sigmas.map Prod.fst
  · rw [if_pos h1]; exact ⟨_, rfl⟩
  · by_cases h2 : rHats.isSome ∧ rHats ≠ some labels
    · rw [if_neg h1, if_pos h2]; exact ⟨_, rfl⟩
    · rw [if_neg h1, if_neg h2, if_pos rfl]; exact ⟨_, rfl⟩

/-! ### C86: `mean_variance` with uncertain expected returns -/

/-- **C86.** The objective with `rhos` is the worst expected return of the weights over all expected returns that differ
by at most `rho_i` in asset `i`; cash earns nothing. -/
theorem C86_worst_case (rHat rho w : Vec n) (hrho : ∀ i, 0 ≤ rho i) (c : ℝ) :
    IsLeast {x | ∃ r : Vec n, (∀ i, |r i - rHat i| ≤ rho i) ∧ x = ∑ i, r i * w i} (meanVarianceRet rHat (some rho) w c) := by
  have e : meanVarianceRet rHat (some rho) w c = ∑ i, (rHat i * w i - rho i * |w i|) := by
    unfold meanVarianceRet
    rw [Finset.sum_sub_distrib]
    ring
  rw [e]
  constructor
  · refine ⟨fun i => rHat i - rho i * SignType.sign (w i), fun i => ?_, ?_⟩
    · rw [sub_sub_cancel_left, abs_neg, abs_mul, abs_of_nonneg (hrho i)]
      have : |((SignType.sign (w i) : SignType) : ℝ)| ≤ 1 := by
        rcases lt_trichotomy (w i) 0 with h | h | h
        · simp [sign_neg h]
        · simp [h]
        · simp [sign_pos h]
      calc rho i * |((SignType.sign (w i) : SignType) : ℝ)| ≤ rho i * 1 := mul_le_mul_of_nonneg_left this (hrho i)
        _ = rho i := mul_one _
    · refine Finset.sum_congr rfl fun i _ => ?_
      rw [sub_mul, mul_assoc, sign_mul_self]
  · rintro x ⟨r, hr, rfl⟩
    refine Finset.sum_le_sum fun i _ => ?_
    have h1 : |(r i - rHat i) * w i| ≤ rho i * |w i| := by
      rw [abs_mul]
      exact mul_le_mul_of_nonneg_right (hr i) (abs_nonneg _)
    have h2 := neg_abs_le ((r i - rHat i) * w i)
    rw [sub_mul] at h2 h1
    linarith

/-- **C86.** Feasible weights have predicted annual volatility at most `sigma_des * adjust_factor`. -/
theorem C86_risk_limit {S L : Mat n} (hS : S.PosDef) (hL : getLInv S = .ok L) (a : ExtraCons) (adj sigmaDes : ℝ) (w : Vec n)
    (c : ℝ) (h : meanVarianceCons a adj sigmaDes L w c) :
    Real.sqrt 252 * predictedStd S w ≤ sigmaDes * adj ∧ ∑ i, w i + c = 1 := by
  obtain ⟨L', hL', hr⟩ := C56_whitener hS
  rw [hL] at hL'
  cases hL'
  obtain ⟨h1, h2, _⟩ := h
  rw [hr, le_div_iff₀ (by positivity)] at h2
  exact ⟨by linarith, h1⟩

/-- Holding only cash is feasible under the standard constraints. -/
example (L : Mat 2) : meanVarianceCons {} 1 (1 / 10) L 0 1 := by
  refine ⟨by simp, ?_, ?_, ?_, ?_⟩
  · unfold riskExpr
    simp only [Pi.zero_apply, mul_zero, Finset.sum_const_zero]
    norm_num
    positivity
  · intro s hs; cases hs; norm_num
  · intro s hs i; cases hs; norm_num
  · intro s hs i; cases hs; norm_num

/-! ### C87: `robust_min_risk` -/

/-- **C87.** The worst variance over all covariances whose entries differ by at most `kappa * sigma_i * sigma_j` is the
variance plus `kappa` times the square of the weighted volatilities, the second term of the objective of
`robust_min_risk`. -/
theorem C87_worst_variance (S : Mat n) (sigma w : Vec n) (hs : ∀ i, 0 ≤ sigma i) {kappa : ℝ} (hk : 0 ≤ kappa) :
    IsGreatest {x | ∃ D : Mat n, (∀ i j, |D i j| ≤ kappa * (sigma i * sigma j)) ∧ x = w ⬝ᵥ ((S + D) *ᵥ w)}
      (w ⬝ᵥ (S *ᵥ w) + kappa * (∑ i, sigma i * |w i|) ^ 2) := by
  have hquad : ∀ D : Mat n, w ⬝ᵥ (D *ᵥ w) = ∑ i, ∑ j, w i * (D i j * w j) := by
    intro D
    simp only [dotProduct, Matrix.mulVec, Finset.mul_sum]
  have hsq : kappa * (∑ i, sigma i * |w i|) ^ 2 = ∑ i, ∑ j, kappa * (sigma i * sigma j) * (|w i| * |w j|) := by
    rw [sq, Finset.sum_mul_sum, Finset.mul_sum]
    refine Finset.sum_congr rfl fun i _ => ?_
    rw [Finset.mul_sum]
    exact Finset.sum_congr rfl fun j _ => by ring
  constructor
  · refine ⟨Matrix.of fun i j => kappa * (sigma i * sigma j) * (SignType.sign (w i) * SignType.sign (w j)), fun i j => ?_, ?_⟩
    · have hsg : ∀ x : ℝ, |((SignType.sign x : SignType) : ℝ)| ≤ 1 := by
        intro x
        rcases lt_trichotomy x 0 with h | h | h
        · simp [sign_neg h]
        · simp [h]
        · simp [sign_pos h]
      have h0 : 0 ≤ kappa * (sigma i * sigma j) := mul_nonneg hk (mul_nonneg (hs i) (hs j))
      rw [Matrix.of_apply, abs_mul, abs_of_nonneg h0, abs_mul]
      calc _ ≤ kappa * (sigma i * sigma j) * (1 * 1) :=
            mul_le_mul_of_nonneg_left (mul_le_mul (hsg _) (hsg _) (abs_nonneg _) zero_le_one) h0
        _ = _ := by ring
    · rw [Matrix.add_mulVec, dotProduct_add, hquad (Matrix.of _), hsq]
      congr 1
      refine Finset.sum_congr rfl fun i _ => Finset.sum_congr rfl fun j _ => ?_
      rw [Matrix.of_apply, ← self_mul_sign (w i), ← self_mul_sign (w j)]
      ring
  · rintro x ⟨D, hD, rfl⟩
    rw [Matrix.add_mulVec, dotProduct_add, hquad D, hsq]
    refine add_le_add_right (Finset.sum_le_sum fun i _ => Finset.sum_le_sum fun j _ => ?_) _
    calc w i * (D i j * w j) ≤ |w i * (D i j * w j)| := le_abs_self _
      _ = |D i j| * (|w i| * |w j|) := by rw [abs_mul, abs_mul]; ring
      _ ≤ _ := mul_le_mul_of_nonneg_right (hD i j) (mul_nonneg (abs_nonneg _) (abs_nonneg _))

/-- **C87.** But the objective adds that term to the standard deviation instead of the variance, and so does not order
portfolios by their worst variance: there are a positive definite covariance and two fully invested portfolios of which
the one with the smaller objective has the larger worst variance. -/
theorem C87_not_worst_case : ∃ (S L : Mat 2) (kappa : ℝ) (w v : Vec 2), S.PosDef ∧ getLInv S = .ok L ∧ 0 < kappa ∧
    ∑ i, w i = 1 ∧ ∑ i, v i = 1 ∧
    robustRisk kappa ⟨L, fun i => Real.sqrt (S i i)⟩ w < robustRisk kappa ⟨L, fun i => Real.sqrt (S i i)⟩ v ∧
    v ⬝ᵥ (S *ᵥ v) + kappa * (∑ i, Real.sqrt (S i i) * |v i|) ^ 2
      < w ⬝ᵥ (S *ᵥ w) + kappa * (∑ i, Real.sqrt (S i i) * |w i|) ^ 2 := by
  have hS : (!![4, 31 / 4; 31 / 4, 16] : Mat 2).PosDef := by
    apply Matrix.PosDef.of_dotProduct_mulVec_pos
    · ext i j
      fin_cases i <;> fin_cases j <;> simp
    · intro x hx
      have hx' : x 0 ≠ 0 ∨ x 1 ≠ 0 := by
        by_contra h
        push Not at h
        apply hx
        funext i
        fin_cases i
        · exact h.1
        · exact h.2
      have e : star x ⬝ᵥ ((!![4, 31 / 4; 31 / 4, 16] : Mat 2) *ᵥ x) = (2 * x 0 + 31 / 8 * x 1) ^ 2 + (16 - 961 / 64) * x 1 ^ 2 := by
        simp [Matrix.mulVec, dotProduct, Fin.sum_univ_two]
        ring
      rw [e]
      rcases eq_or_ne (x 1) 0 with h1 | h1
      · have h0 := hx'.resolve_right (not_not.2 h1)
        rw [h1]
        have := pow_pos (abs_pos.2 h0) 2
        rw [sq_abs] at this
        nlinarith
      · have := pow_pos (abs_pos.2 h1) 2
        rw [sq_abs] at this
        nlinarith [sq_nonneg (2 * x 0 + 31 / 8 * x 1)]
  obtain ⟨L, hL, hr⟩ := C56_whitener hS
  have s4 : Real.sqrt 4 = 2 := by rw [show (4 : ℝ) = 2 ^ 2 by norm_num]; exact Real.sqrt_sq (by norm_num)
  have s16 : Real.sqrt 16 = 4 := by rw [show (16 : ℝ) = 4 ^ 2 by norm_num]; exact Real.sqrt_sq (by norm_num)
  have q1 : (![1, 0] : Vec 2) ⬝ᵥ ((!![4, 31 / 4; 31 / 4, 16] : Mat 2) *ᵥ ![1, 0]) = 4 := by
    simp [Matrix.mulVec, dotProduct, Fin.sum_univ_two]
  have q2 : (![2, -1] : Vec 2) ⬝ᵥ ((!![4, 31 / 4; 31 / 4, 16] : Mat 2) *ᵥ ![2, -1]) = 1 := by
    simp [Matrix.mulVec, dotProduct, Fin.sum_univ_two]
    norm_num
  have b1 : ∑ i, Real.sqrt ((!![4, 31 / 4; 31 / 4, 16] : Mat 2) i i) * |(![1, 0] : Vec 2) i| = 2 := by
    simp [Fin.sum_univ_two, s4]
  have b2 : ∑ i, Real.sqrt ((!![4, 31 / 4; 31 / 4, 16] : Mat 2) i i) * |(![2, -1] : Vec 2) i| = 8 := by
    simp [Fin.sum_univ_two, s4, s16]
    norm_num
  refine ⟨!![4, 31 / 4; 31 / 4, 16], L, 1 / 30, ![1, 0], ![2, -1], hS, hL, by norm_num, by simp, by simp; norm_num, ?_, ?_⟩
  · unfold robustRisk
    dsimp only
    rw [hr, hr, b1, b2]
    unfold predictedStd
    rw [q1, q2, s4, Real.sqrt_one]
    norm_num
  · rw [q1, q2, b1, b2]
    norm_num

end CovPred
