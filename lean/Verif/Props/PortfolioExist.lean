import Verif.Lemmas.PortfolioExist

/-
C159: when the portfolio problems of trading_model.py have a solution, and when there is only one.
-/
namespace CovPred
open Matrix
set_option linter.unusedSectionVars false

variable {n : ℕ}

/-! ### The sets of allowed portfolios -/

private theorem minRisk_closed (a : ExtraCons) : IsClosed {w : Vec n | minRiskCons a w} := by
  have h1 : IsClosed {w : Vec n | ∑ i, w i = 1} := isClosed_eq (by fun_prop) continuous_const
  have h2 : IsClosed {w : Vec n | ∀ s, a.shortLim = some s → ∑ i, |w i| ≤ s} := by
    simp only [Set.ofPred_forall]
    exact isClosed_iInter fun s => isClosed_iInter fun _ => isClosed_le (by fun_prop) continuous_const
  have h3 : IsClosed {w : Vec n | ∀ u, a.upperBound = some u → ∀ i, w i ≤ u} := by
    simp only [Set.ofPred_forall]
    exact isClosed_iInter fun s => isClosed_iInter fun _ => isClosed_iInter fun i => isClosed_le (by fun_prop) continuous_const
  have h4 : IsClosed {w : Vec n | ∀ l, a.lowerBound = some l → ∀ i, l ≤ w i} := by
    simp only [Set.ofPred_forall]
    exact isClosed_iInter fun s => isClosed_iInter fun _ => isClosed_iInter fun i => isClosed_le continuous_const (by fun_prop)
  have := h1.inter (h2.inter (h3.inter h4))
  exact this

private theorem abs_mid (u v : Vec n) : ∑ i, |((1 / 2 : ℝ) • (u + v)) i| ≤ (∑ i, |u i| + ∑ i, |v i|) / 2 := by
  rw [← Finset.sum_add_distrib, Finset.sum_div]
  refine Finset.sum_le_sum fun i _ => ?_
  simp only [Pi.smul_apply, Pi.add_apply, smul_eq_mul]
  rw [abs_mul, abs_of_pos (by norm_num : (0 : ℝ) < 1 / 2)]
  have := abs_add_le (u i) (v i)
  linarith

private theorem sum_mid (u v : Vec n) : ∑ i, ((1 / 2 : ℝ) • (u + v)) i = (∑ i, u i + ∑ i, v i) / 2 := by
  simp only [Pi.smul_apply, Pi.add_apply, smul_eq_mul]
  rw [← Finset.mul_sum, Finset.sum_add_distrib]
  ring

private theorem minRisk_mid (a : ExtraCons) {u v : Vec n} (hu : minRiskCons a u) (hv : minRiskCons a v) :
    minRiskCons a ((1 / 2 : ℝ) • (u + v)) := by
  obtain ⟨u1, u2, u3, u4⟩ := hu
  obtain ⟨v1, v2, v3, v4⟩ := hv
  refine ⟨by rw [sum_mid, u1, v1]; norm_num, fun s hs => ?_, fun b hb i => ?_, fun b hb i => ?_⟩
  · have := u2 s hs; have := v2 s hs; have := abs_mid u v; linarith
  · have := u3 b hb i; have := v3 b hb i; simp only [Pi.smul_apply, Pi.add_apply, smul_eq_mul]; linarith
  · have := u4 b hb i; have := v4 b hb i; simp only [Pi.smul_apply, Pi.add_apply, smul_eq_mul]; linarith

private theorem ones_dot (w : Vec n) : (fun _ => 1 : Vec n) ⬝ᵥ w = ∑ i, w i := by simp [dotProduct]

/-- **C159.** The problem of a `min_risk` or `vol_cont` backtest has a solution exactly if some portfolio is within its
limits, and then only one. -/
theorem C159_min_risk {S L : Mat n} (hS : S.PosDef) (hL : getLInv S = .ok L) (a : ExtraCons) :
    (∃ w : Vec n, minRiskCons a w) ↔
      ∃! w : Vec n, minRiskCons a w ∧ ∀ v, minRiskCons a v → riskExpr L w ≤ riskExpr L v := by
  constructor
  · rintro ⟨w0, h0⟩
    obtain ⟨w, hw, hmin⟩ := exists_least hS _ (minRisk_closed a) ⟨w0, h0⟩ (fun _ => 0) continuous_const (fun _ => le_rfl)
    refine ⟨w, ⟨hw, fun v hv => ?_⟩, fun v hv => ?_⟩
    · have := hmin v hv
      rw [riskExpr_eq hS hL, riskExpr_eq hS hL]
      linarith
    · refine least_unique hS {w | minRiskCons a w} (fun u hu v hv => minRisk_mid a hu hv)
        (fun u hu v hv h => ray_of_sum hS (c := fun _ => 1) ?_ ?_ h) (fun _ => 0) (fun _ _ => by norm_num) hv.1 hw ?_ hmin
      · rw [ones_dot]; exact hu.1
      · rw [ones_dot]; exact hv.1
      · intro x hx
        have := hv.2 x hx
        rw [riskExpr_eq hS hL, riskExpr_eq hS hL] at this
        linarith
  · rintro ⟨w, hw, -⟩
    exact ⟨w, hw.1⟩

/-- **C159.** With the standard bounds: exactly if there are at least seven assets. -/
theorem C159_min_risk_standard {S L : Mat n} (hS : S.PosDef) (hL : getLInv S = .ok L) :
    (∃! w : Vec n, minRiskCons {} w ∧ ∀ v, minRiskCons {} v → riskExpr L w ≤ riskExpr L v) ↔ 7 ≤ n := by
  rw [← C159_min_risk hS hL, C94_min_risk_feasible]

private theorem robust_mid {sigma : Vec n} (hs : ∀ i, 0 ≤ sigma i) {kappa : ℝ} (hk : 0 ≤ kappa) (u v : Vec n) :
    kappa * (∑ i, sigma i * |((1 / 2 : ℝ) • (u + v)) i|) ^ 2
      ≤ (kappa * (∑ i, sigma i * |u i|) ^ 2 + kappa * (∑ i, sigma i * |v i|) ^ 2) / 2 := by
  have h1 : ∑ i, sigma i * |((1 / 2 : ℝ) • (u + v)) i| ≤ (∑ i, sigma i * |u i| + ∑ i, sigma i * |v i|) / 2 := by
    rw [← Finset.sum_add_distrib, Finset.sum_div]
    refine Finset.sum_le_sum fun i _ => ?_
    simp only [Pi.smul_apply, Pi.add_apply, smul_eq_mul]
    rw [abs_mul, abs_of_pos (by norm_num : (0 : ℝ) < 1 / 2)]
    have := mul_le_mul_of_nonneg_left (abs_add_le (u i) (v i)) (hs i)
    linarith
  have h0 : 0 ≤ ∑ i, sigma i * |((1 / 2 : ℝ) • (u + v)) i| :=
    Finset.sum_nonneg fun i _ => mul_nonneg (hs i) (abs_nonneg _)
  have h2 : (∑ i, sigma i * |((1 / 2 : ℝ) • (u + v)) i|) ^ 2
      ≤ ((∑ i, sigma i * |u i|) ^ 2 + (∑ i, sigma i * |v i|) ^ 2) / 2 := by
    have := pow_le_pow_left₀ h0 h1 2
    nlinarith [sq_nonneg (∑ i, sigma i * |u i| - ∑ i, sigma i * |v i|)]
  have := mul_le_mul_of_nonneg_left h2 hk
  linarith

/-- **C159.** The same holds for `robust_min_risk`, for every volatility parameter and `kappa >= 0`. -/
theorem C159_robust {S L : Mat n} (hS : S.PosDef) (hL : getLInv S = .ok L) (a : ExtraCons) {sigma : Vec n}
    (hs : ∀ i, 0 ≤ sigma i) {kappa : ℝ} (hk : 0 ≤ kappa) :
    (∃ w : Vec n, minRiskCons a w) ↔
      ∃! w : Vec n, minRiskCons a w ∧ ∀ v, minRiskCons a v → robustRisk kappa ⟨L, sigma⟩ w ≤ robustRisk kappa ⟨L, sigma⟩ v := by
  have he : ∀ w, robustRisk kappa ⟨L, sigma⟩ w = predictedStd S w + kappa * (∑ i, sigma i * |w i|) ^ 2 := by
    intro w
    unfold robustRisk
    rw [riskExpr_eq hS hL]
  simp only [he]
  constructor
  · rintro ⟨w0, h0⟩
    obtain ⟨w, hw, hmin⟩ := exists_least hS _ (minRisk_closed a) ⟨w0, h0⟩ (fun w => kappa * (∑ i, sigma i * |w i|) ^ 2)
      (by fun_prop) (fun w => mul_nonneg hk (sq_nonneg _))
    refine ⟨w, ⟨hw, hmin⟩, fun v hv => ?_⟩
    refine least_unique hS {w | minRiskCons a w} (fun u hu v hv => minRisk_mid a hu hv)
      (fun u hu v hv h => ray_of_sum hS (c := fun _ => 1) ?_ ?_ h)
      (fun w => kappa * (∑ i, sigma i * |w i|) ^ 2) (robust_mid hs hk) hv.1 hw hv.2 hmin
    · rw [ones_dot]; exact hu.1
    · rw [ones_dot]; exact hv.1
  · rintro ⟨w, hw, -⟩
    exact ⟨w, hw.1⟩

/-- **C159.** The problem of `max_diverse` has a solution exactly if the upper bound leaves room for a fully invested
portfolio, `n * M >= 1`, and then only one. -/
theorem C159_max_diverse {S L : Mat n} (hS : S.PosDef) (hL : getLInv S = .ok L) (M : ℝ) :
    1 ≤ n * M ↔ ∃! z : Vec n, DiverseOptimal L M (fun i => Real.sqrt (S i i)) z := by
  have hsig : ∀ i, 0 < Real.sqrt (S i i) := fun i => Real.sqrt_pos.2 hS.diag_pos
  set sg : Vec n := fun i => Real.sqrt (S i i) with hsg
  constructor
  · intro hM
    have hn : n ≠ 0 := by
      rintro rfl
      norm_num at hM
    have hn' : (0 : ℝ) < n := by exact_mod_cast Nat.pos_of_ne_zero hn
    have : Nonempty (Fin n) := ⟨⟨0, Nat.pos_of_ne_zero hn⟩⟩
    have hsum : 0 < ∑ i, sg i := Finset.sum_pos (fun i _ => hsig i) Finset.univ_nonempty
    have hclosed : IsClosed {z : Vec n | DiverseFeasible M sg z} := by
      have h1 : IsClosed {z : Vec n | ∀ i, 0 ≤ z i} := by
        simp only [Set.ofPred_forall]
        exact isClosed_iInter fun i => isClosed_le continuous_const (by fun_prop)
      have h2 : IsClosed {z : Vec n | ∀ i, z i ≤ M * ∑ j, z j} := by
        simp only [Set.ofPred_forall]
        exact isClosed_iInter fun i => isClosed_le (by fun_prop) (by fun_prop)
      have h3 : IsClosed {z : Vec n | ∑ i, sg i * z i = 1} := isClosed_eq (by fun_prop) continuous_const
      have h := h1.inter (h2.inter h3)
      have e : {z : Vec n | DiverseFeasible M sg z}
          = {z : Vec n | ∀ i, 0 ≤ z i} ∩ ({z : Vec n | ∀ i, z i ≤ M * ∑ j, z j} ∩ {z : Vec n | ∑ i, sg i * z i = 1}) := by
        ext z
        exact ⟨fun (hz : DiverseFeasible M sg z) => ⟨hz.nonneg, hz.upper, hz.unit⟩, fun hz => ⟨hz.1, hz.2.1, hz.2.2⟩⟩
      rw [e]; exact h
    have hfeas : DiverseFeasible M sg (fun _ => (∑ i, sg i)⁻¹) := by
      refine ⟨fun _ => (inv_pos.2 hsum).le, fun _ => ?_, ?_⟩
      · rw [Finset.sum_const, Finset.card_univ, Fintype.card_fin, nsmul_eq_mul]
        have := mul_le_mul_of_nonneg_right hM (inv_pos.2 hsum).le
        linarith
      · rw [← Finset.sum_mul, mul_inv_cancel₀ hsum.ne']
    obtain ⟨z, hz, hmin⟩ := exists_least hS _ hclosed ⟨_, hfeas⟩ (fun _ => 0) continuous_const (fun _ => le_rfl)
    have hopt : ∀ y, DiverseOptimal L M sg y ↔ DiverseFeasible M sg y ∧ ∀ x, DiverseFeasible M sg x →
        predictedStd S y + 0 ≤ predictedStd S x + 0 := by
      intro y
      unfold DiverseOptimal
      simp only [riskExpr_eq hS hL, add_zero]
    refine ⟨z, (hopt z).2 ⟨hz, hmin⟩, fun y hy => ?_⟩
    obtain ⟨hy1, hy2⟩ := (hopt y).1 hy
    refine least_unique hS {z | DiverseFeasible M sg z} (fun u hu v hv => ?_)
      (fun u hu v hv h => ray_of_sum hS (c := sg) hu.unit hv.unit h) (fun _ => 0) (fun _ _ => by norm_num) hy1 hz hy2 hmin
    refine ⟨fun i => ?_, fun i => ?_, ?_⟩
    · have := hu.nonneg i; have := hv.nonneg i; simp only [Pi.smul_apply, Pi.add_apply, smul_eq_mul]; linarith
    · have := DiverseFeasible.upper hu i; have := DiverseFeasible.upper hv i
      rw [sum_mid]; simp only [Pi.smul_apply, Pi.add_apply, smul_eq_mul]; linarith
    · have e : ∑ i, sg i * ((1 / 2 : ℝ) • (u + v)) i = (∑ i, sg i * u i + ∑ i, sg i * v i) / 2 := by
        rw [← Finset.sum_add_distrib, Finset.sum_div]
        refine Finset.sum_congr rfl fun i _ => ?_
        simp only [Pi.smul_apply, Pi.add_apply, smul_eq_mul]; ring
      rw [e, hu.unit, hv.unit]; norm_num
  · rintro ⟨z, ⟨⟨h0, hM, h1⟩, -⟩, -⟩
    have hpos : 0 < ∑ j, z j := by
      have hne : ∃ i, z i ≠ 0 := by
        by_contra h
        push Not at h
        simp [h] at h1
      obtain ⟨i, hi⟩ := hne
      exact Finset.sum_pos' (fun j _ => h0 j) ⟨i, Finset.mem_univ i, lt_of_le_of_ne (h0 i) (Ne.symm hi)⟩
    have : ∑ i, z i ≤ ∑ _i : Fin n, M * ∑ j, z j := Finset.sum_le_sum fun i _ => hM i
    rw [Finset.sum_const, Finset.card_univ, Fintype.card_fin, nsmul_eq_mul, ← mul_assoc] at this
    by_contra hlt
    push Not at hlt
    nlinarith

private theorem log_root (hn : 0 < n) (w : Vec n) (hw : ∀ i, 0 < w i) :
    0 < (∏ i, w i) ^ ((1 : ℝ) / n) ∧ ∏ i, (((∏ i, w i) ^ ((1 : ℝ) / n))⁻¹ * w i) = 1 := by
  have hp : 0 < ∏ i, w i := Finset.prod_pos fun i _ => hw i
  have hr := Real.rpow_pos_of_pos hp ((1 : ℝ) / n)
  refine ⟨hr, ?_⟩
  rw [Finset.prod_mul_distrib, Finset.prod_const, Finset.card_univ, Fintype.card_fin, inv_pow, ← Real.rpow_natCast,
    ← Real.rpow_mul hp.le, one_div, inv_mul_cancel₀ (by exact_mod_cast hn.ne'), Real.rpow_one, inv_mul_cancel₀ hp.ne']

/-- **C159.** The problem of `risk_parity` always has a solution, and only one. -/
theorem C159_risk_parity {S L : Mat n} (hn : 0 < n) (hS : S.PosDef) (hL : getLInv S = .ok L) :
    ∃! w : Vec n, ParityOptimal L w := by
  have hn' : (0 : ℝ) < n := by exact_mod_cast hn
  have hclosed : IsClosed {w : Vec n | (∀ i, 0 ≤ w i) ∧ 1 ≤ ∏ i, w i} := by
    have h1 : IsClosed {z : Vec n | ∀ i, 0 ≤ z i} := by
      simp only [Set.ofPred_forall]
      exact isClosed_iInter fun i => isClosed_le continuous_const (by fun_prop)
    have h2 : IsClosed {z : Vec n | 1 ≤ ∏ i, z i} := isClosed_le continuous_const (by fun_prop)
    exact h1.inter h2
  obtain ⟨x, ⟨hx0, hx1⟩, hmin⟩ := exists_least hS _ hclosed ⟨fun _ => 1, fun _ => zero_le_one, by simp⟩ (fun _ => 0)
    continuous_const (fun _ => le_rfl)
  have hxpos : ∀ i, 0 < x i := by
    intro i
    refine lt_of_le_of_ne (hx0 i) fun h => ?_
    have : ∏ i, x i = 0 := Finset.prod_eq_zero (Finset.mem_univ i) h.symm
    linarith
  have hxne : x ≠ 0 := fun h => (hxpos ⟨0, hn⟩).ne' (congrFun h _)
  set s := predictedStd S x with hs
  have hs0 : 0 < s := predictedStd_pos hS hxne
  set w : Vec n := fun i => 2 / s * x i with hw
  have hwpos : ∀ i, 0 < w i := fun i => mul_pos (by positivity) (hxpos i)
  have hobj : ∀ v : Vec n, parityObjective L v = 1 / 2 * predictedStd S v - Real.log ((∏ i, v i) ^ ((1 : ℝ) / n)) := by
    intro v; unfold parityObjective; rw [riskExpr_eq hS hL]
  have hopt : ParityOptimal L w := by
    refine ⟨hwpos, fun v hv => ?_⟩
    rw [hobj, hobj]
    -- the candidate
    have h1 : predictedStd S w = 2 := by
      rw [hw, predictedStd_smul S x (by positivity), ← hs]; field_simp
    have h2 : Real.log (2 / s) ≤ Real.log ((∏ i, w i) ^ ((1 : ℝ) / n)) := by
      apply Real.log_le_log (by positivity)
      have e : ∏ i, w i = (2 / s) ^ n * ∏ i, x i := by
        rw [hw, Finset.prod_mul_distrib, Finset.prod_const, Finset.card_univ, Fintype.card_fin]
      have e2 : (2 / s) = ((2 / s) ^ n) ^ ((1 : ℝ) / n) := by
        rw [← Real.rpow_natCast, ← Real.rpow_mul (by positivity), mul_one_div_cancel hn'.ne', Real.rpow_one]
      rw [e]
      calc (2 / s) = ((2 / s) ^ n) ^ ((1 : ℝ) / n) := e2
        _ ≤ ((2 / s) ^ n * ∏ i, x i) ^ ((1 : ℝ) / n) := by
          apply Real.rpow_le_rpow (by positivity) _ (by positivity)
          exact le_mul_of_one_le_right (by positivity) hx1
    -- the competitor
    obtain ⟨hg, hprod⟩ := log_root hn v hv
    set g := (∏ i, v i) ^ ((1 : ℝ) / n) with hgdef
    have h3 : g * s ≤ predictedStd S v := by
      have h := hmin (fun i => g⁻¹ * v i) ⟨fun i => mul_nonneg (inv_nonneg.2 hg.le) (hv i).le, hprod.ge⟩
      rw [predictedStd_smul S v (inv_nonneg.2 hg.le)] at h
      have h' : s ≤ g⁻¹ * predictedStd S v := by linarith
      have := mul_le_mul_of_nonneg_left h' hg.le
      rwa [← mul_assoc, mul_inv_cancel₀ hg.ne', one_mul] at this
    have h4 : Real.log (g * s / 2) ≤ g * s / 2 - 1 := Real.log_le_sub_one_of_pos (by positivity)
    have h5 : Real.log g = Real.log (g * s / 2) + Real.log (2 / s) := by
      rw [← Real.log_mul (by positivity) (by positivity)]
      congr 1
      field_simp
    rw [h1]
    linarith
  exact ⟨w, hopt, fun v hv => C84_unique hn hS hL w v hopt hv⟩

/-- **C159.** The problem of `mean_variance` has a solution exactly if some portfolio with cash is within its limits, with
or without uncertainties. -/
theorem C159_mean_variance {S L : Mat n} (hS : S.PosDef) (hL : getLInv S = .ok L) (a : ExtraCons) (adj sigmaDes : ℝ)
    (mu : Vec n) (rho : Option (Vec n)) :
    (∃ (w : Vec n) (c : ℝ), meanVarianceCons a adj sigmaDes L w c) ↔
      ∃ (w : Vec n) (c : ℝ), meanVarianceCons a adj sigmaDes L w c ∧
        ∀ v k, meanVarianceCons a adj sigmaDes L v k → meanVarianceRet mu rho v k ≤ meanVarianceRet mu rho w c := by
  constructor
  · rintro ⟨w0, c0, h0⟩
    set r := sigmaDes * adj / Real.sqrt 252 with hr
    set C : Set (Vec n) := {w | (∀ s, a.shortLim = some s → ∑ i, |w i| ≤ s) ∧ (∀ u, a.upperBound = some u → ∀ i, w i ≤ u) ∧
      ∀ l, a.lowerBound = some l → ∀ i, l ≤ w i} with hCdef
    have hC : IsClosed C := by
      have h2 : IsClosed {w : Vec n | ∀ s, a.shortLim = some s → ∑ i, |w i| ≤ s} := by
        simp only [Set.ofPred_forall]
        exact isClosed_iInter fun s => isClosed_iInter fun _ => isClosed_le (by fun_prop) continuous_const
      have h3 : IsClosed {w : Vec n | ∀ u, a.upperBound = some u → ∀ i, w i ≤ u} := by
        simp only [Set.ofPred_forall]
        exact isClosed_iInter fun s => isClosed_iInter fun _ => isClosed_iInter fun i =>
          isClosed_le (by fun_prop) continuous_const
      have h4 : IsClosed {w : Vec n | ∀ l, a.lowerBound = some l → ∀ i, l ≤ w i} := by
        simp only [Set.ofPred_forall]
        exact isClosed_iInter fun s => isClosed_iInter fun _ => isClosed_iInter fun i =>
          isClosed_le continuous_const (by fun_prop)
      exact h2.inter (h3.inter h4)
    have hiff : ∀ w c, meanVarianceCons a adj sigmaDes L w c ↔
        ∑ i, w i + c = 1 ∧ w ∈ C ∩ {w | predictedStd S w ≤ r} := by
      intro w c
      unfold meanVarianceCons
      rw [riskExpr_eq hS hL]
      constructor
      · rintro ⟨h1, h2, h3⟩; exact ⟨h1, h3, h2⟩
      · rintro ⟨h1, h3, h2⟩; exact ⟨h1, h2, h3⟩
    have hcont : Continuous fun w : Vec n => meanVarianceRet mu rho w 0 := by
      unfold meanVarianceRet
      cases rho <;> dsimp only <;> fun_prop
    have hcash : ∀ w c, meanVarianceRet mu rho w c = meanVarianceRet mu rho w 0 := by
      intro w c; unfold meanVarianceRet; rw [zero_mul, zero_mul]
    obtain ⟨w, hw, hmax⟩ := (risk_ball_compact hS C hC r).exists_isMaxOn ⟨w0, ((hiff w0 c0).1 h0).2⟩ hcont.continuousOn
    refine ⟨w, 1 - ∑ i, w i, (hiff _ _).2 ⟨by ring, hw⟩, fun v k hv => ?_⟩
    rw [hcash, hcash w]
    exact hmax ((hiff v k).1 hv).2
  · rintro ⟨w, c, h, -⟩
    exact ⟨w, c, h⟩

/-- **C159.** With limits that allow not to invest (as the standard ones do): exactly if the volatility target is not
negative. -/
theorem C159_mean_variance_target {S L : Mat n} (hS : S.PosDef) (hL : getLInv S = .ok L) {a : ExtraCons}
    (hs : ∀ s, a.shortLim = some s → 0 ≤ s) (hu : ∀ u, a.upperBound = some u → 0 ≤ u)
    (hl : ∀ l, a.lowerBound = some l → l ≤ 0) (adj sigmaDes : ℝ) (mu : Vec n) (rho : Option (Vec n)) :
    (∃ (w : Vec n) (c : ℝ), meanVarianceCons a adj sigmaDes L w c ∧
        ∀ v k, meanVarianceCons a adj sigmaDes L v k → meanVarianceRet mu rho v k ≤ meanVarianceRet mu rho w c) ↔
      0 ≤ sigmaDes * adj := by
  rw [← C159_mean_variance hS hL]
  have hq : (0 : ℝ) < Real.sqrt 252 := Real.sqrt_pos.2 (by norm_num)
  constructor
  · rintro ⟨w, c, -, h2, -⟩
    rw [riskExpr_eq hS hL] at h2
    have h3 := (predictedStd_nonneg S w).trans h2
    by_contra hneg
    push Not at hneg
    have := div_neg_of_neg_of_pos hneg hq
    linarith
  · intro h
    refine ⟨0, 1, by simp, ?_, fun s h => by simpa using hs s h, fun u h i => hu u h, fun l h i => hl l h⟩
    have h0 : riskExpr L (0 : Vec n) = 0 := by simp [riskExpr]
    rw [h0]
    positivity

/-- The hypotheses hold for the identity covariance of seven (or any number of) assets. -/
example : ∃ L : Mat 7, getLInv 1 = .ok L ∧ (∃! w : Vec 7, minRiskCons {} w ∧ ∀ v, minRiskCons {} v → riskExpr L w ≤ riskExpr L v) ∧
    (∃! z, DiverseOptimal L (15 / 100) (fun i => Real.sqrt ((1 : Mat 7) i i)) z) ∧ ∃! w, ParityOptimal L w := by
  obtain ⟨L, hL, -⟩ := C56_whitener (PosDef.one (n := Fin 7) (R := ℝ))
  exact ⟨L, hL, (C159_min_risk_standard PosDef.one hL).2 le_rfl, (C159_max_diverse PosDef.one hL _).1 (by norm_num),
    C159_risk_parity (by norm_num) PosDef.one hL⟩

/-- The standard limits allow not to invest. -/
example {L : Mat 2} (hL : getLInv 1 = .ok L) (mu : Vec 2) : ∃ (w : Vec 2) (c : ℝ), meanVarianceCons {} 1 (1 / 10) L w c ∧
    ∀ v k, meanVarianceCons {} 1 (1 / 10) L v k → meanVarianceRet mu none v k ≤ meanVarianceRet mu none w c :=
  (C159_mean_variance_target PosDef.one hL (a := {}) (fun s h => by cases h; norm_num) (fun s h => by cases h; norm_num)
    (fun s h => by cases h; norm_num) 1 (1 / 10) mu none).2 (by norm_num)

end CovPred
