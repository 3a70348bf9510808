import Verif.Props.PortfolioRun
import Verif.Props.Influence

/-
Property C197: how far another covariance prediction moves the portfolios of MinRisk and RiskParity (through C109;
`experiments/utils/portfolio_backtests.py`, `trading_model.py`).
-/
set_option linter.unusedSectionVars false
namespace CovPred
open Matrix

variable {τ : Type} [LinearOrder τ] {n : ℕ}

private theorem bilin_symm {S : Mat n} (hS : Sᵀ = S) (u v : Vec n) : u ⬝ᵥ (S *ᵥ v) = v ⬝ᵥ (S *ᵥ u) := by
  rw [Matrix.dotProduct_mulVec, ← Matrix.mulVec_transpose, hS, dotProduct_comm]

private theorem cons_segment {a : ExtraCons} {w v : Vec n} (hw : WithinLimits a w) (hv : WithinLimits a v) {s : ℝ} (h0 : 0 ≤ s) (h1 : s ≤ 1) :
    WithinLimits a (w + s • (v - w)) := by
  have e : ∀ i, (w + s • (v - w)) i = (1 - s) * w i + s * v i := fun i => by
    simp only [Pi.add_apply, Pi.smul_apply, Pi.sub_apply, smul_eq_mul]; ring
  refine ⟨?_, fun l hl => ?_, fun u hu i => ?_, fun l hl i => ?_⟩
  · simp only [e]
    rw [Finset.sum_add_distrib, ← Finset.mul_sum, ← Finset.mul_sum, hw.1, hv.1]
    ring
  · have h2 := hw.2.1 l hl
    have h3 := hv.2.1 l hl
    calc ∑ i, |(w + s • (v - w)) i| ≤ ∑ i, ((1 - s) * |w i| + s * |v i|) := Finset.sum_le_sum fun i _ => by
          rw [e]
          refine (abs_add_le _ _).trans (le_of_eq ?_)
          rw [abs_mul, abs_mul, abs_of_nonneg (sub_nonneg.2 h1), abs_of_nonneg h0]
      _ = (1 - s) * ∑ i, |w i| + s * ∑ i, |v i| := by rw [Finset.sum_add_distrib, ← Finset.mul_sum, ← Finset.mul_sum]
      _ ≤ l := by nlinarith
  · rw [e]
    have h2 := hw.2.2.1 u hu i
    have h3 := hv.2.2.1 u hu i
    nlinarith
  · rw [e]
    have h2 := hw.2.2.2 l hl i
    have h3 := hv.2.2.2 l hl i
    nlinarith

/-- the first-order condition of the portfolio of least risk -/
private theorem first_order {S : Mat n} (hS : S.PosSemidef) {a : ExtraCons} {w : Vec n} (hw : WithinLimits a w)
    (hmin : ∀ v, WithinLimits a v → predictedStd S w ≤ predictedStd S v) {v : Vec n} (hv : WithinLimits a v) : 0 ≤ (v - w) ⬝ᵥ (S *ᵥ w) := by
  have hsym : Sᵀ = S := by have := hS.isHermitian; rwa [Matrix.IsHermitian, Matrix.conjTranspose_eq_transpose_of_trivial] at this
  have hnn : ∀ u : Vec n, 0 ≤ u ⬝ᵥ (S *ᵥ u) := fun u => by simpa using hS.dotProduct_mulVec_nonneg u
  set d := v - w
  by_contra hneg
  push Not at hneg
  set A := d ⬝ᵥ (S *ᵥ d) with hA
  set b := d ⬝ᵥ (S *ᵥ w) with hb
  have hA0 : 0 ≤ A := hnn d
  have key : ∀ s : ℝ, 0 ≤ s → s ≤ 1 → 0 ≤ 2 * s * b + s ^ 2 * A := fun s h0 h1 => by
    have h2 := hmin _ (cons_segment hw hv h0 h1)
    unfold predictedStd at h2
    rw [Real.sqrt_le_sqrt_iff (hnn _)] at h2
    have e : (w + s • d) ⬝ᵥ (S *ᵥ (w + s • d)) = w ⬝ᵥ (S *ᵥ w) + 2 * s * b + s ^ 2 * A := by
      rw [Matrix.mulVec_add, Matrix.mulVec_smul, dotProduct_add, add_dotProduct, add_dotProduct, dotProduct_smul, dotProduct_smul,
        smul_dotProduct, smul_dotProduct, bilin_symm hsym w d]
      simp only [smul_eq_mul]
      ring
    linarith
  set s := min 1 (-b / (A + 1)) with hs
  have hs0 : 0 < s := lt_min one_pos (div_pos (by linarith) (by linarith))
  have h3 := key s hs0.le (min_le_left _ _)
  have h4 : s * (A + 1) ≤ -b := by
    have := min_le_right 1 (-b / (A + 1))
    rw [← hs, le_div_iff₀ (by linarith)] at this
    exact this
  nlinarith

/-- the portfolio of least risk moves with the change of the covariances only -/
theorem minRisk_moves {S S' : Mat n} (hS : S.PosSemidef) (hS' : S'.PosSemidef) {a : ExtraCons} {w w' : Vec n} (hw : WithinLimits a w)
    (hmin : ∀ v, WithinLimits a v → predictedStd S w ≤ predictedStd S v) (hw' : WithinLimits a w')
    (hmin' : ∀ v, WithinLimits a v → predictedStd S' w' ≤ predictedStd S' v) :
    (w' - w) ⬝ᵥ (S *ᵥ (w' - w)) ≤ (w' - w) ⬝ᵥ ((S - S') *ᵥ w') := by
  have h1 := first_order hS hw hmin hw'
  have h2 := first_order hS' hw' hmin' hw
  have e : (w - w') ⬝ᵥ (S' *ᵥ w') = -((w' - w) ⬝ᵥ (S' *ᵥ w')) := by rw [← neg_dotProduct, neg_sub]
  rw [e] at h2
  rw [Matrix.sub_mulVec, dotProduct_sub, Matrix.mulVec_sub, dotProduct_sub]
  linarith

/-- a change of the covariances by at most `η` changes products with `u` by at most `η ∑ |u|` -/
theorem change_le {S S' : Mat n} {η : ℝ} (hη : ∀ i j, |S' i j - S i j| ≤ η) (d u : Vec n) :
    d ⬝ᵥ ((S - S') *ᵥ u) ≤ (η * ∑ i, |u i|) * ∑ i, |d i| := by
  unfold dotProduct
  rw [Finset.mul_sum]
  refine Finset.sum_le_sum fun i _ => ?_
  have h1 : |((S - S') *ᵥ u) i| ≤ η * ∑ j, |u j| := by
    unfold Matrix.mulVec dotProduct
    refine (Finset.abs_sum_le_sum_abs _ _).trans ?_
    rw [Finset.mul_sum]
    refine Finset.sum_le_sum fun j _ => ?_
    rw [abs_mul]
    dsimp only
    rw [Matrix.sub_apply, abs_sub_comm]
    exact mul_le_mul_of_nonneg_right (hη i j) (abs_nonneg _)
  calc d i * ((S - S') *ᵥ u) i ≤ |d i| * |((S - S') *ᵥ u) i| := by rw [← abs_mul]; exact le_abs_self _
    _ ≤ |d i| * (η * ∑ j, |u j|) := mul_le_mul_of_nonneg_left h1 (abs_nonneg _)
    _ = _ := by ring

private theorem eta_nonneg {S S' : Mat n} {η : ℝ} (hn : 0 < n) (hη : ∀ i j, |S' i j - S i j| ≤ η) : 0 ≤ η :=
  (abs_nonneg _).trans (hη ⟨0, hn⟩ ⟨0, hn⟩)

/-- in a risk parity portfolio scaled to unit predicted risk, every position contributes `1 / n` to the variance -/
theorem parity_share (hn : 0 < n) {M : Mat n} (hM : M.PosDef) {u v : Vec n} (hu : ∀ i, 0 < u i)
    (heq : ∀ i j, u i * (M *ᵥ u) i = u j * (M *ᵥ u) j) (hv : ∀ i, v i = u i / predictedStd M u) (i : Fin n) :
    0 < v i ∧ v i * (M *ᵥ v) i = 1 / n := by
  have hne : u ≠ 0 := fun h0 => by have := hu i; rw [h0] at this; exact lt_irrefl _ this
  have hq : 0 < u ⬝ᵥ (M *ᵥ u) := by simpa using hM.dotProduct_mulVec_pos hne
  have hstd : 0 < predictedStd M u := Real.sqrt_pos.2 hq
  have hsq : predictedStd M u ^ 2 = u ⬝ᵥ (M *ᵥ u) := Real.sq_sqrt hq.le
  refine ⟨by rw [hv]; exact div_pos (hu i) hstd, ?_⟩
  have hvv : v = (predictedStd M u)⁻¹ • u := funext fun i => by rw [hv, Pi.smul_apply, smul_eq_mul, div_eq_inv_mul]
  have hn : (0 : ℝ) < n := by exact_mod_cast hn
  have hsum : u ⬝ᵥ (M *ᵥ u) = n * (u i * (M *ᵥ u) i) := by
    unfold dotProduct
    rw [Finset.sum_congr rfl fun j _ => heq j i, Finset.sum_const, Finset.card_univ, Fintype.card_fin, nsmul_eq_mul]
  rw [hvv, Matrix.mulVec_smul, Pi.smul_apply, Pi.smul_apply, smul_eq_mul, smul_eq_mul]
  have e : (predictedStd M u)⁻¹ * u i * ((predictedStd M u)⁻¹ * (M *ᵥ u) i) = (u i * (M *ᵥ u) i) / predictedStd M u ^ 2 := by
    field_simp
  rw [e, hsq, hsum]
  have hpos : 0 < u i * (M *ᵥ u) i := by
    by_contra hle
    push Not at hle
    have := mul_nonpos_of_nonneg_of_nonpos hn.le hle
    linarith
  have hne1 : u i ≠ 0 := (hu i).ne'
  have hne2 : (M *ᵥ u) i ≠ 0 := fun h0 => by rw [h0, mul_zero] at hpos; exact lt_irrefl _ hpos
  field_simp

/-- risk parity portfolios scaled to unit predicted risk move with the change of the covariances only -/
theorem parity_moves (hn : 0 < n) {S S' : Mat n} {y y' : Vec n} (hs : ∀ i, 0 < y i ∧ y i * (S *ᵥ y) i = 1 / n)
    (hs' : ∀ i, 0 < y' i ∧ y' i * (S' *ᵥ y') i = 1 / n) : (y' - y) ⬝ᵥ (S *ᵥ (y' - y)) ≤ (y' - y) ⬝ᵥ ((S - S') *ᵥ y') := by
  have hn : (0 : ℝ) < n := by exact_mod_cast hn
  have hmono : (y' - y) ⬝ᵥ (S' *ᵥ y') - (y' - y) ⬝ᵥ (S *ᵥ y) ≤ 0 := by
    rw [← dotProduct_sub]
    refine Finset.sum_nonpos fun i _ => ?_
    obtain ⟨a1, a2⟩ := hs i
    obtain ⟨b1, b2⟩ := hs' i
    have e1 : (S *ᵥ y) i = 1 / (n * y i) := by rw [eq_div_iff (by positivity)]; field_simp at a2; linarith
    have e2 : (S' *ᵥ y') i = 1 / (n * y' i) := by rw [eq_div_iff (by positivity)]; field_simp at b2; linarith
    rw [Pi.sub_apply, Pi.sub_apply, e1, e2]
    have : (y' i - y i) * (1 / (n * y' i) - 1 / (n * y i)) = -((y' i - y i) ^ 2 / (n * y i * y' i)) := by field_simp; ring
    rw [this, neg_nonpos]
    positivity
  rw [Matrix.sub_mulVec, dotProduct_sub, Matrix.mulVec_sub, dotProduct_sub]
  linarith

/-- **C197.** MinRisk under two predictions. On each trading day, for the predicted covariances `S` (positive definite) and `S'` (positive
semidefinite) and the portfolios `w`, `w'` held under the same limits: `(w' - w)ᵀ S (w' - w) ≤ (w' - w)ᵀ (S - S') w'`. If no covariance differs by
more than `η`, the weights differ by at most `η (∑ |w'|) (∑ √(S⁻¹)_ii)²` in total, and the variance of `w'` under `S` exceeds the least one by at
most `η ((∑ |w|)² + (∑ |w'|)²)`. -/
theorem C197_min_risk {bt bt' : Backtest τ n} {T : ℕ} {tm : ℕ → τ} {x : ℕ → NRow n} {a b : ℕ} (hb : Backtests bt T tm x a b)
    (hb' : Backtests bt' T tm x a b) {cvx cvx' : Cvx n} (hcvx : cvx.Exact) (hcvx' : cvx'.Exact) {cons : ExtraCons}
    {d d' : Dict String (DatedTrader τ n)} (h : bt.run cvx (.minRisk cons) = .ok d) (h' : bt'.run cvx' (.minRisk cons) = .ok d')
    {name name' : String} {tr tr' : DatedTrader τ n} (hm : (name, tr) ∈ d) (hm' : (name', tr') ∈ d') :
    ∃ (i i' : ℕ) (c c' : Dict τ (Mat n)) (w w' : ℕ → Vec n), bt.covPredictors[i]? = some c ∧ bt.names[i]? = some name ∧
      bt'.covPredictors[i']? = some c' ∧ bt'.names[i']? = some name' ∧
      tr.trader.ws = (tradingDays x a b).map (fun t => List.ofFn (w t)) ∧ tr'.trader.ws = (tradingDays x a b).map (fun t => List.ofFn (w' t)) ∧
      ∀ t ∈ tradingDays x a b, ∃ S S', c.lookup (tm t) = some S ∧ c'.lookup (tm t) = some S' ∧ (S.PosDef → S'.PosSemidef →
        (w' t - w t) ⬝ᵥ (S *ᵥ (w' t - w t)) ≤ (w' t - w t) ⬝ᵥ ((S - S') *ᵥ w' t) ∧
        ∀ η : ℝ, (∀ i j, |S' i j - S i j| ≤ η) →
          ∑ i, |w' t i - w t i| ≤ η * (∑ i, |w' t i|) * (∑ i, Real.sqrt (S⁻¹ i i)) ^ 2 ∧
          w' t ⬝ᵥ (S *ᵥ w' t) ≤ w t ⬝ᵥ (S *ᵥ w t) + η * ((∑ i, |w t i|) ^ 2 + (∑ i, |w' t i|) ^ 2)) := by
  obtain ⟨i, c, w, h1, h2, h3, _, h4⟩ := C109_min_risk hb hcvx h hm none none
  obtain ⟨i', c', w', g1, g2, g3, _, g4⟩ := C109_min_risk hb' hcvx' h' hm' none none
  refine ⟨i, i', c, c', w, w', h1, h2, g1, g2, h3, g3, fun t ht => ?_⟩
  obtain ⟨S, hS, hw, hopt⟩ := h4 t ht
  obtain ⟨S', hS', hw', hopt'⟩ := g4 t ht
  refine ⟨S, S', hS, hS', fun hpd hpsd => ?_⟩
  have hsym : Sᵀ = S := posDef_symm hpd
  have hsym' : S'ᵀ = S' := by have := hpsd.isHermitian; rwa [Matrix.IsHermitian, Matrix.conjTranspose_eq_transpose_of_trivial] at this
  have hmove := minRisk_moves hpd.posSemidef hpsd hw (hopt hsym) hw' (hopt' hsym')
  refine ⟨hmove, fun η hη => ⟨?_, ?_⟩⟩
  · have h5 := sum_sqrt_bound (v := w' t - w t) hpd (hmove.trans (change_le hη _ _))
      (mul_nonneg (eta_nonneg hb.assets hη) (Finset.sum_nonneg fun _ _ => abs_nonneg _))
    exact h5
  · have hnn : ∀ u : Vec n, 0 ≤ u ⬝ᵥ (S' *ᵥ u) := fun u => by simpa using hpsd.dotProduct_mulVec_nonneg u
    have h6 := hopt' hsym' _ hw
    unfold predictedStd at h6
    rw [Real.sqrt_le_sqrt_iff (hnn _)] at h6
    have h7 := change_le hη (w' t) (w' t)
    have h8 := change_le (S := S') (S' := S) (fun i j => by rw [abs_sub_comm]; exact hη i j) (w t) (w t)
    rw [Matrix.sub_mulVec, dotProduct_sub] at h7 h8
    nlinarith

/-- **C197.** RiskParity under two predictions: the same for the portfolios scaled to unit predicted risk, `y = w / σ_S(w)` and `y' = w' / σ_S'(w')`:
`(y' - y)ᵀ S (y' - y) ≤ (y' - y)ᵀ (S - S') y'`, and if no covariance differs by more than `η`, they differ by at most
`η (∑ |y'|) (∑ √(S⁻¹)_ii)²` in total. -/
theorem C197_risk_parity {bt bt' : Backtest τ n} {T : ℕ} {tm : ℕ → τ} {x : ℕ → NRow n} {a b : ℕ} (hb : Backtests bt T tm x a b)
    (hb' : Backtests bt' T tm x a b) {cvx cvx' : Cvx n} (hcvx : cvx.Exact) (hcvx' : cvx'.Exact)
    {d d' : Dict String (DatedTrader τ n)} (h : bt.run cvx .riskParity = .ok d) (h' : bt'.run cvx' .riskParity = .ok d')
    {name name' : String} {tr tr' : DatedTrader τ n} (hm : (name, tr) ∈ d) (hm' : (name', tr') ∈ d') :
    ∃ (i i' : ℕ) (c c' : Dict τ (Mat n)) (w w' : ℕ → Vec n), bt.covPredictors[i]? = some c ∧ bt.names[i]? = some name ∧
      bt'.covPredictors[i']? = some c' ∧ bt'.names[i']? = some name' ∧
      tr.trader.ws = (tradingDays x a b).map (fun t => List.ofFn (w t)) ∧ tr'.trader.ws = (tradingDays x a b).map (fun t => List.ofFn (w' t)) ∧
      ∀ t ∈ tradingDays x a b, ∃ S S', c.lookup (tm t) = some S ∧ c'.lookup (tm t) = some S' ∧ (S.PosDef → S'.PosDef →
        ∀ y y' : Vec n, (∀ i, y i = w t i / predictedStd S (w t)) → (∀ i, y' i = w' t i / predictedStd S' (w' t)) →
        (y' - y) ⬝ᵥ (S *ᵥ (y' - y)) ≤ (y' - y) ⬝ᵥ ((S - S') *ᵥ y') ∧
        ∀ η : ℝ, (∀ i j, |S' i j - S i j| ≤ η) → ∑ i, |y' i - y i| ≤ η * (∑ i, |y' i|) * (∑ i, Real.sqrt (S⁻¹ i i)) ^ 2) := by
  obtain ⟨i, c, w, h1, h2, h3, _, h4⟩ := C109_risk_parity hb hcvx h hm none none
  obtain ⟨i', c', w', g1, g2, g3, _, g4⟩ := C109_risk_parity hb' hcvx' h' hm' none none
  refine ⟨i, i', c, c', w, w', h1, h2, g1, g2, h3, g3, fun t ht => ?_⟩
  obtain ⟨S, hS, hopt⟩ := h4 t ht
  obtain ⟨S', hS', hopt'⟩ := g4 t ht
  refine ⟨S, S', hS, hS', fun hpd hpd' y y' hy hy' => ?_⟩
  have hs := parity_share hb.assets hpd (hopt (posDef_symm hpd)).1 (hopt (posDef_symm hpd)).2.2 hy
  have hs' := parity_share hb.assets hpd' (hopt' (posDef_symm hpd')).1 (hopt' (posDef_symm hpd')).2.2 hy'
  have hmove := parity_moves hb.assets hs hs'
  refine ⟨hmove, fun η hη => ?_⟩
  exact sum_sqrt_bound (v := y' - y) hpd (hmove.trans (change_le hη _ _))
    (mul_nonneg (eta_nonneg hb.assets hη) (Finset.sum_nonneg fun _ _ => abs_nonneg _))

/-- the identity with the variances 1, 1.01, ..., 1.06 -/
noncomputable def PortfolioInfluenceEx.other : Mat 7 := Matrix.diagonal fun i => 1 + (i : ℝ) / 100

theorem PortfolioInfluenceEx.other_posDef : PortfolioInfluenceEx.other.PosDef := Matrix.PosDef.diagonal fun i => by positivity

/-- The hypotheses are met: with seven assets MinRisk and RiskParity run under the identity and under variances up to 1.06, on three trading days. -/
example (st : Strategy ℕ 7) (hst : st = .minRisk {} ∨ st = .riskParity) :
    ∃ d d' name tr tr', (prBt prX fun _ => 1).run (exactCvx 7) st = .ok d ∧
      (prBt prX fun _ => PortfolioInfluenceEx.other).run (exactCvx 7) st = .ok d' ∧ (name, tr) ∈ d ∧ (name, tr') ∈ d' ∧
      tradingDays prX 0 3 = [0, 1, 2] ∧ (∀ i j, |PortfolioInfluenceEx.other i j - (1 : Mat 7) i j| ≤ 6 / 100) := by
  have hro : st.RiskOnly ∧ st.Room := by
    obtain ⟨h1, _, _, h4⟩ := C160_room (τ := ℕ) (n := 7)
    rcases hst with rfl | rfl
    · exact ⟨trivial, h1.2 le_rfl⟩
    · exact ⟨trivial, h4⟩
  obtain ⟨d, hd⟩ := prRuns (fun _ => 1) (fun _ => PosDef.one) st hro.1 hro.2
  obtain ⟨d', hd'⟩ := prRuns (fun _ => PortfolioInfluenceEx.other) (fun _ => PortfolioInfluenceEx.other_posDef) st hro.1 hro.2
  have hA : "A" ∈ d.map Prod.fst := by rw [(C111_names hd).2.1]; simp [prBt]
  have hA' : "A" ∈ d'.map Prod.fst := by rw [(C111_names hd').2.1]; simp [prBt]
  obtain ⟨⟨_, tr⟩, htr, rfl⟩ := List.mem_map.1 hA
  obtain ⟨⟨_, tr'⟩, htr', he⟩ := List.mem_map.1 hA'
  cases he
  refine ⟨d, d', _, tr, tr', hd, hd', htr, htr', prDays, fun i j => ?_⟩
  unfold PortfolioInfluenceEx.other
  rcases eq_or_ne i j with rfl | hij
  · rw [Matrix.diagonal_apply_eq, Matrix.one_apply_eq, add_sub_cancel_left, abs_of_nonneg (by positivity)]
    have : (i : ℝ) ≤ 6 := by exact_mod_cast (by omega : (i : ℕ) ≤ 6)
    linarith
  · rw [Matrix.diagonal_apply_ne _ hij, Matrix.one_apply_ne hij]
    norm_num

end CovPred
