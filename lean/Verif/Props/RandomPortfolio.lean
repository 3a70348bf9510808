import Verif.Props.RandomScores
import Verif.Props.Backtests2

/-
Property C177: what portfolios built on predictions do when the next returns are random.
-/
set_option linter.unusedSectionVars false
namespace CovPred
open MeasureTheory ProbabilityTheory Matrix

variable {τ : Type} [LinearOrder τ] {n : ℕ} {Ω : Type} [MeasurableSpace Ω] {P : Measure Ω} [IsProbabilityMeasure P]

/-- the covariance matrix of a random vector of returns -/
noncomputable def covarianceOf (P : Measure Ω) (R : Ω → Vec n) : Mat n := momentsAbout P R (expectedReturn P R)

private theorem memLp_dot {R : Ω → Vec n} (hR : ∀ i, MemLp (fun ω => R ω i) 2 P) (w : Vec n) :
    MemLp (fun ω => w ⬝ᵥ R ω) 2 P := by
  have : (fun ω => w ⬝ᵥ R ω) = fun ω => ∑ i, w i * R ω i := rfl
  rw [this]
  exact memLp_finsetSum _ fun i _ => (hR i).const_mul (w i)

private theorem mean_dot {R : Ω → Vec n} (hR : ∀ i, MemLp (fun ω => R ω i) 2 P) (w : Vec n) :
    ∫ ω, w ⬝ᵥ R ω ∂P = w ⬝ᵥ expectedReturn P R := by
  have : (fun ω => w ⬝ᵥ R ω) = fun ω => ∑ i, w i * R ω i := rfl
  rw [this, integral_finsetSum _ fun i _ => ((hR i).integrable (by norm_num)).const_mul (w i)]
  simp only [integral_const_mul]
  rfl

private theorem sq_dot (w x : Vec n) : (w ⬝ᵥ x) ^ 2 = ∑ i, ∑ j, w i * w j * (x i * x j) := by
  rw [sq]
  simp only [dotProduct, Finset.sum_mul, Finset.mul_sum]
  refine Finset.sum_congr rfl fun i _ => Finset.sum_congr rfl fun j _ => by ring

/-- **C177.** The variance of the return of a portfolio is the quadratic form of the true covariance matrix: the standard deviation
the code computes from a correct prediction is the true one. -/
theorem C177_variance {R : Ω → Vec n} (hR : ∀ i, MemLp (fun ω => R ω i) 2 P) (w : Vec n) :
    Real.sqrt (ProbabilityTheory.variance (fun ω => w ⬝ᵥ R ω) P) = predictedStd (covarianceOf P R) w := by
  unfold predictedStd
  congr 1
  rw [variance_eq_integral (memLp_dot hR w).aemeasurable, mean_dot hR]
  set mu := expectedReturn P R with hmu
  have hi : ∀ i j, Integrable (fun ω => w i * w j * ((R ω i - mu i) * (R ω j - mu j))) P := fun i j =>
    (((hR i).sub (memLp_const (mu i))).integrable_mul ((hR j).sub (memLp_const (mu j)))).const_mul _
  have e : (fun ω => (w ⬝ᵥ R ω - w ⬝ᵥ mu) ^ 2) = fun ω => ∑ i, ∑ j, w i * w j * ((R ω i - mu i) * (R ω j - mu j)) := by
    funext ω
    rw [← dotProduct_sub, sq_dot]
    rfl
  rw [e, integral_finsetSum _ fun i _ => integrable_finsetSum _ fun j _ => hi i j]
  simp only [dotProduct, Matrix.mulVec, Finset.mul_sum]
  refine Finset.sum_congr rfl fun i _ => ?_
  rw [integral_finsetSum _ fun j _ => hi i j]
  refine Finset.sum_congr rfl fun j _ => ?_
  rw [integral_const_mul]
  show _ = w i * ((∫ ω, (R ω i - mu i) * (R ω j - mu j) ∂P) * w j)
  ring

private theorem covarianceOf_symm (R : Ω → Vec n) : (covarianceOf P R)ᵀ = covarianceOf P R := by
  ext i j
  show ∫ ω, (R ω j - _) * (R ω i - _) ∂P = ∫ ω, (R ω i - _) * (R ω j - _) ∂P
  simp only [mul_comm]

/-- **C177.** `MinRisk` with an exact solver: if on a trading day the covariance of the next returns is the predicted one, the
portfolio held has the least variance, among all portfolios within the limits. -/
theorem C177_min_risk {bt : Backtest τ n} {T : ℕ} {tm : ℕ → τ} {x : ℕ → NRow n} {a b : ℕ} (hb : Backtests bt T tm x a b)
    {cvx : Cvx n} (hcvx : cvx.Exact) {cons : ExtraCons} {d : Dict String (DatedTrader τ n)}
    (h : bt.run cvx (.minRisk cons) = .ok d) {name : String} {tr : DatedTrader τ n} (hm : (name, tr) ∈ d) :
    ∃ (i : ℕ) (c : Dict τ (Mat n)) (w : ℕ → Vec n), bt.covPredictors[i]? = some c ∧ bt.names[i]? = some name ∧
      tr.trader.ws = (tradingDays x a b).map (fun t => List.ofFn (w t)) ∧
      ∀ t ∈ tradingDays x a b, WithinLimits cons (w t) ∧
        ∀ R : Ω → Vec n, (∀ i, MemLp (fun ω => R ω i) 2 P) → c.lookup (tm t) = some (covarianceOf P R) →
          ∀ v, WithinLimits cons v →
            ProbabilityTheory.variance (fun ω => w t ⬝ᵥ R ω) P ≤ ProbabilityTheory.variance (fun ω => v ⬝ᵥ R ω) P := by
  obtain ⟨i, c, w, h1, h2, h3, _, h4⟩ := C109_min_risk hb hcvx h hm none none
  refine ⟨i, c, w, h1, h2, h3, fun t ht => ?_⟩
  obtain ⟨S, h5, h6, h7⟩ := h4 t ht
  refine ⟨h6, fun R hR hc v hv => ?_⟩
  rw [hc] at h5
  cases h5
  have := h7 (covarianceOf_symm R) v hv
  rw [← C177_variance hR, ← C177_variance hR] at this
  exact (Real.sqrt_le_sqrt_iff (variance_nonneg _ _)).1 this

/-- **C177.** `MinRisk` with a wrong prediction: if the predicted variance of every portfolio is between `lo` and `hi` times the true
one, the portfolio held has at most `hi / lo` times the least variance. -/
theorem C177_min_risk_error {bt : Backtest τ n} {T : ℕ} {tm : ℕ → τ} {x : ℕ → NRow n} {a b : ℕ} (hb : Backtests bt T tm x a b)
    {cvx : Cvx n} (hcvx : cvx.Exact) {cons : ExtraCons} {d : Dict String (DatedTrader τ n)}
    (h : bt.run cvx (.minRisk cons) = .ok d) {name : String} {tr : DatedTrader τ n} (hm : (name, tr) ∈ d) :
    ∃ (i : ℕ) (c : Dict τ (Mat n)) (w : ℕ → Vec n), bt.covPredictors[i]? = some c ∧ bt.names[i]? = some name ∧
      tr.trader.ws = (tradingDays x a b).map (fun t => List.ofFn (w t)) ∧
      ∀ t ∈ tradingDays x a b, ∃ S, c.lookup (tm t) = some S ∧
        ∀ R : Ω → Vec n, (∀ i, MemLp (fun ω => R ω i) 2 P) → Sᵀ = S → ∀ lo hi : ℝ, 0 < lo →
          (∀ v : Vec n, lo * ProbabilityTheory.variance (fun ω => v ⬝ᵥ R ω) P ≤ v ⬝ᵥ (S *ᵥ v) ∧
            v ⬝ᵥ (S *ᵥ v) ≤ hi * ProbabilityTheory.variance (fun ω => v ⬝ᵥ R ω) P) →
          ∀ v, WithinLimits cons v → ProbabilityTheory.variance (fun ω => w t ⬝ᵥ R ω) P ≤
            hi / lo * ProbabilityTheory.variance (fun ω => v ⬝ᵥ R ω) P := by
  obtain ⟨i, c, w, h1, h2, h3, _, h4⟩ := C109_min_risk hb hcvx h hm none none
  refine ⟨i, c, w, h1, h2, h3, fun t ht => ?_⟩
  obtain ⟨S, h5, h6, h7⟩ := h4 t ht
  refine ⟨S, h5, fun R hR hsym lo hi hlo hbd v hv => ?_⟩
  have hle := h7 hsym v hv
  unfold predictedStd at hle
  have hpos : 0 ≤ v ⬝ᵥ (S *ᵥ v) := le_trans (mul_nonneg hlo.le (variance_nonneg _ _)) (hbd v).1
  have hle' := (Real.sqrt_le_sqrt_iff hpos).1 hle
  rw [div_mul_eq_mul_div, le_div_iff₀ hlo, mul_comm]
  exact (hbd (w t)).1.trans (hle'.trans (hbd v).2)

/-- **C177.** `MeanVariance` (no uncertainties) with an exact solver: if on a trading day mean and covariance of the next returns are
the predicted ones, the annualised volatility of the portfolio held is at most the target, and no portfolio within the limits whose
volatility is at most the target has a higher expected return (over cash). -/
theorem C177_mean_variance {bt : Backtest τ n} {T : ℕ} {tm : ℕ → τ} {x : ℕ → NRow n} {a b : ℕ} (hb : Backtests bt T tm x a b)
    {cvx : Cvx n} (hcvx : cvx.Exact) {cons : ExtraCons} {sigmaTar : ℝ} {d : Dict String (DatedTrader τ n)}
    (h : bt.run cvx (.meanVariance cons sigmaTar none) = .ok d) {name : String} {tr : DatedTrader τ n} (hm : (name, tr) ∈ d) :
    ∃ (i : ℕ) (c : Dict τ (Mat n)) (ms : List (Dict τ (Vec n))) (m : Dict τ (Vec n)) (w : ℕ → Vec n) (cash : ℕ → ℝ),
      bt.covPredictors[i]? = some c ∧ bt.names[i]? = some name ∧ bt.meanPredictors = some ms ∧ ms[i]? = some m ∧
      tr.trader.ws = (tradingDays x a b).map (fun t => List.ofFn (w t) ++ [cash t]) ∧
      ∀ t ∈ tradingDays x a b, ∀ R : Ω → Vec n, (∀ i, MemLp (fun ω => R ω i) 2 P) →
        c.lookup (tm t) = some (covarianceOf P R) → m.lookup (tm t) = some (expectedReturn P R) →
        Real.sqrt (252 * ProbabilityTheory.variance (fun ω => w t ⬝ᵥ R ω) P) ≤ sigmaTar ∧
        WithinLimitsCash cons (w t) (cash t) ∧
        ∀ (v : Vec n) (k : ℝ), WithinLimitsCash cons v k →
          Real.sqrt (252 * ProbabilityTheory.variance (fun ω => v ⬝ᵥ R ω) P) ≤ sigmaTar → ∫ ω, v ⬝ᵥ R ω ∂P ≤ ∫ ω, w t ⬝ᵥ R ω ∂P := by
  obtain ⟨i, c, ms, m, w, cash, h1, h2, h3, h4, h5, _, h6⟩ := C109_mean_variance hb hcvx h hm none none []
  refine ⟨i, c, ms, m, w, cash, h1, h2, h3, h4, h5, fun t ht R hR hc hmu => ?_⟩
  obtain ⟨S, mu, h7, h8, h0, h9, rho, hrho, h10⟩ := h6 t ht
  rw [hc] at h7
  rw [hmu] at h8
  cases h7
  cases h8
  have hrn : rho = none := by cases hrho; rfl
  subst hrn
  have hsym := covarianceOf_symm (P := P) R
  have hstd : ∀ v : Vec n, Real.sqrt (252 * ProbabilityTheory.variance (fun ω => v ⬝ᵥ R ω) P)
      = Real.sqrt 252 * predictedStd (covarianceOf P R) v := fun v => by
    rw [Real.sqrt_mul (by norm_num), C177_variance hR]
  refine ⟨by rw [hstd]; exact h9 hsym, h0, fun v k hk hv1 => ?_⟩
  rw [hstd] at hv1
  have := h10 hsym v k hk hv1
  rw [mean_dot hR, mean_dot hR, dotProduct_comm v, dotProduct_comm (w t)]
  simpa [cautiousReturn, dotProduct] using this

/-- **C177.** Dilution with cash: with predicted covariances `Sig`, random returns `R` and risk-free returns that are not random, the
annualised standard deviation of the return of every row is the target times the ratio of the true to the predicted standard
deviation of the undiluted portfolio: exactly the target if the prediction is correct. -/
theorem C177_diluted (s : Ω → Trader n) (T : ℕ) (hT : 0 < T) (R : Ω → ℕ → Vec n) (w : ℕ → Vec n) (Sig : ℕ → Mat n)
    (hd : ∀ ω, (s ω).diluted = false) (hr : ∀ ω, (s ω).returns = (List.range T).map (R ω))
    (hS : ∀ ω, (s ω).sigmas = (List.range T).map Sig) (hw : ∀ ω, (s ω).ws = (List.range T).map fun t => List.ofFn (w t))
    (hR : ∀ t < T, ∀ i, MemLp (fun ω => R ω t i) 2 P) {x : ℝ} (hx : 0 ≤ x) (rf : ℕ → ℝ) (extra : List ℝ) :
    ∃ (s' : Ω → Trader n) (ret : Ω → ℕ → ℝ),
      (∀ ω, (s ω).getTotalReturns true (some x) (some ((List.range T).map rf ++ extra)) = .ok (s' ω) ∧
        (s' ω).rets = (List.range T).map (ret ω)) ∧
      ∀ t < T, 0 < predictedStd (Sig t) (w t) →
        Real.sqrt (252 * ProbabilityTheory.variance (fun ω => ret ω t) P)
          = x * (Real.sqrt (ProbabilityTheory.variance (fun ω => w t ⬝ᵥ R ω t) P) / predictedStd (Sig t) (w t)) ∧
        (Sig t = covarianceOf P (fun ω => R ω t) →
          Real.sqrt (252 * ProbabilityTheory.variance (fun ω => ret ω t) P) = x) := by
  have hall := fun ω => C53_diluted_returns (s ω) (hd ω) T hT (R ω) w Sig (hr ω) (hS ω) (hw ω) x (some rf) extra
  choose s' h1 h2 using hall
  refine ⟨s', _, fun ω => ⟨h1 ω, h2 ω⟩, fun t ht hp => ?_⟩
  have hv : Real.sqrt (252 * ProbabilityTheory.variance (fun ω => x / (Real.sqrt 252 * predictedStd (Sig t) (w t)) * (w t ⬝ᵥ R ω t)
      + (1 - x / (Real.sqrt 252 * predictedStd (Sig t) (w t))) * ((some rf).getD fun _ => 0) t) P)
      = x * (Real.sqrt (ProbabilityTheory.variance (fun ω => w t ⬝ᵥ R ω t) P) / predictedStd (Sig t) (w t)) := by
    rw [variance_add_const ((memLp_dot (hR t ht) (w t)).const_mul _).aestronglyMeasurable, variance_const_mul,
      ← mul_assoc, Real.sqrt_mul' _ (variance_nonneg _ _)]
    have e : (252 : ℝ) * (x / (Real.sqrt 252 * predictedStd (Sig t) (w t))) ^ 2 = (x / predictedStd (Sig t) (w t)) ^ 2 := by
      rw [div_pow, div_pow, mul_pow, Real.sq_sqrt (by norm_num)]
      field_simp
    rw [e, Real.sqrt_sq (div_nonneg hx hp.le)]
    ring
  refine ⟨hv, fun hc => hv.trans ?_⟩
  rw [C177_variance (hR t ht), ← hc, div_self hp.ne', mul_one]

end CovPred

/-
Returns of +1 or -1, the two assets independent: mean 0 and covariance 1, the predictions of the runs in `BacktestsExamples` (so the
hypotheses of `C177_min_risk` and `C177_mean_variance` hold there, on all three trading days); a trader that predicts them for
`C177_diluted`.
-/
namespace CovPred.RandomEx
open MeasureTheory ProbabilityTheory

noncomputable def Q (ω : Fin 4) : Vec 2 := ![if ω.1 < 2 then 1 else -1, if ω.1 = 0 ∨ ω.1 = 2 then 1 else -1]

theorem expected_Q : expectedReturn P Q = 0 := by
  funext i
  show ∫ ω, Q ω i ∂P = 0
  rw [integral_eq]
  fin_cases i <;> norm_num [Q]

theorem covariance_Q : covarianceOf P Q = 1 := by
  unfold covarianceOf
  rw [expected_Q]
  ext i j
  show ∫ ω, (Q ω i - 0) * (Q ω j - 0) ∂P = _
  rw [integral_eq]
  fin_cases i <;> fin_cases j <;> norm_num [Q]

example : (∀ i, MemLp (fun ω => Q ω i) 2 P) ∧ expectedReturn P Q = 0 ∧ covarianceOf P Q = 1 :=
  ⟨fun _ => memLp _, expected_Q, covariance_Q⟩

noncomputable def trader (ω : Fin 4) : Trader 2 where
  returns := (List.range 3).map fun _ => Q ω
  sigmas := (List.range 3).map fun _ => 1
  portfolioType := .minRisk
  adjustFactor := 1
  ws := (List.range 3).map fun _ => List.ofFn ![1 / 2, 1 / 2]
  diluted := false
  wsDiluted := none
  rets := []
  Vs := []
  retsAdjusted := []
  VsAdjusted := []

example : (∀ ω, (trader ω).diluted = false) ∧ (∀ ω, (trader ω).ws = (List.range 3).map fun _ => List.ofFn ![1 / 2, 1 / 2]) ∧
    0 < predictedStd (1 : Mat 2) ![1 / 2, 1 / 2] ∧ (1 : Mat 2) = covarianceOf P (fun ω => Q ω) := by
  refine ⟨fun _ => rfl, fun _ => rfl, ?_, covariance_Q.symm⟩
  unfold predictedStd
  apply Real.sqrt_pos.2
  norm_num [dotProduct, Fin.sum_univ_two]

end CovPred.RandomEx
