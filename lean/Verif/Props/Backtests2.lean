import Verif.Props.Backtests

/-
C108-C112: what the backtests compute.
-/
namespace CovPred
open Matrix
set_option linter.unusedSectionVars false

variable {τ : Type} [DecidableEq τ] {n : ℕ}

private theorem map_as_range {B : Type} (l : List ℕ) (f : ℕ → B) :
    l.map f = (List.range l.length).map fun k => f (l.getD k 0) := by
  apply List.ext_getElem
  · simp
  · intro i h1 h2
    have hi : i < l.length := by simpa using h1
    simp [List.getD_eq_getElem?_getD, hi]

/-- a trader without cash, over any list of days -/
theorem returns_days (s : Trader n) (hp : NoCash s.portfolioType) (l : List ℕ) (r w : ℕ → Vec n)
    (hr : s.returns = l.map r) (hw : s.ws = l.map fun t => List.ofFn (w t)) (y : Option ℝ) (rf : Option (List ℝ)) :
    s.getTotalReturns false y rf = .ok { s with rets := l.map fun t => ∑ i, w t i * r t i } := by
  rw [map_as_range l] at hr hw
  rw [C79_returns s hp l.length (fun k => r (l.getD k 0)) (fun k => w (l.getD k 0)) hr hw y rf, map_as_range l]

/-- **C79.** The returns of a `mean_variance` portfolio: the weighted sum of the returns of the row and the weight of cash
times the risk-free rate at the same position (0 if no series is given). -/
theorem C79_cash_returns (s : Trader n) (hp : s.portfolioType = .meanVariance) (T : ℕ) (r w : ℕ → Vec n) (c : ℕ → ℝ)
    (hr : s.returns = (List.range T).map r) (hw : s.ws = (List.range T).map fun t => List.ofFn (w t) ++ [c t]) (y : Option ℝ)
    (rf : Option (ℕ → ℝ)) (extra : List ℝ) :
    s.getTotalReturns false y (rf.map fun f => (List.range T).map f ++ extra)
      = .ok { s with rets := (List.range T).map fun t => ∑ i, w t i * r t i + c t * (rf.getD fun _ => 0) t } := by
  have key : ∀ (m k : ℕ) (acc : List ℝ), k + m = T →
      totalReturnsLoop false y (rf.map fun f => (List.range T).map f ++ extra) ((List.range' k m).map r) k s acc
        = .ok (s, acc ++ (List.range' k m).map fun t => ∑ i, w t i * r t i + c t * (rf.getD fun _ => 0) t) := by
    intro m
    induction m with
    | zero => intro k acc _; simp [totalReturnsLoop]
    | succ m ih =>
      intro k acc hk
      rw [List.range'_succ, List.map_cons, List.map_cons]
      unfold totalReturnsLoop
      have hk' : k < T := by omega
      have hcond : (s.portfolioType = .volCont ∨ s.portfolioType = .meanVariance ∨ s.portfolioType = .meanVariance2
          ∨ false = true) := .inr (.inl hp)
      have hcash : cashReturn (rf.map fun f => (List.range T).map f ++ extra) k = .ok ((rf.getD fun _ => 0) k) := by
        cases rf with
        | none => rfl
        | some f =>
          simp only [cashReturn, Option.map_some, Option.getD_some]
          rw [List.getElem?_append_left (by simpa using hk')]
          simp [hk']
      have hdot : npDot ((s.ws[k]?).getD []) (List.ofFn (r k) ++ [(rf.getD fun _ => 0) k])
          = .ok (∑ i, w k i * r k i + c k * (rf.getD fun _ => 0) k) := by
        rw [hw]
        simp only [List.getElem?_map, List.getElem?_range hk', Option.map_some, Option.getD_some]
        unfold npDot
        rw [if_pos (by simp), List.zipWith_append (by simp), List.sum_append, zipWith_ofFn_sum]
        simp
      dsimp only
      rw [if_pos hcond, hcash]
      change (npDot ((s.ws[k]?).getD []) (List.ofFn (r k) ++ [(rf.getD fun _ => 0) k]) >>= _ : Except Err _) = _
      rw [hdot]
      change totalReturnsLoop false y _ ((List.range' (k + 1) m).map r) (k + 1) s (acc ++ [_]) = _
      rw [ih (k + 1) _ (by omega), List.append_assoc]
      rfl
  have := key T 0 [] (by omega)
  rw [← List.range_eq_range', List.nil_append, ← hr] at this
  unfold Trader.getTotalReturns
  rw [this]
  rfl

/-- what a run says about the days of one trader -/
theorem run_days {bt : Backtest τ n} {T : ℕ} {tm : ℕ → τ} {x : ℕ → NRow n} {a b : ℕ} (hb : Backtests bt T tm x a b)
    {cvx : Cvx n} {st : Strategy τ n} {d : Dict String (DatedTrader τ n)} (h : bt.run cvx st = .ok d) {name : String}
    {tr : DatedTrader τ n} (hm : (name, tr) ∈ d) :
    ∃ (i : ℕ) (c : Dict τ (Mat n)) (mus : Option (Dict τ (Vec n))), bt.covPredictors[i]? = some c ∧
      bt.names[i]? = some name ∧ meanPredictor st bt i = .ok mus ∧
      (∀ j, i < j → j < bt.covPredictors.length → bt.names[j]? ≠ some name) ∧
      tr.trader.portfolioType = st.ptype ∧ tr.trader.adjustFactor = 1 ∧
      tr.trader.returns = (tradingDays x a b).map (fun t => rowValues (x (t + 1))) ∧
      ∃ (S L : ℕ → Mat n) (mu rho : ℕ → Option (Vec n)) (W : ℕ → List ℝ),
        tr.trader.ws = (tradingDays x a b).map W ∧ tr.trader.sigmas = (tradingDays x a b).map S ∧
        ∀ t ∈ tradingDays x a b, c.lookup (tm t) = some (S t) ∧ getLInv (S t) = .ok (L t) ∧
          optItem mus (tm t) = .ok (mu t) ∧ optItem st.rhos (tm t) = .ok (rho t) ∧
          dayWeights cvx st ⟨S t, L t, mu t, rho t⟩ = .ok (W t) ∧ dayOutcome cvx st c mus (tm t) = .ok (W t) := by
  obtain ⟨i, c, mus, h1, h2, h3, h4, h5⟩ := run_mem h hm
  obtain ⟨_, S, W, hSW, rfl⟩ := (backtestOne_ok_iff hb.labels hb.assets x hb.first hb.last cvx st bt hb.returns hb.start
    hb.stop c mus tr).1 h4
  have hout : ∀ t ∈ tradingDays x a b, ∃ (L : Mat n) (mu rho : Option (Vec n)), getLInv (S t) = .ok L ∧
      optItem mus (tm t) = .ok mu ∧ optItem st.rhos (tm t) = .ok rho ∧ dayWeights cvx st ⟨S t, L, mu, rho⟩ = .ok (W t) := by
    intro t ht
    have h := (hSW t ht).2
    unfold dayOutcome at h
    simp only [bind_ok_iff] at h
    obtain ⟨S', h1, mu, h2, L, h3, rho, h4, h5⟩ := h
    rw [getItem_ok_iff, (hSW t ht).1] at h1
    cases h1
    exact ⟨L, mu, rho, h3, h2, h4, h5⟩
  choose! L mu rho hL hmu hrho hw using hout
  exact ⟨i, c, mus, h1, h2, h3, h5, rfl, rfl, rfl, S, L, mu, rho, W, rfl, rfl, fun t ht =>
    ⟨(hSW t ht).1, hL t ht, hmu t ht, hrho t ht, hw t ht, (hSW t ht).2⟩⟩

theorem posDef_of_getLInv {S L : Mat n} (h : getLInv S = .ok L) (hsym : Sᵀ = S) : S.PosDef := by
  unfold getLInv at h
  simp only [bind_ok_iff] at h
  obtain ⟨Th, h4, L', h5, _⟩ := h
  obtain ⟨hdet, rfl⟩ := inv?_ok h4
  rw [chol?_ok_iff] at h5
  have hsymi : (S⁻¹)ᵀ = S⁻¹ := by rw [Matrix.transpose_nonsing_inv, hsym]
  rw [symLower_of_symm hsymi] at h5
  have hp : S⁻¹.PosDef := exists_chol_iff.1 ⟨L', h5⟩
  have := hp.inv
  rwa [Matrix.nonsing_inv_nonsing_inv S (isUnit_iff_ne_zero.2 hdet)] at this

/-! ### C108: equal weights -/

/-- **C108.** `EqWeighted`: every trader, whatever its predictor, holds `1/n` of every asset on every trading day and earns
the average of the next row's returns; so all traders of a result have the same dates, weights and returns. -/
theorem C108_equal_weights {bt : Backtest τ n} {T : ℕ} {tm : ℕ → τ} {x : ℕ → NRow n} {a b : ℕ} (hb : Backtests bt T tm x a b)
    {cvx : Cvx n} {d : Dict String (DatedTrader τ n)} (h : bt.run cvx .eqWeighted = .ok d) {name : String}
    {tr : DatedTrader τ n} (hm : (name, tr) ∈ d) (y : Option ℝ) (rf : Option (List ℝ)) :
    tr.dates = (tradingDays x a b).map tm ∧
    tr.trader.ws = (tradingDays x a b).map (fun _ => List.ofFn fun _ : Fin n => (1 : ℝ) / n) ∧
    ∃ s, tr.trader.getTotalReturns false y rf = .ok s ∧
      s.rets = (tradingDays x a b).map fun t => (∑ i, rowValues (x (t + 1)) i) / n := by
  obtain ⟨i, c, mus, _, _, _, _, hpt, _, hret, S, L, mu, rho, W, hws, _, hall⟩ := run_days hb h hm
  have hW : tr.trader.ws = (tradingDays x a b).map (fun _ => List.ofFn fun _ : Fin n => (1 : ℝ) / n) := by
    rw [hws]
    refine List.map_congr_left fun t ht => ?_
    obtain ⟨_, _, _, _, h5, _⟩ := hall t ht
    exact (Except.ok.inj h5).symm
  refine ⟨(C106_pairing hb h hm).1, hW, _, returns_days tr.trader ?_ _ _ (fun _ _ => (1 : ℝ) / n) hret hW y rf, ?_⟩
  · rw [hpt]; exact ⟨PType.noConfusion, PType.noConfusion, PType.noConfusion⟩
  · dsimp only
    refine List.map_congr_left fun t _ => ?_
    rw [Finset.sum_div]
    exact Finset.sum_congr rfl fun i _ => by ring

/-! ### C109: the optimising strategies -/

/-- **C109.** `MinRisk` with an exact solver: on every trading day the weights obey the limits and no portfolio that does has
a smaller risk under the covariance predicted on that day; the return earned is that of the next row. -/
theorem C109_min_risk {bt : Backtest τ n} {T : ℕ} {tm : ℕ → τ} {x : ℕ → NRow n} {a b : ℕ} (hb : Backtests bt T tm x a b)
    {cvx : Cvx n} (hcvx : cvx.Exact) {cons : ExtraCons} {d : Dict String (DatedTrader τ n)}
    (h : bt.run cvx (.minRisk cons) = .ok d) {name : String} {tr : DatedTrader τ n} (hm : (name, tr) ∈ d) (y : Option ℝ)
    (rf : Option (List ℝ)) :
    ∃ (i : ℕ) (c : Dict τ (Mat n)) (w : ℕ → Vec n), bt.covPredictors[i]? = some c ∧ bt.names[i]? = some name ∧
      tr.trader.ws = (tradingDays x a b).map (fun t => List.ofFn (w t)) ∧
      (∃ s, tr.trader.getTotalReturns false y rf = .ok s ∧
        s.rets = (tradingDays x a b).map fun t => ∑ i, w t i * rowValues (x (t + 1)) i) ∧
      ∀ t ∈ tradingDays x a b, ∃ S, c.lookup (tm t) = some S ∧ WithinLimits cons (w t) ∧
        (Sᵀ = S → ∀ v, WithinLimits cons v → predictedStd S (w t) ≤ predictedStd S v) := by
  obtain ⟨i, c, mus, h1, h2, _, _, hpt, _, hret, S, L, mu, rho, W, hws, _, hall⟩ := run_days hb h hm
  have hw : ∀ t ∈ tradingDays x a b, ∃ w, cvx.minRisk cons (L t) = .ok w ∧ W t = List.ofFn w := by
    intro t ht
    obtain ⟨_, _, _, _, h5, _⟩ := hall t ht
    unfold dayWeights at h5
    rw [bind_ok_iff] at h5
    obtain ⟨w, h6, h7⟩ := h5
    exact ⟨w, h6, (Except.ok.inj h7).symm⟩
  choose! w hw1 hw2 using hw
  have hws' : tr.trader.ws = (tradingDays x a b).map fun t => List.ofFn (w t) := by
    rw [hws]; exact List.map_congr_left hw2
  refine ⟨i, c, w, h1, h2, hws', ⟨_, returns_days tr.trader (by rw [hpt]; exact ⟨PType.noConfusion, PType.noConfusion, PType.noConfusion⟩) _ _ w hret hws'
    y rf, rfl⟩, fun t ht => ?_⟩
  obtain ⟨h3, h4, _⟩ := hall t ht
  obtain ⟨h5, h6⟩ := hcvx.minRisk _ _ _ (hw1 t ht)
  refine ⟨S t, h3, h5, fun hsym v hv => ?_⟩
  obtain ⟨L', hL', hr⟩ := C56_whitener (posDef_of_getLInv h4 hsym)
  rw [h4] at hL'
  cases hL'
  rw [← hr, ← hr]
  exact h6 v hv

/-- **C109.** `MaxDiverse` with an exact solver: on every trading day the weights are the long-only portfolio within the
upper bound with the largest diversification ratio under the covariance predicted on that day. -/
theorem C109_max_diverse {bt : Backtest τ n} {T : ℕ} {tm : ℕ → τ} {x : ℕ → NRow n} {a b : ℕ} (hb : Backtests bt T tm x a b)
    {cvx : Cvx n} (hcvx : cvx.Exact) {cons : ExtraCons} {M : ℝ} (hM : cons.upperBound = some M)
    {d : Dict String (DatedTrader τ n)}
    (h : bt.run cvx (.maxDiverse cons) = .ok d) {name : String} {tr : DatedTrader τ n} (hm : (name, tr) ∈ d) (y : Option ℝ)
    (rf : Option (List ℝ)) :
    ∃ (i : ℕ) (c : Dict τ (Mat n)) (w : ℕ → Vec n), bt.covPredictors[i]? = some c ∧ bt.names[i]? = some name ∧
      tr.trader.ws = (tradingDays x a b).map (fun t => List.ofFn (w t)) ∧
      (∃ s, tr.trader.getTotalReturns false y rf = .ok s ∧
        s.rets = (tradingDays x a b).map fun t => ∑ i, w t i * rowValues (x (t + 1)) i) ∧
      ∀ t ∈ tradingDays x a b, ∃ S, c.lookup (tm t) = some S ∧
        (Sᵀ = S → LongOnly M (w t) ∧ ∀ v, LongOnly M v → divRatio S v ≤ divRatio S (w t)) := by
  obtain ⟨i, c, mus, h1, h2, _, _, hpt, _, hret, S, L, mu, rho, W, hws, _, hall⟩ := run_days hb h hm
  have hw : ∀ t ∈ tradingDays x a b, ∃ z, cvx.maxDiverse M (L t) (fun i => Real.sqrt (S t i i)) = .ok z ∧
      W t = List.ofFn (normalizeW z) := by
    intro t ht
    obtain ⟨_, _, _, _, h5, _⟩ := hall t ht
    simp only [dayWeights, hM] at h5
    rw [bind_ok_iff] at h5
    obtain ⟨w, h6, h7⟩ := h5
    exact ⟨w, h6, (Except.ok.inj h7).symm⟩
  choose! z hw1 hw2 using hw
  have hws' : tr.trader.ws = (tradingDays x a b).map fun t => List.ofFn (normalizeW (z t)) := by
    rw [hws]; exact List.map_congr_left hw2
  refine ⟨i, c, fun t => normalizeW (z t), h1, h2, hws', ⟨_, returns_days tr.trader
    (by rw [hpt]; exact ⟨PType.noConfusion, PType.noConfusion, PType.noConfusion⟩) _ _ (fun t => normalizeW (z t)) hret hws' y rf, rfl⟩, fun t ht => ?_⟩
  obtain ⟨h3, h4, _⟩ := hall t ht
  exact ⟨S t, h3, fun hsym => C83_max_diverse (posDef_of_getLInv h4 hsym) h4 M (z t) (hcvx.maxDiverse _ _ _ _ (hw1 t ht))⟩

/-- **C109.** `MaxDiverse` needs an upper bound: without that key no run succeeds. -/
theorem C109_max_diverse_bound {bt : Backtest τ n} {T : ℕ} {tm : ℕ → τ} {x : ℕ → NRow n} {a b : ℕ}
    (hb : Backtests bt T tm x a b) (cvx : Cvx n) {cons : ExtraCons} (hM : cons.upperBound = none)
    (hc : bt.covPredictors ≠ []) : ∀ d, bt.run cvx (.maxDiverse cons) ≠ .ok d := by
  intro d h
  obtain ⟨c, rest, hcov⟩ := List.exists_cons_of_ne_nil hc
  obtain ⟨h1, _, mus, _, h4⟩ := (C107_success hb cvx (.maxDiverse cons)).1 ⟨d, h⟩ 0 c (by rw [hcov]; rfl)
  obtain ⟨t, rest', ht⟩ := List.exists_cons_of_ne_nil h1
  obtain ⟨w, hw⟩ := h4 t (by rw [ht]; simp)
  unfold dayOutcome at hw
  simp only [bind_ok_iff] at hw
  obtain ⟨_, _, _, _, _, _, _, _, hw⟩ := hw
  simp only [dayWeights, hM] at hw
  cases hw

/-- **C109.** `RiskParity` with an exact solver: on every trading day the weights are positive, sum to one and all assets
contribute equally to the risk under the covariance predicted on that day. -/
theorem C109_risk_parity {bt : Backtest τ n} {T : ℕ} {tm : ℕ → τ} {x : ℕ → NRow n} {a b : ℕ} (hb : Backtests bt T tm x a b)
    {cvx : Cvx n} (hcvx : cvx.Exact) {d : Dict String (DatedTrader τ n)}
    (h : bt.run cvx .riskParity = .ok d) {name : String} {tr : DatedTrader τ n} (hm : (name, tr) ∈ d) (y : Option ℝ)
    (rf : Option (List ℝ)) :
    ∃ (i : ℕ) (c : Dict τ (Mat n)) (w : ℕ → Vec n), bt.covPredictors[i]? = some c ∧ bt.names[i]? = some name ∧
      tr.trader.ws = (tradingDays x a b).map (fun t => List.ofFn (w t)) ∧
      (∃ s, tr.trader.getTotalReturns false y rf = .ok s ∧
        s.rets = (tradingDays x a b).map fun t => ∑ i, w t i * rowValues (x (t + 1)) i) ∧
      ∀ t ∈ tradingDays x a b, ∃ S, c.lookup (tm t) = some S ∧
        (Sᵀ = S → (∀ i, 0 < w t i) ∧ ∑ i, w t i = 1 ∧ ∀ i j, w t i * (S *ᵥ w t) i = w t j * (S *ᵥ w t) j) := by
  obtain ⟨i, c, mus, h1, h2, _, _, hpt, _, hret, S, L, mu, rho, W, hws, _, hall⟩ := run_days hb h hm
  have hw : ∀ t ∈ tradingDays x a b, ∃ z, cvx.riskParity (L t) = .ok z ∧ W t = List.ofFn (normalizeW z) := by
    intro t ht
    obtain ⟨_, _, _, _, h5, _⟩ := hall t ht
    unfold dayWeights at h5
    rw [bind_ok_iff] at h5
    obtain ⟨w, h6, h7⟩ := h5
    exact ⟨w, h6, (Except.ok.inj h7).symm⟩
  choose! z hw1 hw2 using hw
  have hws' : tr.trader.ws = (tradingDays x a b).map fun t => List.ofFn (normalizeW (z t)) := by
    rw [hws]; exact List.map_congr_left hw2
  refine ⟨i, c, fun t => normalizeW (z t), h1, h2, hws', ⟨_, returns_days tr.trader
    (by rw [hpt]; exact ⟨PType.noConfusion, PType.noConfusion, PType.noConfusion⟩) _ _ (fun t => normalizeW (z t)) hret hws' y rf, rfl⟩, fun t ht => ?_⟩
  obtain ⟨h3, h4, _⟩ := hall t ht
  exact ⟨S t, h3, fun hsym => C84_equal_contributions hb.assets (posDef_of_getLInv h4 hsym) h4 (z t)
    (hcvx.riskParity _ _ (hw1 t ht))⟩

/-- **C109.** `MeanVariance` with an exact solver: on every trading day the weights and the cash are within the limits, their predicted
annual volatility is at most the target, and no portfolio within the limits has a larger expected return (less the
uncertainty, if given); the return earned is that of the next row plus the risk-free rate at the position of the row. -/
theorem C109_mean_variance {bt : Backtest τ n} {T : ℕ} {tm : ℕ → τ} {x : ℕ → NRow n} {a b : ℕ} (hb : Backtests bt T tm x a b)
    {cvx : Cvx n} (hcvx : cvx.Exact) {cons : ExtraCons} {sigmaTar : ℝ} {rhos : Option (Dict τ (Vec n))}
    {d : Dict String (DatedTrader τ n)} (h : bt.run cvx (.meanVariance cons sigmaTar rhos) = .ok d) {name : String}
    {tr : DatedTrader τ n} (hm : (name, tr) ∈ d) (y : Option ℝ) (rf : Option (ℕ → ℝ)) (extra : List ℝ) :
    ∃ (i : ℕ) (c : Dict τ (Mat n)) (ms : List (Dict τ (Vec n))) (m : Dict τ (Vec n)) (w : ℕ → Vec n) (cash : ℕ → ℝ),
      bt.covPredictors[i]? = some c ∧ bt.names[i]? = some name ∧ bt.meanPredictors = some ms ∧ ms[i]? = some m ∧
      tr.trader.ws = (tradingDays x a b).map (fun t => List.ofFn (w t) ++ [cash t]) ∧
      (∃ s, tr.trader.getTotalReturns false y
          (rf.map fun f => (List.range (tradingDays x a b).length).map f ++ extra) = .ok s ∧
        s.rets = ((tradingDays x a b).zipIdx 0).map fun p =>
          ∑ i, w p.1 i * rowValues (x (p.1 + 1)) i + cash p.1 * (rf.getD fun _ => 0) p.2) ∧
      ∀ t ∈ tradingDays x a b, ∃ S mu, c.lookup (tm t) = some S ∧ m.lookup (tm t) = some mu ∧
        WithinLimitsCash cons (w t) (cash t) ∧
        (Sᵀ = S → Real.sqrt 252 * predictedStd S (w t) ≤ sigmaTar) ∧
        ∃ rho, optItem rhos (tm t) = .ok rho ∧
          (Sᵀ = S → ∀ v k, WithinLimitsCash cons v k → Real.sqrt 252 * predictedStd S v ≤ sigmaTar →
            cautiousReturn mu rho v ≤ cautiousReturn mu rho (w t)) := by
  obtain ⟨i, c, mus, h1, h2, hmean, _, hpt, _, hret, S, L, mu, rho, W, hws, _, hall⟩ := run_days hb h hm
  have hms : ∃ ms m, bt.meanPredictors = some ms ∧ ms[i]? = some m ∧ mus = some m := by
    unfold meanPredictor at hmean
    dsimp only at hmean
    cases hb' : bt.meanPredictors with
    | none => rw [hb'] at hmean; cases hmean
    | some ms =>
      rw [hb'] at hmean
      dsimp only at hmean
      rw [bind_ok_iff] at hmean
      obtain ⟨m, h3, h4⟩ := hmean
      cases hi : ms[i]? with
      | none => rw [hi] at h3; cases h3
      | some m' => rw [hi] at h3; cases h3; cases h4; exact ⟨ms, m, rfl, hi, rfl⟩
  obtain ⟨ms, m, hms1, hms2, rfl⟩ := hms
  have hw : ∀ t ∈ tradingDays x a b, ∃ (p : Vec n × ℝ) (v : Vec n), m.lookup (tm t) = some v ∧
      cvx.meanVariance cons (sigmaTar * 1) (L t) v (rho t) = .ok p ∧ W t = List.ofFn p.1 ++ [p.2] := by
    intro t ht
    obtain ⟨_, _, hmu, _, h5, _⟩ := hall t ht
    rcases (optItem_ok_iff _ _ _).1 hmu with ⟨h, _⟩ | ⟨d', v, h, h6, h7⟩
    · cases h
    cases h
    unfold dayWeights at h5
    rw [h7] at h5
    dsimp only at h5
    rw [bind_ok_iff] at h5
    obtain ⟨p, h8, h9⟩ := h5
    exact ⟨p, v, h6, h8, (Except.ok.inj h9).symm⟩
  choose! p v hv hp hW using hw
  have hws' : tr.trader.ws = (tradingDays x a b).map fun t => List.ofFn (p t).1 ++ [(p t).2] := by
    rw [hws]; exact List.map_congr_left hW
  refine ⟨i, c, ms, m, fun t => (p t).1, fun t => (p t).2, h1, h2, hms1, hms2, hws', ?_, fun t ht => ?_⟩
  · have hr2 := hret
    have hw2 := hws'
    rw [map_as_range (tradingDays x a b)] at hr2 hw2
    refine ⟨_, C79_cash_returns tr.trader hpt _ (fun k => rowValues (x ((tradingDays x a b).getD k 0 + 1)))
      (fun k => (p ((tradingDays x a b).getD k 0)).1) (fun k => (p ((tradingDays x a b).getD k 0)).2) hr2 hw2 y rf extra, ?_⟩
    dsimp only
    apply List.ext_getElem
    · simp
    · intro k h3 h4
      have hk : k < (tradingDays x a b).length := by simpa using h3
      simp [List.getD_eq_getElem?_getD, hk]
  · obtain ⟨h3, h4, _, h6, _⟩ := hall t ht
    obtain ⟨h7, h8⟩ := hcvx.meanVariance _ _ _ _ _ _ (hp t ht)
    refine ⟨S t, v t, h3, hv t ht, ⟨h7.1, h7.2.2⟩, fun hsym => ?_, rho t, h6, fun hsym u k ⟨hu1, hu3, hu4, hu5⟩ hu2 => ?_⟩
    · have := (C86_risk_limit (posDef_of_getLInv h4 hsym) h4 cons 1 _ _ _ h7).1
      simpa using this
    · rw [← meanVarianceRet_eq _ _ _ k, ← meanVarianceRet_eq _ _ _ (p t).2]
      refine h8 u k ⟨hu1, ?_, hu3, hu4, hu5⟩
      obtain ⟨L', hL', hr⟩ := C56_whitener (posDef_of_getLInv h4 hsym)
      rw [h4] at hL'
      cases hL'
      rw [hr, mul_one, mul_one, le_div_iff₀ (by positivity), mul_comm]
      exact hu2

end CovPred
