import Verif.Spec.Units
import Verif.Props.Trader
import Verif.Props.Dilution

/-
Trading with returns recorded in percent.
-/
set_option linter.unusedSectionVars false
namespace CovPred
open Matrix

variable {n : ℕ}

private theorem sum_zip_mul (c : ℝ) : ∀ w r : List ℝ, (List.zipWith (· * ·) w (r.map (c * ·))).sum
    = c * (List.zipWith (· * ·) w r).sum := by
  intro w
  induction w with
  | nil => intro r; simp
  | cons a w ih =>
    intro r
    cases r with
    | nil => simp
    | cons b r =>
      simp only [List.map_cons, List.zipWith_cons_cons, List.sum_cons]
      rw [ih]; ring

private theorem npDot_units (c : ℝ) (w r : List ℝ) : npDot w (r.map (c * ·)) = (npDot w r).map (c * ·) := by
  unfold npDot
  rw [List.length_map]
  split
  · rw [sum_zip_mul]; rfl
  · rfl

private theorem cashReturn_units (c : ℝ) (rf : Option (List ℝ)) (t : ℕ) :
    cashReturn (rf.map (List.map (c * ·))) t = (cashReturn rf t).map (c * ·) := by
  unfold cashReturn
  cases rf with
  | none => simp [Except.map]
  | some rf =>
    simp only [Option.map_some, List.getElem?_map]
    cases rf[t]? <;> rfl

private theorem diluteRow_units {c : ℝ} (hc : 0 < c) (x : ℝ) (S : Mat n) (w : List ℝ) :
    diluteRow (c * x) (Matrix.of fun i j => c ^ 2 * S i j) w = diluteRow x S w := by
  have e : firstN n w ⬝ᵥ ((Matrix.of fun i j => c ^ 2 * S i j : Mat n) *ᵥ firstN n w)
      = c ^ 2 * (firstN n w ⬝ᵥ (S *ᵥ firstN n w)) := by
    have : (Matrix.of fun i j => c ^ 2 * S i j : Mat n) = (c ^ 2) • S := by ext i j; rfl
    rw [this, smul_mulVec, dotProduct_smul, smul_eq_mul]
  unfold diluteRow
  dsimp only
  rw [e, Real.sqrt_mul (by positivity), Real.sqrt_sq hc.le, mul_div_mul_left _ _ hc.ne']

private theorem dilute_units {c : ℝ} (hc : 0 < c) (s : Trader n) (x : ℝ) :
    (s.inUnits c).diluteWithCash (c * x) = (s.diluteWithCash x).inUnits c := by
  unfold Trader.diluteWithCash
  have hd : (s.inUnits c).diluted = s.diluted := rfl
  rw [hd]
  split
  · rfl
  · unfold Trader.inUnits
    dsimp only
    congr 2
    rw [List.zipWith_map_left]
    congr 1
    funext S w
    exact diluteRow_units hc x S w

/-- what a row adds to the list -/
private def out (c : ℝ) (p : Trader n × List ℝ) : Trader n × List ℝ := (p.1.inUnits c, p.2.map (c * ·))

private theorem ofFn_units (c : ℝ) (r : Vec n) : List.ofFn (fun i => c * r i) = (List.ofFn r).map (c * ·) := by
  rw [List.map_ofFn]; rfl

private theorem loop_units {c : ℝ} (hc : 0 < c) (b : Bool) (x : Option ℝ) (rf : Option (List ℝ)) :
    ∀ (rs : List (Vec n)) (t : ℕ) (s : Trader n) (acc : List ℝ),
      totalReturnsLoop b (x.map (c * ·)) (rf.map (List.map (c * ·))) (rs.map fun r => fun i => c * r i) t (s.inUnits c)
        (acc.map (c * ·)) = (totalReturnsLoop b x rf rs t s acc).map (out c) := by
  intro rs
  induction rs with
  | nil => intro t s acc; rfl
  | cons r rs ih =>
    intro t s acc
    have step : ∀ (s : Trader n) (w l : List ℝ),
        (npDot w (l.map (c * ·)) >>= fun v => totalReturnsLoop b (x.map (c * ·)) (rf.map (List.map (c * ·)))
          (rs.map fun r => fun i => c * r i) (t + 1) (s.inUnits c) (acc.map (c * ·) ++ [v]))
        = (npDot w l >>= fun v => totalReturnsLoop b x rf rs (t + 1) s (acc ++ [v])).map (out c) := by
      intro s w l
      rw [npDot_units]
      cases npDot w l with
      | error e => rfl
      | ok v =>
        show totalReturnsLoop b _ _ _ (t + 1) (s.inUnits c) (acc.map (c * ·) ++ [c * v]) = _
        rw [show acc.map (c * ·) ++ [c * v] = (acc ++ [v]).map (c * ·) by simp, ih]
        rfl
    have cash : ∀ (s : Trader n) (w : List ℝ),
        (cashReturn (rf.map (List.map (c * ·))) t >>= fun f => npDot w ((List.ofFn r).map (c * ·) ++ [f]) >>= fun v =>
          totalReturnsLoop b (x.map (c * ·)) (rf.map (List.map (c * ·)))
          (rs.map fun r => fun i => c * r i) (t + 1) (s.inUnits c) (acc.map (c * ·) ++ [v]))
        = (cashReturn rf t >>= fun f => npDot w (List.ofFn r ++ [f]) >>= fun v =>
            totalReturnsLoop b x rf rs (t + 1) s (acc ++ [v])).map (out c) := by
      intro s w
      rw [cashReturn_units]
      cases cashReturn rf t with
      | error e => rfl
      | ok f =>
        show (npDot w ((List.ofFn r).map (c * ·) ++ [c * f]) >>= _) = _
        rw [show (List.ofFn r).map (c * ·) ++ [c * f] = (List.ofFn r ++ [f]).map (c * ·) by simp, step]
        rfl
    rw [List.map_cons]
    unfold totalReturnsLoop
    dsimp only
    rw [ofFn_units]
    have hp : (s.inUnits c).portfolioType = s.portfolioType := rfl
    have hd : (s.inUnits c).diluted = s.diluted := rfl
    have hw : (s.inUnits c).ws = s.ws := rfl
    have hwd : (s.inUnits c).wsDiluted = s.wsDiluted := rfl
    rw [hp, hd, hw]
    by_cases h1 : s.portfolioType = .volCont ∨ s.portfolioType = .meanVariance ∨ s.portfolioType = .meanVariance2
          ∨ b = true
    · rw [if_pos h1, if_pos h1]
      cases b with
      | false =>
        simp only [Bool.false_eq_true, if_false, pure_bind, bind_assoc]
        exact cash s _
      | true =>
        simp only [if_true, bind_assoc]
        cases hdil : s.diluted with
        | true =>
          simp only [if_true, pure_bind, hwd]
          cases hwd' : s.wsDiluted with
          | none => rfl
          | some wd => exact cash s _
        | false =>
          simp only [Bool.false_eq_true, if_false]
          cases x with
          | none => rfl
          | some x =>
            simp only [Option.map_some, pure_bind]
            rw [dilute_units hc]
            have hwd2 : ((s.diluteWithCash x).inUnits c).wsDiluted = (s.diluteWithCash x).wsDiluted := rfl
            rw [hwd2]
            cases (s.diluteWithCash x).wsDiluted with
            | none => rfl
            | some wd => exact cash (s.diluteWithCash x) _
    · rw [if_neg h1, if_neg h1]
      simp only [pure_bind]
      exact step s _ _

/-- **C180.** The daily returns. In other units, with the target and the return of cash in these units too, `get_total_returns`
does the same: it raises the same exceptions, and otherwise leaves the same weights and the returns in these units. -/
theorem C180_returns {c : ℝ} (hc : 0 < c) (s : Trader n) (b : Bool) (x : Option ℝ) (rf : Option (List ℝ)) :
    (s.inUnits c).getTotalReturns b (x.map (c * ·)) (rf.map (List.map (c * ·)))
      = (s.getTotalReturns b x rf).map (Trader.inUnits c) := by
  unfold Trader.getTotalReturns
  have hr : (s.inUnits c).returns = s.returns.map fun r => fun i => c * r i := rfl
  rw [hr]
  have h := loop_units hc b x rf s.returns 0 s []
  rw [List.map_nil] at h
  rw [h]
  cases totalReturnsLoop b x rf s.returns 0 s [] with
  | error e => rfl
  | ok p => rfl

private theorem sum_range_map (T : ℕ) (p : ℕ → ℝ) : ((List.range T).map p).sum = ∑ t ∈ Finset.range T, p t := by
  induction T with
  | zero => simp
  | succ T ih => rw [List.range_succ, List.map_append, List.sum_append, ih, Finset.sum_range_succ]; simp

private theorem growth_units {c : ℝ} (hc : 0 < c) (a : ℝ) (l : List ℝ) :
    growth (c * a) (l.map (c * ·)) = growth a l := by
  unfold growth
  rw [List.foldl_map]
  congr 2
  funext acc r
  rw [mul_div_mul_left _ _ hc.ne']

/-- the state and the metrics in the new units -/
private def outM (c : ℝ) (p : Trader n × Metrics) : Trader n × Metrics := (p.1.inUnits c, p.2)

/-- **C180.** The metrics. In other units, with the target and the return of cash in these units too, `get_metrics` (without
`excess`) reports the same four numbers, or raises the same exception. -/
theorem C180_metrics {c : ℝ} (hc : 0 < c) (s : Trader n) (b : Bool) (x : Option ℝ) (rf : Option (List ℝ)) :
    ((s.inUnits c).getMetrics b (x.map (c * ·)) (rf.map (List.map (c * ·))) false).map Prod.snd
      = (s.getMetrics b x rf false).map Prod.snd := by
  unfold Trader.getMetrics
  rw [C180_returns hc]
  cases s.getTotalReturns b x rf with
  | error e => rfl
  | ok s1 =>
    have hV : (s1.inUnits c).getPortfolioGrowth.Vs = s1.getPortfolioGrowth.Vs := growth_units hc s1.adjustFactor s1.rets
    have hA : (s1.inUnits c).getPortfolioGrowth.rets.map (· / (s1.inUnits c).getPortfolioGrowth.adjustFactor)
        = s1.getPortfolioGrowth.rets.map (· / s1.getPortfolioGrowth.adjustFactor) := by
      show (s1.rets.map (c * ·)).map (· / (c * s1.adjustFactor)) = s1.rets.map (· / s1.adjustFactor)
      rw [List.map_map]
      apply List.map_congr_left
      intro y _
      exact mul_div_mul_left _ _ hc.ne'
    dsimp only [Except.map, bind, Except.bind, pure, Except.pure]
    simp only [Bool.false_eq_true, if_false]
    rw [hA, hV]
    cases maxDrawdown s1.getPortfolioGrowth.Vs <;> rfl

/-- **C180.** Excess returns. In other units and with the target in these units, but with the risk-free rates as fractions (as
`get_metrics` with `excess=True` needs them, since it subtracts them from the returns divided by the adjust factor), cash
earns `c` times too little: with `theta t` the share of the portfolio on day `t`, the mean excess return is that of the
unscaled trader less `252 (1 - 1 / c)` times the mean of the interest on the cash. The risk is that of the returns in the
new units, not of those divided by the adjust factor. -/
theorem C180_excess {c : ℝ} (hc : 0 < c) (s : Trader n) (hd : s.diluted = false) (ha : s.adjustFactor = 1) (T : ℕ) (hT : 0 < T)
    (r w : ℕ → Vec n) (Sig : ℕ → Mat n) (hr : s.returns = (List.range T).map r) (hS : s.sigmas = (List.range T).map Sig)
    (hw : s.ws = (List.range T).map fun t => List.ofFn (w t)) (x : ℝ) (f theta : ℕ → ℝ)
    (htheta : ∀ t, theta t = x / (Real.sqrt 252 * predictedStd (Sig t) (w t))) :
    ∃ s2 m s3 m',
      s.getMetrics true (some x) (some ((List.range T).map f)) true = .ok (s2, m) ∧
      (s.inUnits c).getMetrics true (some (c * x)) (some ((List.range T).map f)) true = .ok (s3, m') ∧
      m.meanReturn = 252 * ((∑ t ∈ Finset.range T, (theta t * (w t ⬝ᵥ r t) + (1 - theta t) * f t - f t)) / T) ∧
      m'.meanReturn = m.meanReturn - 252 * (1 - 1 / c) * ((∑ t ∈ Finset.range T, (1 - theta t) * f t) / T) ∧
      m'.risk = Real.sqrt 252 * deviation ((List.range T).map fun t => c * (theta t * (w t ⬝ᵥ r t)) + (1 - theta t) * f t) ∧
      m'.sharpe = m'.meanReturn / m'.risk := by
  have hTr : (T : ℝ) ≠ 0 := by exact_mod_cast hT.ne'
  obtain ⟨s1, h1, hr1⟩ := C53_diluted_returns s hd T hT r w Sig hr hS hw x (some f) []
  obtain ⟨s1', h1', hr1'⟩ := C53_diluted_returns (s.inUnits c) hd T hT (fun t i => c * r t i) w
    (fun t => Matrix.of fun i j => c ^ 2 * Sig t i j)
    (by show s.returns.map _ = _; rw [hr, List.map_map]; rfl)
    (by show s.sigmas.map _ = _; rw [hS, List.map_map]; rfl) hw (c * x) (some f) []
  simp only [Option.map_some, List.append_nil, Option.getD_some] at h1 h1' hr1 hr1'
  have hth' : ∀ t, c * x / (Real.sqrt 252 * predictedStd (Matrix.of fun i j => c ^ 2 * Sig t i j) (w t)) = theta t := by
    intro t
    have e : predictedStd (Matrix.of fun i j => c ^ 2 * Sig t i j) (w t) = c * predictedStd (Sig t) (w t) := by
      unfold predictedStd
      have : (Matrix.of fun i j => c ^ 2 * Sig t i j : Mat n) = (c ^ 2) • Sig t := by ext i j; rfl
      rw [this, smul_mulVec, dotProduct_smul, smul_eq_mul, Real.sqrt_mul (by positivity), Real.sqrt_sq hc.le]
    rw [e, htheta, show Real.sqrt 252 * (c * predictedStd (Sig t) (w t)) = c * (Real.sqrt 252 * predictedStd (Sig t) (w t)) by
      ring, mul_div_mul_left _ _ hc.ne']
  have hdot : ∀ t, (w t ⬝ᵥ fun i => c * r t i) = c * (w t ⬝ᵥ r t) := by
    intro t
    exact dotProduct_smul c (w t) (r t)
  have hL : s1.rets = (List.range T).map fun t => theta t * (w t ⬝ᵥ r t) + (1 - theta t) * f t := by
    rw [hr1]
    apply List.map_congr_left
    intro t _
    rw [← htheta]
  have hL' : s1'.rets = (List.range T).map fun t => c * (theta t * (w t ⬝ᵥ r t)) + (1 - theta t) * f t := by
    rw [hr1']
    apply List.map_congr_left
    intro t _
    rw [hth', hdot]; ring
  have hne : s.returns ≠ [] := by rw [hr]; simp; omega
  have hne' : (s.inUnits c).returns ≠ [] := by show s.returns.map _ ≠ []; simpa using hne
  obtain ⟨s2, m, dd, _, hm, m1, m2, m3, _⟩ := excess_np s s1 true (some x) _ hne h1 (by rw [hr]; simp)
  obtain ⟨s3, m', dd', _, hm', n1, n2, n3, _⟩ := excess_np (s.inUnits c) s1' true (some (c * x)) _ hne' h1'
    (by show _ = (s.returns.map _).length; rw [hr]; simp)
  have ha' : (s.inUnits c).adjustFactor = c := by show c * s.adjustFactor = c; rw [ha, mul_one]
  have zipm : ∀ (g : ℝ → ℝ → ℝ) (p q : ℕ → ℝ), List.zipWith g ((List.range T).map p) ((List.range T).map q)
      = (List.range T).map fun t => g (p t) (q t) := by
    intro g p q
    rw [List.zipWith_map, List.zipWith_self]
  have meanr : ∀ p : ℕ → ℝ, npMean ((List.range T).map p) = (∑ t ∈ Finset.range T, p t) / T := by
    intro p
    unfold npMean
    rw [List.length_map, List.length_range, sum_range_map]
  have e1 : m.meanReturn = 252 * ((∑ t ∈ Finset.range T, (theta t * (w t ⬝ᵥ r t) + (1 - theta t) * f t - f t)) / T) := by
    rw [m1, hL, zipm, meanr, ha]
    simp only [div_one]
  refine ⟨s2, m, s3, m', hm, hm', e1, ?_, ?_, n3⟩
  · rw [n1, e1, hL', zipm, meanr, ha']
    have : ∑ t ∈ Finset.range T, ((c * (theta t * (w t ⬝ᵥ r t)) + (1 - theta t) * f t) / c - f t)
        = ∑ t ∈ Finset.range T, (theta t * (w t ⬝ᵥ r t) + (1 - theta t) * f t - f t)
          - (1 - 1 / c) * ∑ t ∈ Finset.range T, (1 - theta t) * f t := by
      rw [Finset.mul_sum, ← Finset.sum_sub_distrib]
      apply Finset.sum_congr rfl
      intro t _
      field_simp
      ring
    rw [this]
    field_simp
  · rw [n2, hL', npStd_deviation]

/-- **C180.** The target. Leaving it as a fraction (`0.1`) puts `c` times less into the portfolio, and squaring the unit
(`0.1 * 100 ** 2`) `c` times more: the predicted annual volatility of the diluted portfolio is the given number, in the units
of the returns. -/
theorem C180_target {c : ℝ} (hc : 0 < c) (S : Mat n) (w : List ℝ) (hw : w.length = n)
    (hrisk : 0 < predictedStd S (firstN n w)) {x : ℝ} (hx : 0 ≤ x) (k : ℝ) (hk : 0 ≤ k) :
    Real.sqrt 252 * predictedStd S (firstN n (diluteRow (k * x) (Matrix.of fun i j => c ^ 2 * S i j) w)) = k / c * x := by
  have h := diluteRow_units hc (k / c * x) S w
  rw [show c * (k / c * x) = k * x by field_simp] at h
  rw [h]
  exact (C53_dilute_row S w hw (by positivity) hrisk).1

/-! ### The hypotheses are met -/

/-- a trader with one asset, two rows and variance 4 -/
private noncomputable def unTrader : Trader 1 :=
  { returns := (List.range 2).map fun t : ℕ => (![(t : ℝ) + 1] : Vec 1)
    sigmas := (List.range 2).map fun _ => (!![4] : Mat 1)
    portfolioType := .minRisk
    ws := (List.range 2).map fun _ => List.ofFn (![1] : Vec 1) }

private theorem unStd (x : ℝ) : x / (Real.sqrt 252 * predictedStd (!![4] : Mat 1) ![1]) = x / (Real.sqrt 252 * 2) := by
  have : predictedStd (!![4] : Mat 1) ![1] = 2 := by
    unfold predictedStd
    rw [show (![1] : Vec 1) ⬝ᵥ ((!![4] : Mat 1) *ᵥ ![1]) = 2 ^ 2 by simp [Matrix.mulVec, dotProduct]; norm_num]
    exact Real.sqrt_sq (by norm_num)
  rw [this]

/-- With a daily rate of one per cent and half of the money in cash, the percent version of the evaluation loses 99 per cent of
the interest on it: `252 * 0.99 * 0.005 = 1.2474` of mean annual return. -/
example : ∃ s2 m s3 m', unTrader.getMetrics true (some (Real.sqrt 252)) (some [1 / 100, 1 / 100]) true = .ok (s2, m) ∧
    (unTrader.inUnits 100).getMetrics true (some (100 * Real.sqrt 252)) (some [1 / 100, 1 / 100]) true = .ok (s3, m') ∧
    m'.meanReturn = m.meanReturn - 12474 / 10000 := by
  have h252 : Real.sqrt 252 ≠ 0 := by positivity
  obtain ⟨s2, m, s3, m', h1, h2, _, h4, _⟩ := C180_excess (c := 100) (by norm_num) unTrader rfl rfl 2 (by norm_num)
    (fun t : ℕ => (![(t : ℝ) + 1] : Vec 1)) (fun _ => ![1]) (fun _ => !![4]) rfl rfl rfl (Real.sqrt 252) (fun _ => 1 / 100)
    (fun _ => 1 / 2) (by intro t; rw [unStd]; field_simp)
  refine ⟨s2, m, s3, m', h1, h2, ?_⟩
  rw [h4]
  norm_num [Finset.sum_range_succ]

end CovPred
