import Verif.Props.Dilution
import Verif.Props.Drawdown
import Verif.Spec.Metrics

/-
Properties C77-C79: the state of a `Trader` across several calls, and the metrics it reports (trading_model.py).
-/
namespace CovPred
open Matrix
set_option linter.unusedSectionVars false

variable {n : ℕ}

/-! ### C77: the flag `diluted` -/

/-- **C77.** A diluted evaluation that succeeds leaves the portfolio marked as diluted, with diluted weights. -/
theorem C77_marks (s s' : Trader n) (hT : s.returns ≠ []) (x : Option ℝ) (rf : Option (List ℝ))
    (h : s.getTotalReturns true x rf = .ok s') : s'.diluted = true ∧ ∃ wd, s'.wsDiluted = some wd := by
  by_cases hd : s.diluted = true
  · cases hw : s.wsDiluted with
    | some wd =>
      rw [get_diluted s wd hd hw] at h
      cases hr : dilutedRets s.returns wd rf with
      | error e => rw [hr] at h; cases h
      | ok l =>
        rw [hr] at h
        have := Except.ok.inj h
        rw [← this]
        exact ⟨hd, wd, hw⟩
    | none =>
      exfalso
      obtain ⟨r, rows, hr⟩ := List.exists_cons_of_ne_nil hT
      unfold Trader.getTotalReturns at h
      rw [hr] at h
      unfold totalReturnsLoop at h
      simp only [hd, hw, if_true, or_true, pure_bind] at h
      cases h
  · have hd' : s.diluted = false := by simpa using hd
    cases x with
    | none =>
      exfalso
      obtain ⟨r, rows, hr⟩ := List.exists_cons_of_ne_nil hT
      unfold Trader.getTotalReturns at h
      rw [hr] at h
      unfold totalReturnsLoop at h
      simp only [hd', if_true, or_true, Bool.false_eq_true, if_false] at h
      cases h
    | some x =>
      rw [get_first s hd' x rf hT] at h
      have hdw : s.diluteWithCash x = { s with
        wsDiluted := some (List.zipWith (diluteRow x) s.sigmas s.ws), diluted := true } := by
        unfold Trader.diluteWithCash
        rw [if_neg (by simp [hd'])]
      rw [get_diluted _ (List.zipWith (diluteRow x) s.sigmas s.ws) (by rw [hdw]) (by rw [hdw])] at h
      cases hr : dilutedRets (s.diluteWithCash x).returns (List.zipWith (diluteRow x) s.sigmas s.ws) rf with
      | error e => rw [hr] at h; cases h
      | ok l =>
        rw [hr] at h
        have := Except.ok.inj h
        rw [← this, hdw]
        exact ⟨rfl, _, rfl⟩

/-- **C77.** The mark is never removed: after a diluted evaluation, a later backtest of another portfolio type with any
weights and a diluted evaluation of it with any volatility target gives the returns of the *first* portfolio, diluted
to the *first* target. -/
theorem C77_stale (s s' : Trader n) (hT : s.returns ≠ []) (x : Option ℝ) (rf : Option (List ℝ))
    (h : s.getTotalReturns true x rf = .ok s') (p : PType) (a : ℝ) (ws : List (List ℝ)) (y : Option ℝ) :
    ∃ s'', (s'.setBacktest p a ws).getTotalReturns true y rf = .ok s'' ∧ s''.rets = s'.rets := by
  obtain ⟨hd, wd, hw⟩ := C77_marks s s' hT x rf h
  have hret : s'.returns = s.returns ∧ dilutedRets s.returns wd rf = .ok s'.rets := by
    by_cases hd0 : s.diluted = true
    · cases hw0 : s.wsDiluted with
      | none =>
        exfalso
        obtain ⟨r, rows, hr⟩ := List.exists_cons_of_ne_nil hT
        unfold Trader.getTotalReturns at h
        rw [hr] at h
        unfold totalReturnsLoop at h
        simp only [hd0, hw0, if_true, or_true, pure_bind] at h
        cases h
      | some wd0 =>
        rw [get_diluted s wd0 hd0 hw0] at h
        cases hr : dilutedRets s.returns wd0 rf with
        | error e => rw [hr] at h; cases h
        | ok l =>
          rw [hr] at h
          have := Except.ok.inj h
          subst this
          dsimp only at hw
          rw [hw0] at hw
          cases hw
          exact ⟨rfl, hr⟩
    · have hd' : s.diluted = false := by simpa using hd0
      cases x with
      | none =>
        exfalso
        obtain ⟨r, rows, hr⟩ := List.exists_cons_of_ne_nil hT
        unfold Trader.getTotalReturns at h
        rw [hr] at h
        unfold totalReturnsLoop at h
        simp only [hd', if_true, or_true, Bool.false_eq_true, if_false] at h
        cases h
      | some x =>
        rw [get_first s hd' x rf hT] at h
        have hdw : s.diluteWithCash x = { s with
          wsDiluted := some (List.zipWith (diluteRow x) s.sigmas s.ws), diluted := true } := by
          unfold Trader.diluteWithCash
          rw [if_neg (by simp [hd'])]
        rw [get_diluted _ (List.zipWith (diluteRow x) s.sigmas s.ws) (by rw [hdw]) (by rw [hdw])] at h
        have hr0 : (s.diluteWithCash x).returns = s.returns := by rw [hdw]
        rw [hr0] at h
        cases hr : dilutedRets s.returns (List.zipWith (diluteRow x) s.sigmas s.ws) rf with
        | error e => rw [hr] at h; cases h
        | ok l =>
          rw [hr] at h
          have := Except.ok.inj h
          subst this
          rw [hdw] at hw
          dsimp only at hw
          cases hw
          exact ⟨rfl, hr⟩
  rw [get_diluted (s'.setBacktest p a ws) wd hd hw]
  change ∃ s'', Except.map _ (dilutedRets s'.returns wd rf) = _ ∧ _
  rw [hret.1, hret.2]
  exact ⟨_, rfl, rfl⟩

/-! ### C78: `vol_cont` -/

private theorem bc (T n : ℕ) : broadcast [T, 1] [T, n, 1] = .error .valueError ∨ ∃ a b c, broadcast [T, 1] [T, n, 1] = .ok [a, b, c] := by
  unfold broadcast
  simp only [List.reverse_cons, List.reverse_nil, List.nil_append, List.cons_append]
  unfold broadcastRev
  simp only [if_true]
  unfold broadcastRev
  by_cases h1 : T = n
  · right
    subst h1
    exact ⟨T, T, 1, by simp [broadcastRev]⟩
  · by_cases h2 : T = 1
    · right
      subst h2
      exact ⟨1, n, 1, by simp [broadcastRev, h1]⟩
    · by_cases h3 : n = 1
      · right
        subst h3
        exact ⟨T, T, 1, by simp [broadcastRev, h1]⟩
      · left
        simp [broadcastRev, h1, h2, h3]
        rfl

/-- **C78.** A `vol_cont` backtest never succeeds: the weights have three axes and the cash column two, so joining them
raises `ValueError` for every number of dates and assets. The object is left marked as diluted without diluted
weights. -/
theorem C78_vol_cont_fails (s : Trader n) (a : ℝ) (ok : List (List ℝ)) :
    (s.backtestVolCont a ok).2 = .error .valueError ∧ (s.backtestVolCont a ok).1.diluted = true ∧
      (s.backtestVolCont a ok).1.wsDiluted = s.wsDiluted := by
  have h : volContShape s.returns.length n = .error .valueError := by
    unfold volContShape
    rcases bc s.returns.length n with h | ⟨x, y, z, h⟩
    · rw [h]; rfl
    · rw [h]
      change hstackShape [x, y, z] [s.returns.length, 1] = _
      simp [hstackShape]
  unfold Trader.backtestVolCont
  dsimp only
  rw [h]
  exact ⟨rfl, rfl, rfl⟩

/-- **C78.** So after an attempted `vol_cont` backtest every diluted evaluation of a later backtest of that object
fails with `AttributeError`, if it was not diluted before. -/
theorem C78_poisoned (s : Trader n) (hw : s.wsDiluted = none) (hT : s.returns ≠ []) (a : ℝ) (ok : List (List ℝ))
    (p : PType) (a' : ℝ) (ws : List (List ℝ)) (x : Option ℝ) (rf : Option (List ℝ)) :
    ((s.backtestVolCont a ok).1.setBacktest p a' ws).getTotalReturns true x rf = .error .attributeError := by
  obtain ⟨_, hd, hwd⟩ := C78_vol_cont_fails s a ok
  have hret : (s.backtestVolCont a ok).1.returns = s.returns := by
    unfold Trader.backtestVolCont
    dsimp only
    cases volContShape s.returns.length n <;> rfl
  obtain ⟨r, rows, hr⟩ := List.exists_cons_of_ne_nil hT
  unfold Trader.getTotalReturns
  have h1 : ((s.backtestVolCont a ok).1.setBacktest p a' ws).returns = r :: rows := by
    change (s.backtestVolCont a ok).1.returns = _
    rw [hret, hr]
  have h2 : ((s.backtestVolCont a ok).1.setBacktest p a' ws).diluted = true := hd
  have h3 : ((s.backtestVolCont a ok).1.setBacktest p a' ws).wsDiluted = none := by
    change (s.backtestVolCont a ok).1.wsDiluted = none
    rw [hwd, hw]
  rw [h1]
  unfold totalReturnsLoop
  simp only [h2, h3, if_true, or_true, pure_bind]
  rfl

/-- **C78.** A `mean_variance` portfolio, whose rows already hold cash, cannot be diluted: the lengths do not fit and
`ValueError` is raised. -/
theorem C78_mean_variance_diluted (s : Trader n) (hd : s.diluted = false) (r : Vec n) (rows : List (Vec n))
    (hr : s.returns = r :: rows) (Sig : Mat n) (sigs : List (Mat n)) (hS : s.sigmas = Sig :: sigs) (w : List ℝ)
    (ws : List (List ℝ)) (hw : s.ws = w :: ws) (hlen : w.length = n + 1) (x : ℝ) (rf : Option (List ℝ)) (hrf : rf ≠ some []) :
    s.getTotalReturns true (some x) rf = .error .valueError := by
  rw [get_first s hd x rf (by rw [hr]; simp)]
  have hdw : s.diluteWithCash x = { s with
    wsDiluted := some (List.zipWith (diluteRow x) s.sigmas s.ws), diluted := true } := by
    unfold Trader.diluteWithCash
    rw [if_neg (by simp [hd])]
  rw [get_diluted _ (List.zipWith (diluteRow x) s.sigmas s.ws) (by rw [hdw]) (by rw [hdw])]
  have hret : (s.diluteWithCash x).returns = r :: rows := by rw [hdw]; exact hr
  rw [hret, hS, hw]
  unfold dilutedRets
  rw [List.zipIdx_cons, List.mapM_cons]
  have : ∀ z, npDot ((List.zipWith (diluteRow x) (Sig :: sigs) (w :: ws))[0]?.getD []) (List.ofFn r ++ [z]) = .error .valueError := by
    intro z
    simp only [List.zipWith_cons_cons, List.length_cons, Nat.zero_lt_succ, List.getElem?_eq_getElem, List.getElem_cons_zero,
      Option.getD_some]
    unfold npDot
    rw [if_neg]
    unfold diluteRow
    simp [hlen]
  have hc : ∃ c, cashReturn rf 0 = .ok c := by
    unfold cashReturn
    match rf, hrf with
    | none, _ => exact ⟨0, rfl⟩
    | some (f :: l), _ => exact ⟨f, rfl⟩
  obtain ⟨c, hc⟩ := hc
  unfold dilutedRet
  dsimp only
  rw [hc]
  change ((npDot _ (List.ofFn r ++ [c]) >>= _ : Except Err _).map _) = _
  rw [this]
  rfl

/-! ### C79: returns and metrics of an undiluted portfolio -/

/-- the portfolio types whose rows have one entry per asset -/
def NoCash (p : PType) : Prop := p ≠ .volCont ∧ p ≠ .meanVariance ∧ p ≠ .meanVariance2

/-- **C79.** Without dilution the return of row `t` is the weighted sum of the returns of that row, and nothing else
of the object changes. -/
theorem C79_returns (s : Trader n) (hp : NoCash s.portfolioType) (T : ℕ) (r w : ℕ → Vec n)
    (hr : s.returns = (List.range T).map r) (hw : s.ws = (List.range T).map fun t => List.ofFn (w t)) (x : Option ℝ)
    (rf : Option (List ℝ)) :
    s.getTotalReturns false x rf = .ok { s with rets := (List.range T).map fun t => ∑ i, w t i * r t i } := by
  have key : ∀ (m k : ℕ) (acc : List ℝ), k + m = T →
      totalReturnsLoop false x rf ((List.range' k m).map r) k s acc
        = .ok (s, acc ++ (List.range' k m).map fun t => ∑ i, w t i * r t i) := by
    intro m
    induction m with
    | zero => intro k acc _; simp [totalReturnsLoop]
    | succ m ih =>
      intro k acc hk
      rw [List.range'_succ, List.map_cons, List.map_cons]
      unfold totalReturnsLoop
      have hcond : ¬ (s.portfolioType = .volCont ∨ s.portfolioType = .meanVariance ∨ s.portfolioType = .meanVariance2
          ∨ false = true) := by
        obtain ⟨h1, h2, h3⟩ := hp
        simp [h1, h2, h3]
      have hdot : npDot ((s.ws[k]?).getD []) (List.ofFn (r k)) = .ok (∑ i, w k i * r k i) := by
        rw [hw]
        have hk' : k < T := by omega
        simp only [List.getElem?_map, List.getElem?_range hk', Option.map_some, Option.getD_some]
        unfold npDot
        rw [if_pos (by simp), zipWith_ofFn_sum]
      dsimp only
      rw [if_neg hcond, pure_bind]
      dsimp only
      rw [hdot]
      change totalReturnsLoop false x rf ((List.range' (k + 1) m).map r) (k + 1) s (acc ++ [∑ i, w k i * r k i]) = _
      rw [ih (k + 1) _ (by omega), List.append_assoc]
      rfl
  have := key T 0 [] (by omega)
  rw [← List.range_eq_range', List.nil_append, ← hr] at this
  unfold Trader.getTotalReturns
  rw [this]
  rfl

private theorem npMean_mul (c : ℝ) (l : List ℝ) : npMean (l.map (c * ·)) = c * npMean l := by
  unfold npMean
  have : (l.map (c * ·)).sum = c * l.sum := by
    induction l with
    | nil => simp
    | cons a l ih => simp [ih, mul_add]
  rw [this, List.length_map, mul_div_assoc]

private theorem npMean_nonneg (l : List ℝ) (h : ∀ x ∈ l, 0 ≤ x) : 0 ≤ npMean l := by
  unfold npMean
  exact div_nonneg (List.sum_nonneg h) (Nat.cast_nonneg _)

private theorem npStd_mul (c : ℝ) (l : List ℝ) : npStd (l.map (c * ·)) = |c| * npStd l := by
  unfold npStd
  rw [npMean_mul, List.map_map]
  have : ((fun x => (x - c * npMean l) ^ 2) ∘ fun x => c * x) = fun x => c ^ 2 * (x - npMean l) ^ 2 := by
    funext x; simp only [Function.comp]; ring
  rw [this, show (l.map fun x => c ^ 2 * (x - npMean l) ^ 2) = (l.map fun x => (x - npMean l) ^ 2).map (c ^ 2 * ·) by
    rw [List.map_map]; rfl, npMean_mul, Real.sqrt_mul (sq_nonneg c), Real.sqrt_sq_eq_abs]

private theorem map_div (a : ℝ) (l : List ℝ) : l.map (· / a) = l.map (a⁻¹ * ·) := by
  apply List.map_congr_left
  intro x _
  rw [div_eq_inv_mul]

private theorem except_bind_ok_iff {A B : Type} (e : Except Err A) (f : A → Except Err B) (b : B) :
    (e >>= f) = .ok b ↔ ∃ a, e = .ok a ∧ f a = .ok b := by
  cases e with
  | error e => simp [Bind.bind, Except.bind]
  | ok a =>
    change f a = .ok b ↔ _
    simp

private theorem loop_adjust (b : Bool) (x : Option ℝ) (rf : Option (List ℝ)) : ∀ (rows : List (Vec n)) (t : ℕ) (s : Trader n)
    (acc : List ℝ) (p : Trader n × List ℝ), totalReturnsLoop b x rf rows t s acc = .ok p →
    p.1.adjustFactor = s.adjustFactor ∧ p.1.returns = s.returns ∧ p.2.length = acc.length + rows.length
  | [], t, s, acc, p, h => by cases h; exact ⟨rfl, rfl, rfl⟩
  | r :: rows, t, s, acc, p, h => by
    have last : ∀ (s' : Trader n) (w rl : List ℝ), s'.adjustFactor = s.adjustFactor → s'.returns = s.returns →
        (npDot w rl >>= fun v => totalReturnsLoop b x rf rows (t + 1) s' (acc ++ [v])) = .ok p →
        p.1.adjustFactor = s.adjustFactor ∧ p.1.returns = s.returns ∧ p.2.length = acc.length + (r :: rows).length := by
      intro s' w rl h1 h2 h3
      rw [except_bind_ok_iff] at h3
      obtain ⟨v, _, h4⟩ := h3
      have ih := loop_adjust b x rf rows (t + 1) s' _ p h4
      refine ⟨ih.1.trans h1, ih.2.1.trans h2, ?_⟩
      rw [ih.2.2]
      simp only [List.length_append, List.length_cons, List.length_nil]
      omega
    have cash : ∀ (s' : Trader n) (w : List ℝ), s'.adjustFactor = s.adjustFactor → s'.returns = s.returns →
        (cashReturn rf t >>= fun c => npDot w (List.ofFn r ++ [c]) >>= fun v =>
          totalReturnsLoop b x rf rows (t + 1) s' (acc ++ [v])) = .ok p →
        p.1.adjustFactor = s.adjustFactor ∧ p.1.returns = s.returns ∧ p.2.length = acc.length + (r :: rows).length := by
      intro s' w h1 h2 h3
      rw [except_bind_ok_iff] at h3
      obtain ⟨c, _, h4⟩ := h3
      exact last s' w _ h1 h2 h4
    unfold totalReturnsLoop at h
    simp only [pure_bind] at h
    split at h
    · split at h
      · split at h
        · cases hw : s.wsDiluted with
          | none => rw [hw] at h; cases h
          | some wd => rw [hw] at h; exact cash s _ rfl rfl h
        · cases x with
          | none => cases h
          | some x =>
            dsimp only at h
            cases hw : (s.diluteWithCash x).wsDiluted with
            | none => rw [hw] at h; cases h
            | some wd =>
              rw [hw] at h
              refine cash (s.diluteWithCash x) _ ?_ ?_ h <;>
              · unfold Trader.diluteWithCash
                split <;> rfl
      · exact cash s _ rfl rfl h
    · exact last s _ _ rfl rfl h

/-- `get_total_returns` leaves the factor and the returns alone and gives one return per row. -/
theorem getTotalReturns_keeps (s s1 : Trader n) (b : Bool) (x : Option ℝ) (rf : Option (List ℝ))
    (h : s.getTotalReturns b x rf = .ok s1) :
    s1.adjustFactor = s.adjustFactor ∧ s1.returns = s.returns ∧ s1.rets.length = s.returns.length := by
  unfold Trader.getTotalReturns at h
  rw [except_bind_ok_iff] at h
  obtain ⟨⟨s', l⟩, h1, h2⟩ := h
  cases h2
  have := loop_adjust b x rf _ _ _ _ _ h1
  exact ⟨this.1, this.2.1, by simpa using this.2.2⟩

theorem npMean_average (l : List ℝ) : npMean l = average l := rfl

theorem npStd_deviation (l : List ℝ) : npStd l = deviation l := by
  unfold npStd deviation
  rw [npMean_average, average, List.length_map]
  rfl

/-- the growth is the wealth after every row -/
theorem growth_wealth (a : ℝ) (l : List ℝ) : growth a l = (List.range l.length).map (wealth a l) := by
  have e : l = (List.range l.length).map fun t => l.getD t 0 := by
    apply List.ext_getElem
    · simp
    · intro i h1 h2
      simp [List.getD_eq_getElem?_getD, h1]
  have := C52_growth a l.length fun t => l.getD t 0
  rw [← e] at this
  rw [this]
  apply List.map_congr_left
  intro t ht
  rw [List.mem_range] at ht
  unfold wealth
  have e2 : l.take (t + 1) = (List.range (t + 1)).map fun t => l.getD t 0 := by
    apply List.ext_getElem
    · simp; omega
    · intro i h1 h2
      have : i < l.length := by simp at h1; omega
      simp [List.getD_eq_getElem?_getD, this]
  rw [e2, List.map_map]
  have : ∀ (g : ℕ → ℝ) m, ∏ s ∈ Finset.range m, g s = ((List.range m).map g).prod := by
    intro g m
    induction m with
    | zero => rfl
    | succ m ih => rw [Finset.prod_range_succ, ih, List.range_succ, List.map_append, List.prod_append]; simp
  rw [this]
  rfl

/-- what `compute_max_drawdown` gives for the growth -/
theorem drawdown_largest {a : ℝ} {l : List ℝ} {dd : ℝ} (h : maxDrawdown (growth a l) = .ok dd) :
    LargestLoss (wealth a l) l.length dd := by
  intro hpos
  cases hl : l.length with
  | zero =>
    have : growth a l = [] := by rw [growth_wealth, hl]; rfl
    rw [this] at h
    cases h
  | succ T =>
    rw [hl] at hpos
    set V : ℕ → ℝ := fun t => if t < T + 1 then wealth a l t else 1 with hV
    have hVt : ∀ t, t < T + 1 → V t = wealth a l t := fun t ht => if_pos ht
    obtain ⟨dd', h1, h2⟩ := C51_max_drawdown V (fun t => by
      rw [hV]
      dsimp only
      split_ifs with ht
      · exact hpos t ht
      · norm_num) T
    have : growth a l = (List.range (T + 1)).map V := by
      rw [growth_wealth, hl]
      exact List.map_congr_left fun t ht => (hVt t (List.mem_range.1 ht)).symm
    rw [this, h1] at h
    cases h
    convert h2 using 1
    ext y
    constructor
    · rintro ⟨s, t, hst, ht, rfl⟩
      exact ⟨s, t, hst, by omega, by rw [hVt s (by omega), hVt t ht]⟩
    · rintro ⟨s, t, hst, ht, rfl⟩
      exact ⟨s, t, hst, by omega, by rw [hVt s (by omega), hVt t (by omega)]⟩

private theorem drawdown_ok (a : ℝ) {l : List ℝ} (h : l ≠ []) : ∃ dd, maxDrawdown (growth a l) = .ok dd := by
  have hl := growth_length a l
  cases hg : growth a l with
  | nil =>
    rw [hg] at hl
    exact absurd (List.length_eq_zero_iff.1 hl.symm) h
  | cons V Vs => exact ⟨_, rfl⟩

/-- `C79_metrics` in the words of the model -/
theorem metrics_np (s s1 : Trader n) (b : Bool) (x : Option ℝ) (rf : Option (List ℝ)) (ha : 0 < s.adjustFactor)
    (hT : s.returns ≠ []) (h1 : s.getTotalReturns b x rf = .ok s1) :
    ∃ s2 m dd, maxDrawdown (growth s.adjustFactor s1.rets) = .ok dd ∧ s.getMetrics b x rf false = .ok (s2, m) ∧ m.meanReturn = 252 * npMean s1.rets / s.adjustFactor ∧
      m.risk = Real.sqrt 252 * npStd s1.rets / s.adjustFactor ∧
      m.sharpe = Real.sqrt 252 * (npMean s1.rets / npStd s1.rets) ∧ m.drawdown = dd := by
  obtain ⟨hadj, _, hlen⟩ := getTotalReturns_keeps s s1 b x rf h1
  obtain ⟨dd, hdd⟩ := drawdown_ok s.adjustFactor (l := s1.rets)
    (fun h => hT (by rw [← List.length_eq_zero_iff, ← hlen, h]; rfl))
  have h252 : (252 : ℝ) = Real.sqrt 252 * Real.sqrt 252 := (Real.mul_self_sqrt (by norm_num)).symm
  unfold Trader.getMetrics
  rw [h1]
  dsimp only [bind, Except.bind, pure, Except.pure, Trader.getPortfolioGrowth]
  simp only [Bool.false_eq_true, if_false]
  rw [hadj, hdd]
  refine ⟨_, _, dd, rfl, rfl, ?_, ?_, ?_, rfl⟩
  · dsimp only
    rw [map_div, npMean_mul]
    field_simp
  · dsimp only
    rw [map_div, npStd_mul, abs_of_pos (inv_pos.2 ha)]
    field_simp
  · dsimp only
    rw [map_div, npStd_mul, npMean_mul, abs_of_pos (inv_pos.2 ha)]
    by_cases hsd : npStd s1.rets = 0
    · simp [hsd]
    · have hs : Real.sqrt 252 ≠ 0 := by positivity
      field_simp
      rw [Real.sq_sqrt (by norm_num)]

/-- **C79.** The reported numbers, in units of the returns divided by `adjust_factor`: the mean return is 252 times the
average of the daily returns, the risk `sqrt(252)` times their standard deviation, the Sharpe ratio their quotient, the
drawdown the largest relative loss of the wealth (while that is positive). -/
theorem C79_metrics (s s1 : Trader n) (b : Bool) (x : Option ℝ) (rf : Option (List ℝ)) (ha : 0 < s.adjustFactor)
    (hT : s.returns ≠ []) (h1 : s.getTotalReturns b x rf = .ok s1) :
    ∃ s2 m, s.getMetrics b x rf false = .ok (s2, m) ∧ m.meanReturn = 252 * average s1.rets / s.adjustFactor ∧
      m.risk = Real.sqrt 252 * deviation s1.rets / s.adjustFactor ∧
      m.sharpe = Real.sqrt 252 * (average s1.rets / deviation s1.rets) ∧
      LargestLoss (wealth s.adjustFactor s1.rets) s1.rets.length m.drawdown := by
  obtain ⟨s2, m, dd, h2, h3, h4, h5, h6, h7⟩ := metrics_np s s1 b x rf ha hT h1
  exact ⟨s2, m, h3, by rw [← npMean_average]; exact h4, by rw [← npStd_deviation]; exact h5,
    by rw [← npMean_average, ← npStd_deviation]; exact h6, h7 ▸ drawdown_largest h2⟩

/-- `C79_excess` in the words of the model -/
theorem excess_np (s s1 : Trader n) (b : Bool) (x : Option ℝ) (rf : List ℝ)
    (hT : s.returns ≠ []) (h1 : s.getTotalReturns b x (some rf) = .ok s1) (hlen : rf.length = s.returns.length) :
    ∃ s2 m dd, maxDrawdown (growth s.adjustFactor s1.rets) = .ok dd ∧ s.getMetrics b x (some rf) true = .ok (s2, m) ∧
      m.meanReturn = 252 * npMean (List.zipWith (fun y f => y / s.adjustFactor - f) s1.rets rf) ∧
      m.risk = Real.sqrt 252 * npStd s1.rets ∧ m.sharpe = m.meanReturn / m.risk ∧ m.drawdown = dd := by
  obtain ⟨hadj, _, hlen1⟩ := getTotalReturns_keeps s s1 b x _ h1
  obtain ⟨dd, hdd⟩ := drawdown_ok s.adjustFactor (l := s1.rets)
    (fun h => hT (by rw [← List.length_eq_zero_iff, ← hlen1, h]; rfl))
  unfold Trader.getMetrics
  rw [h1]
  dsimp only [bind, Except.bind, pure, Except.pure, Trader.getPortfolioGrowth]
  rw [if_pos rfl, if_neg (not_not.2 (hlen.trans hlen1.symm)), hadj]
  rw [hdd]
  refine ⟨_, _, dd, rfl, rfl, ?_, ?_, rfl, rfl⟩
  · dsimp only; rw [mul_comm]
  · dsimp only; rw [mul_comm]

/-- **C79.** With `excess=True` the mean is that of the returns in excess of the risk-free returns, but the risk is that
of the raw returns: not divided by `adjust_factor` and without the risk-free part. -/
theorem C79_excess (s s1 : Trader n) (b : Bool) (x : Option ℝ) (rf : List ℝ)
    (hT : s.returns ≠ []) (h1 : s.getTotalReturns b x (some rf) = .ok s1) (hlen : rf.length = s.returns.length) :
    ∃ s2 m, s.getMetrics b x (some rf) true = .ok (s2, m) ∧
      m.meanReturn = 252 * average (List.zipWith (fun y f => y / s.adjustFactor - f) s1.rets rf) ∧
      m.risk = Real.sqrt 252 * deviation s1.rets ∧ m.sharpe = m.meanReturn / m.risk ∧
      LargestLoss (wealth s.adjustFactor s1.rets) s1.rets.length m.drawdown := by
  obtain ⟨s2, m, dd, h2, h3, h4, h5, h6, h7⟩ := excess_np s s1 b x rf hT h1 hlen
  exact ⟨s2, m, h3, by rw [← npMean_average]; exact h4, by rw [← npStd_deviation]; exact h5, h6, h7 ▸ drawdown_largest h2⟩

/-- **C79.** So for a risk-free rate of zero the two modes report the same mean, while the risk with `excess=True` is
`adjust_factor` times the risk without: for `adjust_factor` other than 1 the Sharpe ratios contradict each other. -/
theorem C79_excess_inconsistent (s : Trader n) (hp : NoCash s.portfolioType) (T : ℕ) (r w : ℕ → Vec n)
    (hr : s.returns = (List.range (T + 1)).map r) (hw : s.ws = (List.range (T + 1)).map fun t => List.ofFn (w t))
    (ha : 0 < s.adjustFactor) (x : Option ℝ) :
    ∃ s2 m s3 m', s.getMetrics false x (some (List.replicate (T + 1) 0)) false = .ok (s2, m) ∧
      s.getMetrics false x (some (List.replicate (T + 1) 0)) true = .ok (s3, m') ∧
      m'.meanReturn = m.meanReturn ∧ m'.risk = s.adjustFactor * m.risk ∧ m'.sharpe = m.sharpe / s.adjustFactor ∧
      m'.drawdown = m.drawdown := by
  have e1 := C79_returns s hp (T + 1) r w hr hw x (some (List.replicate (T + 1) 0))
  set l := (List.range (T + 1)).map fun t => ∑ i, w t i * r t i with hl
  have hlen : l.length = T + 1 := by rw [hl]; simp
  have hT : s.returns ≠ [] := by rw [hr]; simp
  obtain ⟨s2, m, dd, hdd, hm, m1, m2, m3, m4⟩ := metrics_np s { s with rets := l } false x _ ha hT e1
  obtain ⟨s3, m', dd', hdd', hm', n1, n2, n3, n4⟩ := excess_np s { s with rets := l } false x _ hT e1 (by simp [hr])
  rw [hdd] at hdd'
  cases hdd'
  dsimp only at m1 m2 m3 n1 n2
  have hz : List.zipWith (fun y f => y / s.adjustFactor - f) l (List.replicate (T + 1) 0) = l.map (· / s.adjustFactor) := by
    apply List.ext_getElem
    · simp [hlen]
    · intro i h1 h2
      simp
  have hmean : m'.meanReturn = m.meanReturn := by
    rw [m1, n1, hz, map_div, npMean_mul]
    field_simp
  have hrisk : m'.risk = s.adjustFactor * m.risk := by
    rw [m2, n2]
    field_simp
  refine ⟨s2, m, s3, m', hm, hm', hmean, hrisk, ?_, by rw [m4, n4]⟩
  rw [n3, m3, n1, n2, hz, map_div, npMean_mul]
  by_cases hsd : npStd l = 0
  · simp [hsd]
  · have hs : Real.sqrt 252 ≠ 0 := by positivity
    field_simp
    rw [Real.sq_sqrt (by norm_num)]
    ring

/-! ### C80: risk adjustment -/

/-- `C80_risk_adjusted` in the words of the model -/
theorem risk_adjusted_np (s : Trader n) {x : ℝ} (hx : 0 < x) (hsd : 0 < npStd s.rets) :
    Real.sqrt 252 * npStd (s.getRiskAdjReturns x).retsAdjusted = x ∧
      npMean (s.getRiskAdjReturns x).retsAdjusted / npStd (s.getRiskAdjReturns x).retsAdjusted
        = npMean s.rets / npStd s.rets := by
  unfold Trader.getRiskAdjReturns
  dsimp only
  have hs : 0 < Real.sqrt 252 := by positivity
  have hc : 0 < x / (Real.sqrt 252 * npStd s.rets) := by positivity
  rw [npStd_mul, npMean_mul, abs_of_pos hc]
  constructor
  · field_simp
  · rw [mul_div_mul_left _ _ hc.ne']

/-- **C80.** The risk-adjusted returns have annual standard deviation exactly `sigma_des` and the Sharpe ratio of the
returns. -/
theorem C80_risk_adjusted (s : Trader n) {x : ℝ} (hx : 0 < x) (hsd : 0 < deviation s.rets) :
    Real.sqrt 252 * deviation (s.getRiskAdjReturns x).retsAdjusted = x ∧
      average (s.getRiskAdjReturns x).retsAdjusted / deviation (s.getRiskAdjReturns x).retsAdjusted
        = average s.rets / deviation s.rets := by
  simp only [← npStd_deviation, ← npMean_average] at hsd ⊢
  exact risk_adjusted_np s hx hsd

/-- **C80.** Doing it again, with another target, does not depend on the first time. -/
theorem C80_again (s : Trader n) (x y : ℝ) :
    ((s.getRiskAdjReturns x).getRiskAdjReturns y).retsAdjusted = (s.getRiskAdjReturns y).retsAdjusted := rfl

/-- `C80_growth` in the words of the model -/
theorem adj_growth_np (s : Trader n) (x : ℝ) (T : ℕ) (r : ℕ → ℝ) (hr : s.rets = (List.range T).map r) :
    (s.getRiskAdjPortfolioGrowth x).VsAdjusted = (List.range T).map fun t =>
      ∏ k ∈ Finset.range (t + 1), (1 + x / (Real.sqrt 252 * npStd s.rets) * r k / s.adjustFactor) := by
  unfold Trader.getRiskAdjPortfolioGrowth Trader.getRiskAdjReturns
  dsimp only
  conv_lhs => rw [show s.rets.map (x / (Real.sqrt 252 * npStd s.rets) * ·)
    = (List.range T).map fun k => x / (Real.sqrt 252 * npStd s.rets) * r k by
      conv_lhs => rw [show s.rets.map (x / (Real.sqrt 252 * npStd s.rets) * ·)
        = ((List.range T).map r).map (x / (Real.sqrt 252 * npStd s.rets) * ·) by rw [← hr]]
      rw [List.map_map]; rfl]
  rw [C52_growth]

/-- **C80.** The risk-adjusted growth is the growth of the risk-adjusted returns. -/
theorem C80_growth (s : Trader n) (x : ℝ) (T : ℕ) (r : ℕ → ℝ) (hr : s.rets = (List.range T).map r) :
    (s.getRiskAdjPortfolioGrowth x).VsAdjusted = (List.range T).map fun t =>
      ∏ k ∈ Finset.range (t + 1), (1 + x / (Real.sqrt 252 * deviation s.rets) * r k / s.adjustFactor) := by
  simp only [← npStd_deviation]
  exact adj_growth_np s x T r hr

/-! ### The hypotheses are met -/

/-- a trader with one asset, two rows and variance 4 -/
private noncomputable def exTrader : Trader 1 :=
  { returns := (List.range 2).map fun t : ℕ => (![(t : ℝ) + 1] : Vec 1)
    sigmas := (List.range 2).map fun _ => (!![4] : Mat 1)
    portfolioType := .eqWeighted
    adjustFactor := 100
    ws := (List.range 2).map fun _ => List.ofFn (![1] : Vec 1) }

/-- A first diluted evaluation succeeds, so C77 applies to it: a later one, of any other portfolio, repeats it. -/
example (p : PType) (a : ℝ) (ws : List (List ℝ)) (y : Option ℝ) : ∃ s' s'', exTrader.getTotalReturns true (some 1) none = .ok s' ∧
    (s'.setBacktest p a ws).getTotalReturns true y none = .ok s'' ∧ s''.rets = s'.rets ∧ s'.rets.length = 2 := by
  obtain ⟨s', h, hr⟩ := C53_diluted_returns exTrader rfl 2 (by norm_num) (fun t : ℕ => (![(t : ℝ) + 1] : Vec 1))
    (fun _ => ![1]) (fun _ => !![4]) rfl rfl rfl 1 none []
  obtain ⟨s'', h1, h2⟩ := C77_stale exTrader s' (by simp [exTrader]) (some 1) none h p a ws y
  exact ⟨s', s'', h, h1, h2, by rw [hr]; simp⟩

/-- The predicted risk of the example is positive, as C53 asks. -/
example : 0 < predictedStd (!![4] : Mat 1) (firstN 1 [1]) := by
  unfold predictedStd firstN
  simp [Matrix.mulVec, dotProduct]

/-- C79 applies to the example. -/
example : ∃ s2 m s3 m', exTrader.getMetrics false none (some (List.replicate 2 0)) false = .ok (s2, m) ∧
      exTrader.getMetrics false none (some (List.replicate 2 0)) true = .ok (s3, m') ∧
      m'.risk = 100 * m.risk := by
  obtain ⟨s2, m, s3, m', h1, h2, _, h4, _⟩ := C79_excess_inconsistent exTrader ⟨by decide, by decide, by decide⟩ 1
    (fun t : ℕ => (![(t : ℝ) + 1] : Vec 1)) (fun _ => ![1]) rfl rfl (by norm_num [exTrader]) none
  exact ⟨s2, m, s3, m', h1, h2, h4⟩

/-- The standard deviation of the returns 1, 2 is positive, as C80 asks. -/
example : 0 < npStd [1, 2] := by
  unfold npStd npMean
  apply Real.sqrt_pos.2
  norm_num

end CovPred
