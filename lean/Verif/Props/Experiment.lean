import Verif.Spec.Experiment
import Verif.Lemmas.PortfolioRun
import Verif.Props.Backtests3
import Verif.Props.PortfolioRun
import Verif.Lemmas.FactorModel2
import Verif.Props.SolveCall
import Verif.Props.FactorModel

/-
Property C163: the tables of the experiment notebooks.
-/
namespace CovPred
open Matrix
set_option linter.unusedSectionVars false

variable {τ : Type} [LinearOrder τ] {n : ℕ}

theorem mem_of_lookup_str {A : Type} {d : Dict String A} {t : String} {y : A} (h : d.lookup t = some y) : (t, y) ∈ d := by
  induction d with
  | nil => cases h
  | cons p d ih =>
    rw [List.lookup_cons] at h
    split at h
    · rename_i hp
      injection h with h
      rw [List.mem_cons]
      left
      rw [← h, eq_of_beq hp]
    · exact List.mem_cons_of_mem _ (ih h)

private theorem days_as_range {B : Type} (l : List ℕ) (f : ℕ → B) :
    l.map f = (List.range l.length).map fun k => f (l.getD k 0) := by
  apply List.ext_getElem (by simp)
  intro i h1 h2
  simp only [List.length_map] at h1
  simp [List.getD_eq_getElem?_getD, h1]

/-- the diluted returns of the days `l` -/
theorem diluted_days (s : Trader n) (hd : s.diluted = false) (l : List ℕ) (hl : l ≠ []) (r w : ℕ → Vec n) (S : ℕ → Mat n) (f : ℕ → ℝ)
    (hr : s.returns = l.map r) (hS : s.sigmas = l.map S) (hw : s.ws = l.map fun t => List.ofFn (w t)) (y : ℝ) (extra : List ℝ) :
    ∃ s', s.getTotalReturns true (some y) (some (l.map f ++ extra)) = .ok s' ∧
      s'.rets = l.map fun t => positionReturn y (S t) (w t) (r t) (f t) := by
  rw [days_as_range l] at hr hS hw
  obtain ⟨s', h1, h2⟩ := C53_diluted_returns s hd l.length (List.length_pos_iff.2 hl) (fun k => r (l.getD k 0))
    (fun k => w (l.getD k 0)) (fun k => S (l.getD k 0)) hr hS hw y (some fun k => f (l.getD k 0)) extra
  refine ⟨s', ?_, ?_⟩
  · rw [days_as_range l f]
    exact h1
  · rw [h2, days_as_range l fun t => positionReturn y (S t) (w t) (r t) (f t)]
    rfl

private theorem diluted_positions (s : Trader n) (hd : s.diluted = false) (l : List ℕ) (hl : l ≠ []) (r w : ℕ → Vec n) (S : ℕ → Mat n)
    (hr : s.returns = l.map r) (hS : s.sigmas = l.map S) (hw : s.ws = l.map fun t => List.ofFn (w t)) (y : ℝ) (rf : List ℝ)
    (hrf : l.length ≤ rf.length) :
    ∃ s', s.getTotalReturns true (some y) (some rf) = .ok s' ∧ s'.rets.length = l.length := by
  rw [days_as_range l] at hr hS hw
  obtain ⟨s', h1, h2⟩ := C53_diluted_returns s hd l.length (List.length_pos_iff.2 hl) (fun k => r (l.getD k 0))
    (fun k => w (l.getD k 0)) (fun k => S (l.getD k 0)) hr hS hw y (some fun k => rf.getD k 0) (rf.drop l.length)
  refine ⟨s', ?_, by rw [h2]; simp⟩
  have : rf = (List.range l.length).map (fun k => rf.getD k 0) ++ rf.drop l.length := by
    conv_lhs => rw [← List.take_append_drop l.length rf]
    congr 1
    apply List.ext_getElem (by simp [hrf])
    intro i h3 h4
    simp only [List.length_take] at h3
    simp [List.getD_eq_getElem?_getD, show i < rf.length from by omega]
  rw [this]
  exact h1

theorem lookup_between (start stop : τ) (d : Dict τ (Mat n)) {t : τ} (h1 : start ≤ t) (h2 : t ≤ stop) :
    (betweenDates start stop d).lookup t = d.lookup t := by
  unfold betweenDates
  induction d with
  | nil => rfl
  | cons p d ih =>
    rw [List.filter_cons]
    by_cases hp : p.1 = t
    · subst hp
      rw [if_pos (by simp [h1, h2]), List.lookup_cons, List.lookup_cons, beq_self_eq_true]
    · have hne : (t == p.1) = false := by simpa using fun h => hp h.symm
      split
      · rw [List.lookup_cons, List.lookup_cons, hne]
        exact ih
      · rw [List.lookup_cons, hne]
        exact ih

/-- the weights of a strategy that uses the covariances only: fully invested -/
theorem dayWeights_sum {cvx : Cvx n} (hx : cvx.Exact) (hn : 0 < n) {st : Strategy τ n} (hst : st.RiskOnly) {d : DayData n} {W : List ℝ}
    (h : dayWeights cvx st d = .ok W) : ∃ w : Vec n, W = List.ofFn w ∧ ∑ i, w i = 1 := by
  cases st with
  | meanVariance _ _ _ => exact hst.elim
  | eqWeighted =>
    unfold dayWeights at h
    injection h with h
    refine ⟨_, h.symm, ?_⟩
    have : (n : ℝ) ≠ 0 := by exact_mod_cast hn.ne'
    simp [this]
  | minRisk cons =>
    unfold dayWeights at h
    obtain ⟨w, h1, h2⟩ := (bind_ok_iff _ _ _).1 h
    injection h2 with h2
    exact ⟨w, h2.symm, (hx.minRisk _ _ _ h1).1.1⟩
  | maxDiverse cons =>
    unfold dayWeights at h
    dsimp only at h
    cases hM : cons.upperBound with
    | none => rw [hM] at h; cases h
    | some M =>
      rw [hM] at h
      obtain ⟨z, h1, h2⟩ := (bind_ok_iff _ _ _).1 h
      injection h2 with h2
      refine ⟨_, h2.symm, ?_⟩
      have hz := (hx.maxDiverse _ _ _ _ h1).1
      unfold normalizeW
      rw [← Finset.sum_div]
      refine div_self fun h0 => ?_
      have hz0 : ∀ i, z i = 0 := fun i => by
        have := (Finset.sum_eq_zero_iff_of_nonneg fun i _ => hz.nonneg i).1 h0 i (Finset.mem_univ i)
        exact this
      have := hz.unit
      simp [hz0] at this
  | riskParity =>
    unfold dayWeights at h
    obtain ⟨w, h1, h2⟩ := (bind_ok_iff _ _ _).1 h
    injection h2 with h2
    refine ⟨_, h2.symm, ?_⟩
    have hw := (hx.riskParity _ _ h1).1
    unfold normalizeW
    rw [← Finset.sum_div]
    have : Nonempty (Fin n) := ⟨⟨0, hn⟩⟩
    exact div_self (Finset.sum_pos (fun i _ => hw i) Finset.univ_nonempty).ne'

section
variable {T : ℕ} {tm : ℕ → τ} {x : ℕ → NRow n} {f : ℕ → ℝ} {a b : ℕ}

theorem notebookRf_rows (htm : Increasing T tm) (ha : a < T) (hb : b < T) :
    notebookRf (rowDict T tm f) (tm a) (tm b) = (List.range' a (b - a)).map fun t => (tm t, f t) := by
  unfold notebookRf
  rw [locSlice_rows (fun s t hs ht h => distinct_of_increasing htm s t hs ht h) f ha hb, map_range_shift a (b - a) fun t => (tm t, f t)]
  apply List.ext_getElem
  · simp; omega
  · intro i h1 h2
    simp

theorem lookup_notebookRf (htm : Increasing T tm) (ha : a < T) (hb : b < T) {t : ℕ} (hat : a ≤ t) (htb : t < b) :
    (notebookRf (rowDict T tm f) (tm a) (tm b)).lookup (tm t) = some (f t) := by
  rw [notebookRf_rows htm ha hb, map_range_shift a (b - a) fun t => (tm t, f t)]
  have := lookup_map_range (N := b - a) (time := fun j => tm (a + j)) (fun s t h1 h2 => htm _ _ (by omega) (by omega))
    (fun j => f (a + j)) (t - a) (by omega)
  rwa [show a + (t - a) = t from by omega] at this

/-- the constructor of the notebook cell -/
theorem experiment_backtests (htm : Increasing T tm) (hn : 0 < n) (ha : a < T) (hb : b < T) {preds : List (Dict τ (Mat n))}
    {names : List String} {means : Option (List (Dict τ (Vec n)))} {bt : Backtest τ n}
    (h : backtestInit (rowDict T tm x) preds names means (some (tm a)) (some (tm b)) = .ok bt) :
    Backtests bt T tm x a b ∧ bt.covPredictors = preds ∧ bt.names = names ∧ bt.meanPredictors = means := by
  obtain ⟨_, last, _, _, _, _, h1, h2, h3, h4, h5, h6⟩ := (C107_constructor _ _ _ _ _ _ _).1 h
  refine ⟨⟨hn, fun s t hs ht h => distinct_of_increasing htm s t hs ht h, ha, hb, h3, ?_, ?_⟩, h4, h5, h6⟩
  · rcases h1 with h | ⟨h, _⟩
    · exact (Option.some.inj h).symm
    · cases h
  · rcases h2 with h | ⟨h, _⟩
    · exact (Option.some.inj h).symm
    · cases h

/-- the risk-free series given to the table -/
theorem tableRf_days (htm : Increasing T tm) {bt : Backtest τ n} (hbt : Backtests bt T tm x a b) {cvx : Cvx n} {st : Strategy τ n}
    {d : Dict String (DatedTrader τ n)} (hd : bt.run cvx st = .ok d) {names : List String} {byDates : Bool}
    (hrows : byDates = true ∨ ∀ t, a < t → t ≤ b → CompleteRow (x t)) {rf : List ℝ}
    (h : tableRf byDates (notebookRf (rowDict T tm f) (tm a) (tm b)) names d = .ok rf) : rf = (tradingDays x a b).map f := by
  unfold tableRf at h
  split at h
  · obtain ⟨name, h1, h⟩ := (bind_ok_iff _ _ _).1 h
    obtain ⟨tr, h2, h⟩ := (bind_ok_iff _ _ _).1 h
    obtain ⟨r, h3, h⟩ := (bind_ok_iff _ _ _).1 h
    injection h with h
    subst h
    rw [getItem_ok_iff] at h2
    rw [(C106_pairing hbt hd (mem_of_lookup_str h2)).1, restrict_ok_iff] at h3
    obtain ⟨v, hv, rfl⟩ := h3
    rw [List.map_map]
    refine List.map_congr_left fun t ht => ?_
    have h5 := hv t ht
    obtain ⟨h6, h7, _⟩ := (C106_days x a b).1 t |>.1 ht
    rw [lookup_notebookRf htm hbt.first hbt.last h6 h7] at h5
    exact (Option.some.inj h5).symm
  · rename_i hbd
    injection h with h
    rw [← h, notebookRf_rows htm hbt.first hbt.last, List.map_map,
      (C106_days x a b).2.2 (hrows.resolve_left (by simpa using hbd))]
    rfl

/-- the rows of a trader -/
private theorem trader_rows {bt : Backtest τ n} (hbt : Backtests bt T tm x a b) {cvx : Cvx n} (hx : cvx.Exact) {st : Strategy τ n}
    (hst : st.RiskOnly) {d : Dict String (DatedTrader τ n)} (h2 : bt.run cvx st = .ok d) {q : String × DatedTrader τ n} (hq : q ∈ d) :
    ∃ (w : ℕ → Vec n) (S : ℕ → Mat n), q.2.trader.diluted = false ∧ tradingDays x a b ≠ [] ∧
      q.2.trader.returns = (tradingDays x a b).map (fun t => rowValues (x (t + 1))) ∧
      q.2.trader.sigmas = (tradingDays x a b).map S ∧ q.2.trader.ws = (tradingDays x a b).map fun t => List.ofFn (w t) := by
  obtain ⟨i, c, mus, q1, q2, q3, q4, q5, q6, q7, S, L, mu, rho, W, q8, q9, q10⟩ := run_days hbt h2 hq
  have hw : ∀ t ∈ tradingDays x a b, ∃ w : Vec n, W t = List.ofFn w ∧ ∑ i, w i = 1 := fun t ht =>
    dayWeights_sum hx hbt.assets hst (q10 t ht).2.2.2.2.1
  choose! w hw1 hw2 using hw
  exact ⟨w, S, (C106_fresh hbt h2 hq).1, ((C107_success hbt cvx st).1 ⟨d, h2⟩ _ _ q1).1, q7, q9, by
    rw [q8]; exact List.map_congr_left hw1⟩

/-- **C163.** The table of a backtest of `EqWeighted`, `MinRisk`, `MaxDiverse` or `RiskParity` with a volatility target in the
notebooks. Every trader gets metrics `m`, printed (unless it is called `PRESCIENT`) in percent. Behind them are, for every
trading day `t`, the covariance `S t` predicted under its label, the weights `w t` chosen for it (fully invested, of positive
predicted risk) and the share `investedShare` that makes the predicted annual volatility the target. The assets earn the
returns of the row *after* `t`, cash the risk-free rate of row `t` itself. Reported are 252 times the mean of the returns in
excess of that rate, that is of the share times the excess return of the portfolio; `sqrt 252` times the standard
deviation of the returns (not of the excess returns); the quotient, and the drawdown. -/
theorem C163_table (htm : Increasing T tm) (hn : 0 < n) (ha : a < T) (hb : b < T) {preds : List (Dict τ (Mat n))} {names : List String}
    {cvx : Cvx n} (hx : cvx.Exact) {st : Strategy τ n} (hst : st.RiskOnly) (hsym : AllSymmetric preds) {sigma : ℝ}
    (hsigma : sigma ≠ 0) {byDates prescient : Bool} (hrows : byDates = true ∨ ∀ t, a < t → t ≤ b → CompleteRow (x t))
    {trs : Dict String (Trader n)} {out : List TableLine × Option Err}
    (h : experiment cvx st (rowDict T tm x) preds names (tm a) (tm b) (rowDict T tm f) (some sigma) true byDates prescient
      = .ok (trs, out)) :
    ∃ ms : Dict String Metrics,
      (prescient = false → out = ((ms.filter (·.1 ≠ "PRESCIENT")).map (fun q => lineOf q.1 q.2) ++ [.hline], none)) ∧
      ms.map Prod.fst = (names.take preds.length).eraseDups ∧
      ∀ name m, (name, m) ∈ ms → ∃ (i : ℕ) (c : Dict τ (Mat n)) (S : ℕ → Mat n) (w : ℕ → Vec n),
        preds[i]? = some c ∧ names[i]? = some name ∧
        (∀ t ∈ tradingDays x a b, c.lookup (tm t) = some (S t) ∧ dayOutcome cvx st c none (tm t) = .ok (List.ofFn (w t)) ∧
          ∑ i, w t i = 1 ∧ 0 < predictedStd (S t) (w t)) ∧
        m.meanReturn = 252 * average ((tradingDays x a b).map fun t =>
          investedShare sigma (S t) (w t) * (w t ⬝ᵥ rowValues (x (t + 1)) - f t)) ∧
        m.risk = Real.sqrt 252 * deviation ((tradingDays x a b).map fun t =>
          positionReturn sigma (S t) (w t) (rowValues (x (t + 1))) (f t)) ∧
        m.sharpe = m.meanReturn / m.risk ∧
        LargestLoss (wealth 1 ((tradingDays x a b).map fun t =>
          positionReturn sigma (S t) (w t) (rowValues (x (t + 1))) (f t))) (tradingDays x a b).length m.drawdown := by
  unfold experiment at h
  obtain ⟨bt, h1, h⟩ := (bind_ok_iff _ _ _).1 h
  obtain ⟨d, h2, h⟩ := (bind_ok_iff _ _ _).1 h
  obtain ⟨rf, h3, h⟩ := (bind_ok_iff _ _ _).1 h
  obtain ⟨hbt, hcp, hnm, hmp⟩ := experiment_backtests htm hn ha hb h1
  have hrf := tableRf_days htm hbt h2 hrows h3
  obtain ⟨ms, hms, hp1, -, -⟩ := C112_table _ _ _ _ _ _ _ h
  have hkeys : ms.map Prod.fst = d.map Prod.fst := by
    have := List.forall₂_map_left_iff.1 (List.Forall₂.imp (fun p q h => h.1) hms)
    clear hms hp1
    rw [← List.forall₂_eq_eq_eq]
    rw [List.forall₂_map_left_iff, List.forall₂_map_right_iff]
    exact this.flip
  have hlen : bt.covPredictors.length = preds.length := by rw [hcp, List.length_map]
  refine ⟨ms, hp1, by rw [hkeys, (C111_names h2).2.1, hlen, hnm], fun name m hm => ?_⟩
  obtain ⟨p, hp, hpm, s, hs⟩ := forall₂_mem_right hms hm
  obtain ⟨q, hq, rfl⟩ := List.mem_map.1 hp
  dsimp only at hpm hs
  subst hpm
  obtain ⟨i, c, mus, q1, q2, q3, q4, q5, q6, q7, S, L, mu, rho, W, q8, q9, q10⟩ := run_days hbt h2 hq
  rw [hcp, List.getElem?_map, Option.map_eq_some_iff] at q1
  obtain ⟨c0, q1, rfl⟩ := q1
  have hmus : mus = none := by
    cases st with
    | meanVariance _ _ _ => exact hst.elim
    | _ => unfold meanPredictor at q3; injection q3 with q3; exact q3.symm
  subst hmus
  have hw : ∀ t ∈ tradingDays x a b, ∃ w : Vec n, W t = List.ofFn w ∧ ∑ i, w i = 1 := fun t ht =>
    dayWeights_sum hx hn hst (q10 t ht).2.2.2.2.1
  choose! w hw1 hw2 using hw
  have hlk : ∀ t ∈ tradingDays x a b, (betweenDates (tm a) (tm b) c0).lookup (tm t) = c0.lookup (tm t) := by
    intro t ht
    obtain ⟨h6, h7, _⟩ := (C106_days x a b).1 t |>.1 ht
    refine lookup_between _ _ _ ?_ (htm t b h7 hb).le
    rcases Nat.eq_or_lt_of_le h6 with h8 | h8
    · rw [h8]
    · exact (htm a t h8 (by omega)).le
  have hdays : tradingDays x a b ≠ [] := by
    obtain ⟨i', c', hc', _⟩ := (C111_names h2).2.2 _ _ hq
    exact ((C107_success hbt cvx st).1 ⟨d, h2⟩ _ _ hc').1
  have hws : q.2.trader.ws = (tradingDays x a b).map fun t => List.ofFn (w t) := by
    rw [q8]; exact List.map_congr_left hw1
  obtain ⟨s1, hs1, hrets⟩ := diluted_days q.2.trader (C106_fresh hbt h2 hq).1 (tradingDays x a b) hdays _ w S f q7 q9 hws sigma []
  rw [List.append_nil] at hs1
  rw [hrf, show decide (∃ y, some sigma = some y ∧ y ≠ 0) = true from decide_eq_true ⟨sigma, rfl, hsigma⟩] at hs
  simp only [Option.isSome_some, if_true] at hs
  obtain ⟨s2, m', e2, e3, e4, e5, e1⟩ := C79_excess q.2.trader s1 true (some sigma) ((tradingDays x a b).map f)
    (by rw [q7]; simpa using hdays) hs1 (by rw [q7, List.length_map, List.length_map])
  rw [e2] at hs
  injection hs with hs
  rw [Prod.mk.injEq] at hs
  obtain ⟨rfl, rfl⟩ := hs
  rw [q6, hrets, List.length_map] at e1
  rw [q6, hrets] at e3
  rw [hrets] at e4
  refine ⟨i, c0, S, w, q1, hnm ▸ q2, fun t ht => ?_, ?_, e4, e5, e1⟩
  · obtain ⟨r1, r2, r3, r4, r5, r6⟩ := q10 t ht
    have hS : c0.lookup (tm t) = some (S t) := by rw [← hlk t ht]; exact r1
    refine ⟨hS, ?_, hw2 t ht, ?_⟩
    · rw [← hw1 t ht, ← r6]
      unfold dayOutcome getItem
      rw [hlk t ht]
    · have hpd : (S t).PosDef := C107_posDef r6 r1 (by
        ext i j
        exact (hsym c0 (List.mem_of_getElem? q1) _ _ hS i j).symm)
      refine predictedStd_pos hpd fun h0 => ?_
      have := hw2 t ht
      rw [h0] at this
      simp at this
  · rw [e3]
    congr 2
    rw [List.zipWith_map, List.zipWith_self]
    refine List.map_congr_left fun t _ => ?_
    unfold positionReturn
    ring

/-- **C163.** The table of a `MeanVariance` backtest in the notebooks (without a volatility target for the table): the assets
earn the returns of the row after the trading day `t`, cash the risk-free rate of row `t`, which is also subtracted; the
risk is that of the returns. -/
theorem C163_mean_variance (htm : Increasing T tm) (hn : 0 < n) (ha : a < T) (hb : b < T) {preds : List (Dict τ (Mat n))}
    {names : List String} {cvx : Cvx n} (hx : cvx.Exact) {cons : ExtraCons} {sigmaTar : ℝ} {rhos : Option (Dict τ (Vec n))}
    (hsym : AllSymmetric preds) {means : Option (List (Dict τ (Vec n)))} {byDates prescient : Bool}
    (hrows : byDates = true ∨ ∀ t, a < t → t ≤ b → CompleteRow (x t)) {trs : Dict String (Trader n)}
    {out : List TableLine × Option Err}
    (h : experiment cvx (.meanVariance cons sigmaTar rhos) (rowDict T tm x) preds names (tm a) (tm b) (rowDict T tm f) none true
      byDates prescient means = .ok (trs, out)) :
    ∃ ms : Dict String Metrics,
      (prescient = false → out = ((ms.filter (·.1 ≠ "PRESCIENT")).map (fun q => lineOf q.1 q.2) ++ [.hline], none)) ∧
      ms.map Prod.fst = (names.take preds.length).eraseDups ∧
      ∀ name m, (name, m) ∈ ms → ∃ (i : ℕ) (c : Dict τ (Mat n)) (w : ℕ → Vec n) (cash : ℕ → ℝ),
        preds[i]? = some c ∧ names[i]? = some name ∧
        (∀ t ∈ tradingDays x a b, ∃ S, c.lookup (tm t) = some S ∧ WithinLimitsCash cons (w t) (cash t) ∧
          Real.sqrt 252 * predictedStd S (w t) ≤ sigmaTar) ∧
        m.meanReturn = 252 * average ((tradingDays x a b).map fun t =>
          w t ⬝ᵥ rowValues (x (t + 1)) + cash t * f t - f t) ∧
        m.risk = Real.sqrt 252 * deviation ((tradingDays x a b).map fun t => w t ⬝ᵥ rowValues (x (t + 1)) + cash t * f t) ∧
        m.sharpe = m.meanReturn / m.risk ∧
        LargestLoss (wealth 1 ((tradingDays x a b).map fun t => w t ⬝ᵥ rowValues (x (t + 1)) + cash t * f t))
          (tradingDays x a b).length m.drawdown := by
  unfold experiment at h
  obtain ⟨bt, h1, h⟩ := (bind_ok_iff _ _ _).1 h
  obtain ⟨d, h2, h⟩ := (bind_ok_iff _ _ _).1 h
  obtain ⟨rf, h3, h⟩ := (bind_ok_iff _ _ _).1 h
  obtain ⟨hbt, hcp, hnm, hmp⟩ := experiment_backtests htm hn ha hb h1
  have hrf := tableRf_days htm hbt h2 hrows h3
  obtain ⟨ms, hms, hp1, -, -⟩ := C112_table _ _ _ _ _ _ _ h
  have hkeys : ms.map Prod.fst = d.map Prod.fst := by
    have := List.forall₂_map_left_iff.1 (List.Forall₂.imp (fun p q h => h.1) hms)
    clear hms hp1
    rw [← List.forall₂_eq_eq_eq]
    rw [List.forall₂_map_left_iff, List.forall₂_map_right_iff]
    exact this.flip
  have hlen : bt.covPredictors.length = preds.length := by rw [hcp, List.length_map]
  refine ⟨ms, hp1, by rw [hkeys, (C111_names h2).2.1, hlen, hnm], fun name m hm => ?_⟩
  obtain ⟨p, hp, hpm, s, hs⟩ := forall₂_mem_right hms hm
  obtain ⟨q, hq, rfl⟩ := List.mem_map.1 hp
  dsimp only at hpm hs
  subst hpm
  have hdays : tradingDays x a b ≠ [] := by
    obtain ⟨i', c', hc', _⟩ := (C111_names h2).2.2 _ _ hq
    exact ((C107_success hbt cvx _).1 ⟨d, h2⟩ _ _ hc').1
  rw [hrf, show decide (∃ y, (none : Option ℝ) = some y ∧ y ≠ 0) = false from decide_eq_false (by rintro ⟨y, h, _⟩; cases h)] at hs
  rw [if_neg (by simp)] at hs
  obtain ⟨i, c, ms', mp, w, cash, q1, q2, q3, q4, q5, ⟨s1, hs1, hrets⟩, q6⟩ := C109_mean_variance hbt hx h2 hq (some (1 / 10))
    (some fun k => f ((tradingDays x a b).getD k 0)) []
  have q7 := (C106_pairing hbt h2 hq).2.1
  have hadj := (C106_fresh hbt h2 hq).2.2.2.1
  rw [Option.map_some, List.append_nil, ← days_as_range (tradingDays x a b) f] at hs1
  have hrets' : s1.rets = (tradingDays x a b).map fun t => w t ⬝ᵥ rowValues (x (t + 1)) + cash t * f t := by
    rw [hrets]
    apply List.ext_getElem (by simp)
    intro k h3 h4
    have hk : k < (tradingDays x a b).length := by simpa using h3
    simp [List.getD_eq_getElem?_getD, hk, dotProduct]
  obtain ⟨s2, m', e2, e3, e4, e5, e1⟩ := C79_excess q.2.trader s1 false (some (1 / 10)) ((tradingDays x a b).map f)
    (by rw [q7]; simpa using hdays) hs1 (by rw [q7, List.length_map, List.length_map])
  rw [e2] at hs
  injection hs with hs
  rw [Prod.mk.injEq] at hs
  obtain ⟨rfl, rfl⟩ := hs
  rw [hadj, hrets', List.length_map] at e1
  rw [hadj, hrets'] at e3
  rw [hrets'] at e4
  rw [hcp, List.getElem?_map, Option.map_eq_some_iff] at q1
  obtain ⟨c0, q1, rfl⟩ := q1
  refine ⟨i, c0, w, cash, q1, hnm ▸ q2, fun t ht => ?_, ?_, e4, e5, e1⟩
  · obtain ⟨S, mu, r1, r2, r3, r4, _⟩ := q6 t ht
    obtain ⟨h6, h7, _⟩ := (C106_days x a b).1 t |>.1 ht
    rw [lookup_between _ _ _ (by
      rcases Nat.eq_or_lt_of_le h6 with h8 | h8
      · rw [h8]
      · exact (htm a t h8 (by omega)).le) (htm t b h7 hb).le] at r1
    exact ⟨S, r1, r3, r4 (by
        ext i j
        exact (hsym c0 (List.mem_of_getElem? q1) _ _ r1 i j).symm)⟩
  · rw [e3]
    congr 2
    rw [List.zipWith_map, List.zipWith_self]
    refine List.map_congr_left fun t _ => ?_
    ring

/-- the traders of a run on at least one predictor -/
private theorem run_nonempty {bt : Backtest τ n} {cvx : Cvx n} {st : Strategy τ n} {d : Dict String (DatedTrader τ n)}
    (h : bt.run cvx st = .ok d) (hc : bt.covPredictors ≠ []) :
    ∃ name names, bt.names = name :: names ∧ name ∈ d.map Prod.fst := by
  obtain ⟨h1, h2, _⟩ := C111_names h
  cases hn : bt.names with
  | nil => rw [hn] at h1; exact absurd (List.length_eq_zero_iff.1 (by simpa using h1)) hc
  | cons name names =>
    refine ⟨name, names, rfl, ?_⟩
    rw [h2, hn, List.mem_eraseDups]
    cases hcc : bt.covPredictors with
    | nil => exact absurd hcc hc
    | cons c cs => simp

/-- the predictors of an object are not empty -/
private theorem init_nonempty {returns : List (τ × NRow n)} {covs : List (Dict τ (Mat n))} {names : List String}
    {means : Option (List (Dict τ (Vec n)))} {startDate endDate : Option τ} {bt : Backtest τ n}
    (h : backtestInit returns covs names means startDate endDate = .ok bt) : bt.covPredictors ≠ [] := by
  obtain ⟨_, last, h1, _, _, _, _, _, _, h4, _⟩ := (C107_constructor _ _ _ _ _ _ _).1 h
  rw [h4]
  rintro rfl
  cases h1

private theorem table_runs (htm : Increasing T tm) (hn : 0 < n) (ha : a < T) (hb : b < T) {preds : List (Dict τ (Mat n))}
    {names : List String} {means : Option (List (Dict τ (Vec n)))} {cvx : Cvx n} {st : Strategy τ n} {target : Option ℝ}
    {byDates : Bool} (prescient : Bool) (hrows : byDates = true ∨ ∀ t, a < t → t ≤ b → CompleteRow (x t)) {bt : Backtest τ n}
    (h1 : backtestInit (rowDict T tm x) (preds.map (betweenDates (tm a) (tm b))) names means (some (tm a)) (some (tm b)) = .ok bt)
    {d : Dict String (DatedTrader τ n)} (h2 : bt.run cvx st = .ok d)
    (hmet : ∀ q ∈ d, ∃ r, tableMetrics target (some ((tradingDays x a b).map f)) true q.2.trader = .ok r) :
    ∃ r, experiment cvx st (rowDict T tm x) preds names (tm a) (tm b) (rowDict T tm f) target true byDates prescient means
      = .ok r := by
  obtain ⟨hbt, hcp, hnm, hmp⟩ := experiment_backtests htm hn ha hb h1
  have hrf : tableRf byDates (notebookRf (rowDict T tm f) (tm a) (tm b)) names d = .ok ((tradingDays x a b).map f) := by
    have hex : ∃ rf, tableRf byDates (notebookRf (rowDict T tm f) (tm a) (tm b)) names d = .ok rf := by
      unfold tableRf
      cases byDates with
      | false => exact ⟨_, rfl⟩
      | true =>
        obtain ⟨name, ns, e1, e2⟩ := run_nonempty h2 (init_nonempty h1)
        obtain ⟨q, hq, rfl⟩ := List.mem_map.1 e2
        have hlk : ∃ tr, d.lookup q.1 = some tr := by
          cases hl : d.lookup q.1 with
          | some tr => exact ⟨tr, rfl⟩
          | none => exact absurd (List.lookup_eq_none_iff.1 hl q hq) (by simp)
        obtain ⟨tr, htr⟩ := hlk
        have hres : restrict (notebookRf (rowDict T tm f) (tm a) (tm b)) tr.dates
            = .ok ((tradingDays x a b).map fun t => (tm t, f t)) := by
          rw [(C106_pairing hbt h2 (mem_of_lookup_str htr)).1, restrict_ok_iff]
          refine ⟨f, fun t ht => ?_, rfl⟩
          obtain ⟨h6, h7, _⟩ := (C106_days x a b).1 t |>.1 ht
          exact lookup_notebookRf htm ha hb h6 h7
        rw [hnm] at e1
        refine ⟨((tradingDays x a b).map fun t => (tm t, f t)).map Prod.snd, ?_⟩
        rw [if_pos rfl, e1]
        change (getItem d q.1 >>= _ : Except Err _) = _
        rw [(getItem_ok_iff _ _ _).2 htr]
        change (restrict _ tr.dates >>= _ : Except Err _) = _
        rw [hres]
        rfl
    obtain ⟨rf, hrf⟩ := hex
    rw [hrf, tableRf_days htm hbt h2 hrows hrf]
  have hmap : ∀ p ∈ d.map (fun p => (p.1, p.2.trader)), ∃ v,
      (do let m ← tableMetrics target (some ((tradingDays x a b).map f)) true p.2; pure (p.1, m) :
        Except Err (String × (Trader n × Metrics))) = .ok v := by
    intro p hp
    obtain ⟨q, hq, rfl⟩ := List.mem_map.1 hp
    obtain ⟨r, hr⟩ := hmet q hq
    refine ⟨(q.1, r), ?_⟩
    dsimp only
    rw [hr]
    rfl
  have hall : ∃ l, (d.map fun p => (p.1, p.2.trader)).mapM (fun p => (do
      let m ← tableMetrics target (some ((tradingDays x a b).map f)) true p.2
      pure (p.1, m) : Except Err (String × (Trader n × Metrics)))) = .ok l := by
    cases hl : (d.map fun p => (p.1, p.2.trader)).mapM (fun p => (do
      let m ← tableMetrics target (some ((tradingDays x a b).map f)) true p.2
      pure (p.1, m) : Except Err (String × (Trader n × Metrics)))) with
    | ok l => exact ⟨l, rfl⟩
    | error e =>
      obtain ⟨p, hp, he⟩ := mapM_error _ _ _ hl
      obtain ⟨v, hv⟩ := hmap p hp
      rw [hv] at he
      cases he
  obtain ⟨l, hl⟩ := hall
  unfold experiment
  rw [h1, ok_bind, h2, ok_bind, hrf, ok_bind]
  unfold createTable
  rw [hl]
  exact ⟨_, rfl⟩

/-- **C163.** If the backtest goes through, so does the table: with `rf.loc[...]` always, with `rf` itself if no return is
missing from the row after the start to the end. -/
theorem C163_runs (htm : Increasing T tm) (hn : 0 < n) (ha : a < T) (hb : b < T) {preds : List (Dict τ (Mat n))} {names : List String}
    {cvx : Cvx n} (hx : cvx.Exact) {st : Strategy τ n} (hst : st.RiskOnly) {sigma : ℝ} (hsigma : sigma ≠ 0)
    {byDates : Bool} (prescient : Bool) (hrows : byDates = true ∨ ∀ t, a < t → t ≤ b → CompleteRow (x t)) {bt : Backtest τ n}
    (h1 : backtestInit (rowDict T tm x) (preds.map (betweenDates (tm a) (tm b))) names none (some (tm a)) (some (tm b)) = .ok bt)
    {d : Dict String (DatedTrader τ n)} (h2 : bt.run cvx st = .ok d) :
    ∃ r, experiment cvx st (rowDict T tm x) preds names (tm a) (tm b) (rowDict T tm f) (some sigma) true byDates prescient
      = .ok r := by
  obtain ⟨hbt, hcp, hnm, hmp⟩ := experiment_backtests htm hn ha hb h1
  refine table_runs htm hn ha hb prescient hrows h1 h2 fun q hq => ?_
  obtain ⟨w, S, e1, e2, e3, e4, e5⟩ := trader_rows hbt hx hst h2 hq
  obtain ⟨s1, hs1, -⟩ := diluted_days q.2.trader e1 (tradingDays x a b) e2 _ w S f e3 e4 e5 sigma []
  rw [List.append_nil] at hs1
  obtain ⟨s2, m', dd, _, g, _⟩ := excess_np q.2.trader s1 true (some sigma) ((tradingDays x a b).map f)
    (by rw [e3]; simpa using e2) hs1 (by rw [e3, List.length_map, List.length_map])
  refine ⟨(s2, m'), ?_⟩
  unfold tableMetrics
  dsimp only
  rw [if_neg hsigma, g]

/-- **C163.** The same for `MeanVariance`. -/
theorem C163_runs_mean_variance (htm : Increasing T tm) (hn : 0 < n) (ha : a < T) (hb : b < T) {preds : List (Dict τ (Mat n))}
    {names : List String} {cvx : Cvx n} (hx : cvx.Exact) {cons : ExtraCons} {sigmaTar : ℝ} {rhos : Option (Dict τ (Vec n))}
    {means : Option (List (Dict τ (Vec n)))}
    {byDates : Bool} (prescient : Bool) (hrows : byDates = true ∨ ∀ t, a < t → t ≤ b → CompleteRow (x t)) {bt : Backtest τ n}
    (h1 : backtestInit (rowDict T tm x) (preds.map (betweenDates (tm a) (tm b))) names means (some (tm a)) (some (tm b)) = .ok bt)
    {d : Dict String (DatedTrader τ n)} (h2 : bt.run cvx (.meanVariance cons sigmaTar rhos) = .ok d) :
    ∃ r, experiment cvx (.meanVariance cons sigmaTar rhos) (rowDict T tm x) preds names (tm a) (tm b) (rowDict T tm f) none true
      byDates prescient means = .ok r := by
  obtain ⟨hbt, hcp, hnm, hmp⟩ := experiment_backtests htm hn ha hb h1
  refine table_runs htm hn ha hb prescient hrows h1 h2 fun q hq => ?_
  have hdays : tradingDays x a b ≠ [] := by
    obtain ⟨i', c', hc', _⟩ := (C111_names h2).2.2 _ _ hq
    exact ((C107_success hbt cvx _).1 ⟨d, h2⟩ _ _ hc').1
  obtain ⟨i, c, ms', mp, w, cash, _, _, _, _, _, ⟨s1, hs1, _⟩, _⟩ := C109_mean_variance hbt hx h2 hq (some (1 / 10))
    (some fun k => f ((tradingDays x a b).getD k 0)) []
  have q7 := (C106_pairing hbt h2 hq).2.1
  rw [Option.map_some, List.append_nil, ← days_as_range (tradingDays x a b) f] at hs1
  obtain ⟨s2, m', dd, _, g, _⟩ := excess_np q.2.trader s1 false (some (1 / 10)) ((tradingDays x a b).map f)
    (by rw [q7]; simpa using hdays) hs1 (by rw [q7, List.length_map, List.length_map])
  refine ⟨(s2, m'), ?_⟩
  unfold tableMetrics
  exact g

private theorem fewer_days {a b : ℕ} (hmiss : ∃ t, a < t ∧ t ≤ b ∧ ¬ CompleteRow (x t)) : (tradingDays x a b).length < b - a := by
  obtain ⟨t, t1, t2, t3⟩ := hmiss
  have hle : (tradingDays x a b).length ≤ (List.range' a (b - a)).length := List.length_filter_le _ _
  rw [List.length_range'] at hle
  refine lt_of_le_of_ne hle fun heq => t3 ?_
  have hall := List.length_filter_eq_length_iff.1 (show ((List.range' a (b - a)).filter _).length = (List.range' a (b - a)).length from by
    rw [List.length_range']; exact heq)
  have := hall (t - 1) (by simp; omega)
  rw [show t - 1 + 1 = t from by omega] at this
  simpa using this

private theorem table_fails (htm : Increasing T tm) (hn : 0 < n) (ha : a < T) (hb : b < T) {preds : List (Dict τ (Mat n))}
    {names : List String} {means : Option (List (Dict τ (Vec n)))} {cvx : Cvx n} {st : Strategy τ n} {target : Option ℝ}
    (prescient : Bool) {bt : Backtest τ n}
    (h1 : backtestInit (rowDict T tm x) (preds.map (betweenDates (tm a) (tm b))) names means (some (tm a)) (some (tm b)) = .ok bt)
    {d : Dict String (DatedTrader τ n)} (h2 : bt.run cvx st = .ok d)
    (hmet : ∀ q ∈ d, tableMetrics target (some ((List.range' a (b - a)).map f)) true q.2.trader = .error .valueError) :
    experiment cvx st (rowDict T tm x) preds names (tm a) (tm b) (rowDict T tm f) target true false prescient means
      = .error .valueError := by
  obtain ⟨hbt, hcp, hnm, hmp⟩ := experiment_backtests htm hn ha hb h1
  have hrf : tableRf false (notebookRf (rowDict T tm f) (tm a) (tm b)) names d = .ok ((List.range' a (b - a)).map f) := by
    unfold tableRf
    rw [if_neg (by simp), notebookRf_rows htm ha hb, List.map_map]
    rfl
  obtain ⟨name, ns, g1, g2⟩ := run_nonempty h2 (init_nonempty h1)
  have hd0 : d ≠ [] := by rintro rfl; simp at g2
  unfold experiment
  rw [h1, ok_bind, h2, ok_bind, hrf, ok_bind]
  unfold createTable
  obtain ⟨p, d', rfl⟩ := List.exists_cons_of_ne_nil hd0
  have := hmet p (by simp)
  rw [List.map_cons, List.mapM_cons]
  dsimp only at this ⊢
  rw [this]
  rfl

private theorem excess_fails (s s1 : Trader n) (dil : Bool) (y : Option ℝ) (rf : List ℝ) (h : s.getTotalReturns dil y (some rf) = .ok s1)
    (hl : s1.rets.length < rf.length) : s.getMetrics dil y (some rf) true = .error .valueError := by
  unfold Trader.getMetrics
  rw [h, ok_bind]
  dsimp only
  rw [if_pos rfl]
  have : rf.length ≠ (s1.getPortfolioGrowth).rets.length := by
    unfold Trader.getPortfolioGrowth
    exact hl.ne'
  rw [if_pos this]
  rfl

/-- **C163.** With `rf` itself, a single missing return from the row after the start to the end makes the table of excess
returns fail with `ValueError` (the backtest skips the day, the series does not). There are at least two trading days because
numpy would broadcast a single return. -/
theorem C163_missing (htm : Increasing T tm) (hn : 0 < n) (ha : a < T) (hb : b < T) {preds : List (Dict τ (Mat n))}
    {names : List String} {cvx : Cvx n} (hx : cvx.Exact) {st : Strategy τ n} (hst : st.RiskOnly) {sigma : ℝ} (hsigma : sigma ≠ 0)
    (prescient : Bool) (hmiss : ∃ t, a < t ∧ t ≤ b ∧ ¬ CompleteRow (x t)) (_h2d : 2 ≤ (tradingDays x a b).length) {bt : Backtest τ n}
    (h1 : backtestInit (rowDict T tm x) (preds.map (betweenDates (tm a) (tm b))) names none (some (tm a)) (some (tm b)) = .ok bt)
    {d : Dict String (DatedTrader τ n)} (h2 : bt.run cvx st = .ok d) :
    experiment cvx st (rowDict T tm x) preds names (tm a) (tm b) (rowDict T tm f) (some sigma) true false prescient
      = .error .valueError := by
  obtain ⟨hbt, hcp, hnm, hmp⟩ := experiment_backtests htm hn ha hb h1
  have hlt := fewer_days hmiss
  refine table_fails htm hn ha hb prescient h1 h2 fun q hq => ?_
  obtain ⟨w, S, e1, e2, e3, e4, e5⟩ := trader_rows hbt hx hst h2 hq
  obtain ⟨s1, hs1, hs2⟩ := diluted_positions q.2.trader e1 (tradingDays x a b) e2 _ w S e3 e4 e5 sigma
    ((List.range' a (b - a)).map f) (by rw [List.length_map, List.length_range']; exact hlt.le)
  unfold tableMetrics
  dsimp only
  rw [if_neg hsigma]
  exact excess_fails _ s1 _ _ _ hs1 (by rw [hs2, List.length_map, List.length_range']; exact hlt)

/-- **C163.** The same for `MeanVariance`. -/
theorem C163_missing_mean_variance (htm : Increasing T tm) (hn : 0 < n) (ha : a < T) (hb : b < T) {preds : List (Dict τ (Mat n))}
    {names : List String} {cvx : Cvx n} (hx : cvx.Exact) {cons : ExtraCons} {sigmaTar : ℝ} {rhos : Option (Dict τ (Vec n))}
    {means : Option (List (Dict τ (Vec n)))} (prescient : Bool) (hmiss : ∃ t, a < t ∧ t ≤ b ∧ ¬ CompleteRow (x t))
    (_h2d : 2 ≤ (tradingDays x a b).length) {bt : Backtest τ n}
    (h1 : backtestInit (rowDict T tm x) (preds.map (betweenDates (tm a) (tm b))) names means (some (tm a)) (some (tm b)) = .ok bt)
    {d : Dict String (DatedTrader τ n)} (h2 : bt.run cvx (.meanVariance cons sigmaTar rhos) = .ok d) :
    experiment cvx (.meanVariance cons sigmaTar rhos) (rowDict T tm x) preds names (tm a) (tm b) (rowDict T tm f) none true false
      prescient means = .error .valueError := by
  obtain ⟨hbt, hcp, hnm, hmp⟩ := experiment_backtests htm hn ha hb h1
  have hlt := fewer_days hmiss
  refine table_fails htm hn ha hb prescient h1 h2 fun q hq => ?_
  obtain ⟨i, c, ms', mp, w, cash, _, _, _, _, _, ⟨s1, hs1, hs2⟩, _⟩ := C109_mean_variance hbt hx h2 hq (some (1 / 10))
    (some fun k => ((List.range' a (b - a)).map f).getD k 0) (((List.range' a (b - a)).map f).drop (tradingDays x a b).length)
  rw [Option.map_some] at hs1
  have : (List.range (tradingDays x a b).length).map (fun k => ((List.range' a (b - a)).map f).getD k 0)
      ++ ((List.range' a (b - a)).map f).drop (tradingDays x a b).length = (List.range' a (b - a)).map f := by
    generalize hg : (List.range' a (b - a)).map f = rf
    have hrf : (tradingDays x a b).length ≤ rf.length := by rw [← hg, List.length_map, List.length_range']; exact hlt.le
    conv_rhs => rw [← List.take_append_drop (tradingDays x a b).length rf]
    congr 1
    apply List.ext_getElem (by simp [hrf])
    intro i h3 h4
    simp only [List.length_map, List.length_range] at h3
    simp [List.getD_eq_getElem?_getD, show i < rf.length from by omega]
  rw [this] at hs1
  unfold tableMetrics
  dsimp only
  exact excess_fails _ s1 _ _ _ hs1 (by rw [hs2, List.length_map, List.length_zipIdx, List.length_map, List.length_range']; exact hlt)

end

/-! ### A concrete case: two assets, five days, the second return of day 2 missing or not -/

namespace ExperimentEx

/-- the returns; with `miss`, one of day 2 is missing -/
noncomputable def x (miss : Bool) (t : ℕ) : NRow 2 := fun i => if miss ∧ t = 2 ∧ i = 1 then none else some (((t : ℝ) + 1) * (i.1 + 1))

/-- a prediction for every day -/
noncomputable def preds : List (Dict ℕ (Mat 2)) := [rowDict 5 id fun _ => 1]

private theorem inc : Increasing 5 (id : ℕ → ℕ) := fun _ _ h _ => h

private theorem between : preds.map (betweenDates (id 0) (id 4)) = preds := by
  unfold preds betweenDates rowDict
  simp
  omega

private theorem init (miss : Bool) : ∃ bt, backtestInit (rowDict 5 id (x miss)) (preds.map (betweenDates (id 0) (id 4))) ["A"] none
    (some (id 0)) (some (id 4)) = .ok bt := by
  rw [between]
  refine ⟨⟨rowDict 5 id (x miss), preds, ["A"], none, 0, 4⟩, (C107_constructor _ _ _ _ _ _ _).2 ⟨?_, (rowDict 5 id fun _ => 1 : Dict ℕ (Mat 2)), rfl,
    (fun ms h => by cases h), ?_, ?_, Or.inl rfl, Or.inl rfl, rfl, rfl, rfl, rfl⟩⟩
  · intro c hc t ht
    have : c = rowDict 5 id fun _ => 1 := by simpa [preds] using hc
    subst this
    simpa [rowDict] using ht
  · intro t h
    cases h
    simp [rowDict]
  · intro t h
    cases h
    simp [rowDict]

private theorem symm : AllSymmetric preds := by
  intro c hc t S hS i j
  have : c = rowDict 5 id fun _ => 1 := by simpa [preds] using hc
  subst this
  have hm := mem_of_lookup_some hS
  simp only [rowDict, List.mem_map, Prod.mk.injEq] at hm
  obtain ⟨_, _, _, rfl⟩ := hm
  rw [Matrix.one_apply, Matrix.one_apply]
  simp [eq_comm]

private theorem days (miss : Bool) : tradingDays (x miss) 0 4 = if miss then [0, 2, 3] else [0, 1, 2, 3] := by
  cases miss <;> simp [tradingDays, x, CompleteRow, List.range', List.filter_cons, Fin.forall_fin_two]

private theorem runs (miss : Bool) {bt : Backtest ℕ 2} (h : backtestInit (rowDict 5 id (x miss)) (preds.map (betweenDates (id 0) (id 4))) ["A"]
    none (some (id 0)) (some (id 4)) = .ok bt) : ∃ d, bt.run (exactCvx 2) .riskParity = .ok d := by
  obtain ⟨hbt, hcp, hnm, _⟩ := experiment_backtests inc (by norm_num) (by norm_num) (by norm_num) h
  rw [between] at hcp
  refine (C160_success hbt (exactCvx_exact 2) (exactCvx_solves 2) (st := .riskParity) trivial (by rw [hcp]; exact symm)).2 fun i c hi => ?_
  rw [hcp] at hi
  have hi0 : i = 0 ∧ c = rowDict 5 id fun _ => 1 := by
    cases i with
    | zero => simpa [preds, eq_comm] using hi
    | succ i => simp [preds] at hi
  obtain ⟨rfl, rfl⟩ := hi0
  refine ⟨by rw [days]; cases miss <;> simp, by rw [hnm]; simp, trivial, fun t ht => ⟨1, ?_, Matrix.PosDef.one⟩⟩
  obtain ⟨_, h4, _⟩ := (C106_days _ _ _).1 t |>.1 ht
  exact lookup_rows inc (fun _ => (1 : Mat 2)) (by omega)

/-- the table is printed, and `C163_table` applies to it -/
example : ∃ r, experiment (exactCvx 2) .riskParity (rowDict 5 id (x false)) preds ["A"] (id 0) (id 4)
    (rowDict 5 id fun t : ℕ => (t : ℝ) / 1000) (some (1 / 20)) true false false = .ok r := by
  obtain ⟨bt, h1⟩ := init false
  obtain ⟨d, h2⟩ := runs false h1
  exact C163_runs inc (by norm_num) (by norm_num) (by norm_num) (exactCvx_exact 2) (st := .riskParity) trivial (by norm_num) false
    (.inr fun t _ _ i => by simp [x]) h1 h2

/-- with a missing return the plain series fails -/
example : experiment (exactCvx 2) .riskParity (rowDict 5 id (x true)) preds ["A"] (id 0) (id 4)
    (rowDict 5 id fun t : ℕ => (t : ℝ) / 1000) (some (1 / 20)) true false false = .error .valueError := by
  obtain ⟨bt, h1⟩ := init true
  obtain ⟨d, h2⟩ := runs true h1
  exact C163_missing inc (by norm_num) (by norm_num) (by norm_num) (exactCvx_exact 2) (st := .riskParity) trivial (by norm_num) false
    ⟨2, by norm_num, by norm_num, fun h => by simpa [x] using h 1⟩ (by rw [days]; simp) h1 h2

/-- and the one taken by dates works -/
example : ∃ r, experiment (exactCvx 2) .riskParity (rowDict 5 id (x true)) preds ["A"] (id 0) (id 4)
    (rowDict 5 id fun t : ℕ => (t : ℝ) / 1000) (some (1 / 20)) true true false = .ok r := by
  obtain ⟨bt, h1⟩ := init true
  obtain ⟨d, h2⟩ := runs true h1
  exact C163_runs inc (by norm_num) (by norm_num) (by norm_num) (exactCvx_exact 2) (st := .riskParity) trivial (by norm_num) false (.inl rfl) h1 h2

private theorem initMV (miss : Bool) : ∃ bt, backtestInit (rowDict 5 id (x miss)) (preds.map (betweenDates (id 0) (id 4))) ["A"]
    (some [rowDict 5 id fun _ => 1]) (some (id 0)) (some (id 4)) = .ok bt := by
  rw [between]
  refine ⟨⟨rowDict 5 id (x miss), preds, ["A"], some [rowDict 5 id fun _ => 1], 0, 4⟩, (C107_constructor _ _ _ _ _ _ _).2 ⟨?_, (rowDict 5 id fun _ => 1 : Dict ℕ (Mat 2)), rfl,
    (fun ms h => by cases h; intro m hm t ht; rw [List.mem_singleton] at hm; subst hm; simpa [rowDict] using ht), ?_, ?_, Or.inl rfl, Or.inl rfl, rfl, rfl, rfl, rfl⟩⟩
  · intro c hc t ht
    have : c = rowDict 5 id fun _ => 1 := by simpa [preds] using hc
    subst this
    simpa [rowDict] using ht
  · intro t h
    cases h
    simp [rowDict]
  · intro t h
    cases h
    simp [rowDict]

private theorem runsMV (miss : Bool) {bt : Backtest ℕ 2} (h : backtestInit (rowDict 5 id (x miss)) (preds.map (betweenDates (id 0) (id 4))) ["A"]
    (some [rowDict 5 id fun _ => 1]) (some (id 0)) (some (id 4)) = .ok bt) :
    ∃ d, bt.run (exactCvx 2) (.meanVariance {} (1 / 20) none) = .ok d := by
  obtain ⟨hbt, hcp, hnm, hmp⟩ := experiment_backtests inc (by norm_num) (by norm_num) (by norm_num) h
  rw [between] at hcp
  refine (C160_mean_variance hbt (exactCvx_exact 2) (exactCvx_solves 2) ⟨fun s h => ?_, fun s h => ?_, fun s h => ?_⟩ _ none
    (by rw [hcp]; exact symm)).2 fun i c hi => ?_
  · cases h; norm_num
  · cases h; norm_num
  · cases h; norm_num
  rw [hcp] at hi
  have hi0 : i = 0 ∧ c = rowDict 5 id fun _ => 1 := by
    cases i with
    | zero => simpa [preds, eq_comm] using hi
    | succ i => simp [preds] at hi
  obtain ⟨rfl, rfl⟩ := hi0
  refine ⟨by rw [days]; cases miss <;> simp, by rw [hnm]; simp, by norm_num, _, _, hmp, rfl, fun t ht => ?_⟩
  obtain ⟨_, h4, _⟩ := (C106_days _ _ _).1 t |>.1 ht
  exact ⟨⟨1, lookup_rows inc (fun _ => (1 : Mat 2)) (by omega), Matrix.PosDef.one⟩,
    ⟨1, lookup_rows inc (fun _ => (1 : Vec 2)) (by omega)⟩, fun r hr => by cases hr⟩

/-- `MeanVariance`: the table is printed, and `C163_mean_variance` applies to it -/
example : ∃ r, experiment (exactCvx 2) (.meanVariance {} (1 / 20) none) (rowDict 5 id (x true)) preds ["A"] (id 0) (id 4)
    (rowDict 5 id fun t : ℕ => (t : ℝ) / 1000) none true true false (some [rowDict 5 id fun _ => 1]) = .ok r := by
  obtain ⟨bt, h1⟩ := initMV true
  obtain ⟨d, h2⟩ := runsMV true h1
  exact C163_runs_mean_variance inc (by norm_num) (by norm_num) (by norm_num) (exactCvx_exact 2) false (.inl rfl) h1 h2

/-- with a missing return the plain series fails -/
example : experiment (exactCvx 2) (.meanVariance {} (1 / 20) none) (rowDict 5 id (x true)) preds ["A"] (id 0) (id 4)
    (rowDict 5 id fun t : ℕ => (t : ℝ) / 1000) none true false false (some [rowDict 5 id fun _ => 1]) = .error .valueError := by
  obtain ⟨bt, h1⟩ := initMV true
  obtain ⟨d, h2⟩ := runsMV true h1
  exact C163_missing_mean_variance inc (by norm_num) (by norm_num) (by norm_num) (exactCvx_exact 2) false
    ⟨2, by norm_num, by norm_num, fun h => by simpa [x] using h 1⟩ (by rw [days]; simp) h1 h2

end ExperimentEx

end CovPred
