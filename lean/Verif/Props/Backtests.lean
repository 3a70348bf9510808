import Verif.Lemmas.Backtests
import Verif.Lemmas.FromSigmas
import Verif.Props.Portfolio3
import Verif.Props.Trader
import Verif.Props.Rolling

/-
C106-C112: `portfolio_backtests.py`.
-/
namespace CovPred
open Matrix
set_option linter.unusedSectionVars false

variable {τ : Type} [DecidableEq τ] {n : ℕ}

/-! ### C107: the constructor -/

/-- **C107.** When the constructor succeeds, and the object it makes: every key of every predictor is a label of the
returns, there is a last predictor, its keys are labels of every mean predictor and include the given dates; a date not
given is the first or last key of the *last* predictor. -/
theorem C107_constructor (returns : List (τ × NRow n)) (covs : List (Dict τ (Mat n))) (names : List String)
    (means : Option (List (Dict τ (Vec n)))) (startDate endDate : Option τ) (bt : Backtest τ n) :
    backtestInit returns covs names means startDate endDate = .ok bt ↔
      (∀ c ∈ covs, ∀ t ∈ c.map Prod.fst, t ∈ returns.map Prod.fst) ∧
      ∃ last, covs.getLast? = some last ∧
        (∀ ms, means = some ms → ∀ m ∈ ms, ∀ t ∈ last.map Prod.fst, t ∈ m.map Prod.fst) ∧
        (∀ t, startDate = some t → t ∈ last.map Prod.fst) ∧ (∀ t, endDate = some t → t ∈ last.map Prod.fst) ∧
        (startDate = some bt.startDate ∨ startDate = none ∧ (last.map Prod.fst).head? = some bt.startDate) ∧
        (endDate = some bt.endDate ∨ endDate = none ∧ (last.map Prod.fst).getLast? = some bt.endDate) ∧
        bt.returns = returns ∧ bt.covPredictors = covs ∧ bt.names = names ∧ bt.meanPredictors = means := by
  unfold backtestInit Dict.keys
  by_cases h1 : ∀ c ∈ covs, ∀ t ∈ c.map Prod.fst, t ∈ returns.map Prod.fst
  swap
  · rw [if_pos h1]
    constructor
    · intro h; cases h
    · intro h; exact absurd h.1 h1
  rw [if_neg (not_not.2 h1)]
  cases hl : covs.getLast? with
  | none =>
    constructor
    · intro h; cases h
    · rintro ⟨_, last, h, _⟩; cases h
  | some last =>
    dsimp only
    by_cases h2 : ∀ ms, means = some ms → ∀ m ∈ ms, ∀ t ∈ last.map Prod.fst, t ∈ m.map Prod.fst
    swap
    · rw [if_pos h2]
      constructor
      · intro h; cases h
      · rintro ⟨_, last', h, h3, _⟩
        cases h
        exact absurd h3 h2
    by_cases h3 : ∀ t, startDate = some t → t ∈ last.map Prod.fst
    swap
    · rw [if_neg (not_not.2 h2), if_pos h3]
      constructor
      · intro h; cases h
      · rintro ⟨_, last', h, _, h4, _⟩
        cases h
        exact absurd h4 h3
    by_cases h4 : ∀ t, endDate = some t → t ∈ last.map Prod.fst
    swap
    · rw [if_neg (not_not.2 h2), if_neg (not_not.2 h3), if_pos h4]
      constructor
      · intro h; cases h
      · rintro ⟨_, last', h, _, _, h5, _⟩
        cases h
        exact absurd h5 h4
    rw [if_neg (not_not.2 h2), if_neg (not_not.2 h3), if_neg (not_not.2 h4)]
    have ho : ∀ (o : Option τ) (t : τ), orIndexError o = .ok t ↔ o = some t := by
      intro o t
      cases o with
      | none => simp [orIndexError]
      | some a => simp [orIndexError]
    have hor : ∀ (o p : Option τ) (t : τ), o.or p = some t ↔ o = some t ∨ o = none ∧ p = some t := by
      intro o p t
      cases o with
      | none => simp
      | some a => simp
    simp only [bind_ok_iff, ho, hor]
    constructor
    · rintro ⟨s, hs, e, he, h⟩
      have := (Except.ok.inj h).symm
      subst this
      exact ⟨h1, last, rfl, h2, h3, h4, hs, he, rfl, rfl, rfl, rfl⟩
    · rintro ⟨_, last', h, _, _, _, hs, he, rfl, rfl, rfl, rfl⟩
      cases h
      exact ⟨_, hs, _, he, rfl⟩

/-- **C107.** Every object made for a table with distinct labels runs from one of its rows to another. -/
theorem C107_rows {T : ℕ} {tm : ℕ → τ} (htm : DistinctLabels T tm) (hn : 0 < n) (x : ℕ → NRow n)
    {covs : List (Dict τ (Mat n))} {names : List String} {means : Option (List (Dict τ (Vec n)))} {startDate endDate : Option τ}
    {bt : Backtest τ n} (h : backtestInit (rowDict T tm x) covs names means startDate endDate = .ok bt) :
    ∃ a b, Backtests bt T tm x a b := by
  obtain ⟨h1, last, hl, _, h3, h4, h5, h6, h7, _⟩ := (C107_constructor _ _ _ _ _ _ _).1 h
  have hlast : last ∈ covs := List.mem_of_getLast? hl
  have hidx : ∀ t ∈ last.map Prod.fst, ∃ s < T, tm s = t := by
    intro t ht
    have := h1 last hlast t ht
    unfold rowDict at this
    rw [List.map_map] at this
    obtain ⟨s, hs, rfl⟩ := List.mem_map.1 this
    exact ⟨s, List.mem_range.1 hs, rfl⟩
  have hs : bt.startDate ∈ last.map Prod.fst := by
    rcases h5 with h | ⟨_, h⟩
    · exact h3 _ h
    · exact List.mem_of_head? h
  have he : bt.endDate ∈ last.map Prod.fst := by
    rcases h6 with h | ⟨_, h⟩
    · exact h4 _ h
    · exact List.mem_of_getLast? h
  obtain ⟨a, ha, ha'⟩ := hidx _ hs
  obtain ⟨b, hb, hb'⟩ := hidx _ he
  exact ⟨a, b, hn, htm, ha, hb, h7, ha'.symm, hb'.symm⟩

/-! ### The loop over the predictors -/

theorem mapM_zipIdx_ok_iff {A B : Type} (f : A × ℕ → Except Err B) (l : List A) (r : List B) :
    (l.zipIdx 0).mapM f = .ok r ↔ r.length = l.length ∧
      ∀ i (h1 : i < l.length) (h2 : i < r.length), f (l[i], i) = .ok r[i] := by
  rw [mapM_ok_iff_forall₂, List.forall₂_iff_get]
  constructor
  · rintro ⟨h1, h2⟩
    rw [List.length_zipIdx] at h1
    refine ⟨h1.symm, fun i hi hi' => ?_⟩
    have := h2 i (by rw [List.length_zipIdx]; exact hi) hi'
    simpa using this
  · rintro ⟨h1, h2⟩
    refine ⟨by rw [List.length_zipIdx]; exact h1.symm, fun i hi hi' => ?_⟩
    rw [List.length_zipIdx] at hi
    have := h2 i hi hi'
    simpa using this

theorem backtestItem_ok_iff (cvx : Cvx n) (st : Strategy τ n) (bt : Backtest τ n) (c : Dict τ (Mat n)) (i : ℕ) (name : String)
    (tr : DatedTrader τ n) :
    backtestItem cvx st bt (c, i) = .ok (name, tr) ↔
      ∃ mus, meanPredictor st bt i = .ok mus ∧ backtestOne cvx st bt c mus = .ok tr ∧ bt.names[i]? = some name := by
  unfold backtestItem
  simp only [bind_ok_iff]
  constructor
  · rintro ⟨mus, h1, tr', h2, name', h3, h4⟩
    cases h4
    refine ⟨mus, h1, h2, ?_⟩
    cases h : bt.names[i]? with
    | none => rw [h] at h3; cases h3
    | some a => rw [h] at h3; cases h3; rfl
  · rintro ⟨mus, h1, h2, h3⟩
    exact ⟨mus, h1, tr, h2, name, by rw [h3]; rfl, rfl⟩

/-- an entry of the result comes from the last predictor with its name -/
theorem run_mem {cvx : Cvx n} {st : Strategy τ n} {bt : Backtest τ n} {d : Dict String (DatedTrader τ n)}
    (h : bt.run cvx st = .ok d) {name : String} {tr : DatedTrader τ n} (hm : (name, tr) ∈ d) :
    ∃ i c mus, bt.covPredictors[i]? = some c ∧ bt.names[i]? = some name ∧ meanPredictor st bt i = .ok mus ∧
      backtestOne cvx st bt c mus = .ok tr ∧
      ∀ j, i < j → j < bt.covPredictors.length → bt.names[j]? ≠ some name := by
  unfold Backtest.run at h
  rw [bind_ok_iff] at h
  obtain ⟨items, h1, h2⟩ := h
  cases h2
  obtain ⟨hlen, hit⟩ := (mapM_zipIdx_ok_iff _ _ _).1 h1
  obtain ⟨pre, post, hsplit, hpost⟩ := dictOf_last _ _ _ hm
  have hi : pre.length < items.length := by rw [hsplit]; simp
  have hget : items[pre.length] = (name, tr) := by simp [hsplit]
  have h3 := hit pre.length (by omega) hi
  rw [hget, backtestItem_ok_iff] at h3
  obtain ⟨mus, h4, h5, h6⟩ := h3
  refine ⟨pre.length, _, mus, List.getElem?_eq_getElem (by omega), h6, h4, h5, ?_⟩
  intro j hj hj' hname
  have hj2 : j < items.length := by omega
  have h7 := hit j hj' hj2
  rcases hp : items[j] with ⟨nm, tr'⟩
  rw [hp, backtestItem_ok_iff] at h7
  obtain ⟨_, _, _, h8⟩ := h7
  rw [hname] at h8
  cases h8
  have : items[j] ∈ post := by
    have : items[j] = post[j - pre.length - 1]'(by
        have : items.length = pre.length + 1 + post.length := by rw [hsplit]; simp; omega
        omega) := by
      have e : items = (pre ++ [(name, tr)]) ++ post := by rw [hsplit]; simp
      simp only [e]
      rw [List.getElem_append_right (by simp; omega)]
      congr 1
      simp
      omega
    rw [this]
    exact List.getElem_mem _
  exact hpost _ this (by rw [hp])

/-! ### C106: predictions and returns -/

/-- **C106.** In every result, every trader has one row for each trading day (a row from the start up to, not including, the
end whose next row is complete), in order and under that day's label; the row holds the returns of the *next* row and
the covariance predicted under the day's own label, by the predictor the trader is named after. -/
theorem C106_pairing {bt : Backtest τ n} {T : ℕ} {tm : ℕ → τ} {x : ℕ → NRow n} {a b : ℕ} (hb : Backtests bt T tm x a b)
    {cvx : Cvx n} {st : Strategy τ n} {d : Dict String (DatedTrader τ n)} (h : bt.run cvx st = .ok d) {name : String}
    {tr : DatedTrader τ n} (hm : (name, tr) ∈ d) :
    tr.dates = (tradingDays x a b).map tm ∧
    tr.trader.returns = (tradingDays x a b).map (fun t => rowValues (x (t + 1))) ∧
    ∃ (i : ℕ) (c : Dict τ (Mat n)), bt.covPredictors[i]? = some c ∧ bt.names[i]? = some name ∧
      tr.trader.sigmas.map some = (tradingDays x a b).map fun t => c.lookup (tm t) := by
  obtain ⟨i, c, mus, h1, h2, _, h4, _⟩ := run_mem h hm
  obtain ⟨_, S, W, hSW, rfl⟩ := (backtestOne_ok_iff hb.labels hb.assets x hb.first hb.last cvx st bt hb.returns hb.start
    hb.stop c mus tr).1 h4
  refine ⟨rfl, rfl, i, c, h1, h2, ?_⟩
  dsimp only
  rw [List.map_map]
  exact List.map_congr_left fun t ht => (hSW t ht).1.symm

/-- **C106.** Every trader of a result is fresh: not diluted, nothing evaluated yet, reporting in the units of the returns
(`adjust_factor` 1), with one row of weights per trading day. -/
theorem C106_fresh {bt : Backtest τ n} {T : ℕ} {tm : ℕ → τ} {x : ℕ → NRow n} {a b : ℕ} (hb : Backtests bt T tm x a b)
    {cvx : Cvx n} {st : Strategy τ n} {d : Dict String (DatedTrader τ n)} (h : bt.run cvx st = .ok d) {name : String}
    {tr : DatedTrader τ n} (hm : (name, tr) ∈ d) :
    tr.trader.diluted = false ∧ tr.trader.wsDiluted = none ∧ tr.trader.rets = [] ∧ tr.trader.adjustFactor = 1 ∧
      tr.trader.ws.length = (tradingDays x a b).length := by
  obtain ⟨i, c, mus, h1, h2, _, h4, _⟩ := run_mem h hm
  obtain ⟨_, S, W, hSW, rfl⟩ := (backtestOne_ok_iff hb.labels hb.assets x hb.first hb.last cvx st bt hb.returns hb.start
    hb.stop c mus tr).1 h4
  exact ⟨rfl, rfl, rfl, rfl, by simp⟩

/-- **C106.** The trading days: never the end date, no day before the start; without missing values every row from
the start up to the one before the end. -/
theorem C106_days (x : ℕ → NRow n) (a b : ℕ) :
    (∀ t, t ∈ tradingDays x a b ↔ a ≤ t ∧ t < b ∧ ∀ i, (x (t + 1) i).isSome) ∧
    (tradingDays x a b).Pairwise (· < ·) ∧
    ((∀ t, a < t → t ≤ b → ∀ i, (x t i).isSome) → tradingDays x a b = List.range' a (b - a)) := by
  unfold tradingDays
  refine ⟨fun t => ?_, ?_, fun h => ?_⟩
  · rw [List.mem_filter, List.mem_range'_1]
    simp only [decide_eq_true_eq]
    unfold CompleteRow
    constructor
    · rintro ⟨⟨h1, h2⟩, h3⟩; exact ⟨h1, by omega, h3⟩
    · rintro ⟨h1, h2, h3⟩; exact ⟨⟨h1, by omega⟩, h3⟩
  · exact List.Pairwise.filter _ List.pairwise_lt_range'
  · rw [List.filter_eq_self]
    intro t ht
    rw [List.mem_range'_1] at ht
    simp only [decide_eq_true_eq]
    exact h (t + 1) (by omega) (by omega)

/-! ### C107: when a run goes through -/

/-- **C107.** A run goes through exactly if there is a trading day (or no predictor) and for every predictor there is a
name, expected returns if they are needed, and every trading day has an outcome. -/
theorem C107_success {bt : Backtest τ n} {T : ℕ} {tm : ℕ → τ} {x : ℕ → NRow n} {a b : ℕ} (hb : Backtests bt T tm x a b)
    (cvx : Cvx n) (st : Strategy τ n) :
    (∃ d, bt.run cvx st = .ok d) ↔ ∀ i c, bt.covPredictors[i]? = some c →
      tradingDays x a b ≠ [] ∧ i < bt.names.length ∧ ∃ mus, meanPredictor st bt i = .ok mus ∧
        ∀ t ∈ tradingDays x a b, ∃ w, dayOutcome cvx st c mus (tm t) = .ok w := by
  unfold Backtest.run
  simp only [bind_ok_iff]
  constructor
  · rintro ⟨d, items, h1, _⟩ i c hc
    obtain ⟨hlen, hit⟩ := (mapM_zipIdx_ok_iff _ _ _).1 h1
    obtain ⟨hi, rfl⟩ := List.getElem?_eq_some_iff.1 hc
    have h2 := hit i hi (by omega)
    rcases hp : items[i]'(by omega) with ⟨nm, tr⟩
    rw [hp, backtestItem_ok_iff] at h2
    obtain ⟨mus, h3, h4, h5⟩ := h2
    obtain ⟨h6, S, W, hSW, _⟩ := (backtestOne_ok_iff hb.labels hb.assets x hb.first hb.last cvx st bt hb.returns hb.start
      hb.stop _ mus tr).1 h4
    exact ⟨h6, (List.getElem?_eq_some_iff.1 h5).1, mus, h3, fun t ht => ⟨W t, (hSW t ht).2⟩⟩
  · intro h
    have hitem : ∀ p ∈ bt.covPredictors.zipIdx 0, ∃ q, backtestItem cvx st bt p = .ok q := by
      rintro ⟨c, i⟩ hp
      have hc : bt.covPredictors[i]? = some c := by
        have := List.mem_zipIdx_iff_getElem?.1 hp
        simpa using this
      obtain ⟨h6, h7, mus, h3, h8⟩ := h i c hc
      choose! W hW using h8
      have hS : ∀ t ∈ tradingDays x a b, ∃ S, c.lookup (tm t) = some S := by
        intro t ht
        have := hW t ht
        unfold dayOutcome at this
        rw [bind_ok_iff] at this
        obtain ⟨S, h9, _⟩ := this
        exact ⟨S, (getItem_ok_iff _ _ _).1 h9⟩
      choose! S hS using hS
      have := (backtestOne_ok_iff hb.labels hb.assets x hb.first hb.last cvx st bt hb.returns hb.start hb.stop c mus _).2
        ⟨h6, S, W, fun t ht => ⟨hS t ht, hW t ht⟩, rfl⟩
      exact ⟨(bt.names[i], _), (backtestItem_ok_iff _ _ _ _ _ _ _).2 ⟨mus, h3, this, List.getElem?_eq_getElem h7⟩⟩
    have : ∃ items, (bt.covPredictors.zipIdx 0).mapM (backtestItem cvx st bt) = .ok items := by
      haveI : ∀ p ∈ bt.covPredictors.zipIdx 0, Nonempty (String × DatedTrader τ n) := fun p hp => ⟨(hitem p hp).choose⟩
      rcases hc : bt.covPredictors.zipIdx 0 with _ | ⟨p, l⟩
      · exact ⟨[], rfl⟩
      · rw [← hc]
        haveI : Nonempty (String × DatedTrader τ n) := this p (by rw [hc]; simp)
        choose! g hg using hitem
        exact ⟨_, mapM_ok_of _ g _ hg⟩
    obtain ⟨items, hitems⟩ := this
    exact ⟨_, items, hitems, rfl⟩

/-- **C107.** The constructor only looks at the last predictor's dates: if the first predictor lacks one of the trading
days, the run raises `KeyError`. -/
theorem C107_missing_date {bt : Backtest τ n} {T : ℕ} {tm : ℕ → τ} {x : ℕ → NRow n} {a b : ℕ} (hb : Backtests bt T tm x a b)
    (cvx : Cvx n) (st : Strategy τ n) {c : Dict τ (Mat n)} {rest : List (Dict τ (Mat n))} (hc : bt.covPredictors = c :: rest)
    {mus : Option (Dict τ (Vec n))} (hmus : meanPredictor st bt 0 = .ok mus) {t : ℕ} (ht : t ∈ tradingDays x a b)
    (hmiss : c.lookup (tm t) = none) : bt.run cvx st = .error .keyError := by
  have h1 : backtestOne cvx st bt c mus = .error .keyError := by
    unfold backtestOne
    rw [hb.returns, hb.start, hb.stop]
    cases h : getCausal (rowDict T tm x) c (tm a) (tm b) mus with
    | ok r =>
      obtain ⟨S, m, hS, _⟩ := (getCausal_ok_iff hb.labels hb.assets x hb.first hb.last c mus r).1 h
      have := hS t ht
      rw [hmiss] at this
      cases this
    | error e =>
      rw [getCausal_error hb.labels hb.assets x hb.first hb.last c mus e h]
      rfl
  unfold Backtest.run
  rw [hc, List.zipIdx_cons, List.mapM_cons]
  unfold backtestItem
  dsimp only
  rw [hmus]
  change ((backtestOne cvx st bt c mus >>= _ >>= _ >>= _ : Except Err _)) = _
  rw [h1]
  rfl

/-- **C107.** A backtest uses each date's covariance only through its inverse's Cholesky factor; for symmetric predictions a
trading day has an outcome only if its covariance is positive definite, also when the weights do not depend on it. -/
theorem C107_posDef {cvx : Cvx n} {st : Strategy τ n} {c : Dict τ (Mat n)} {mus : Option (Dict τ (Vec n))} {t : τ} {w : List ℝ}
    (h : dayOutcome cvx st c mus t = .ok w) {S : Mat n} (hS : c.lookup t = some S) (hsym : Sᵀ = S) : S.PosDef := by
  unfold dayOutcome at h
  simp only [bind_ok_iff, getItem_ok_iff] at h
  obtain ⟨S', h1, mu, _, L, h3, _⟩ := h
  rw [hS] at h1
  cases h1
  unfold getLInv at h3
  simp only [bind_ok_iff] at h3
  obtain ⟨Th, h4, L', h5, _⟩ := h3
  obtain ⟨hdet, rfl⟩ := inv?_ok h4
  rw [chol?_ok_iff] at h5
  have hsymi : (S⁻¹)ᵀ = S⁻¹ := by rw [Matrix.transpose_nonsing_inv, hsym]
  rw [symLower_of_symm hsymi] at h5
  have hp : S⁻¹.PosDef := exists_chol_iff.1 ⟨L', h5⟩
  have := hp.inv
  rwa [Matrix.nonsing_inv_nonsing_inv S (isUnit_iff_ne_zero.2 hdet)] at this

end CovPred
