import Verif.Lemmas.PortfolioRun
import Verif.Props.BacktestsExamples

/-
C160-C162: when a backtest goes through with a solver that solves every solvable problem; rescaled predictions and
reordered assets. (portfolio_backtests.py, trading_model.py)
-/
namespace CovPred
open Matrix
set_option linter.unusedSectionVars false

variable {τ : Type} [DecidableEq τ] {n : ℕ}

/-! ### C160 -/

/-- **C160.** With a solver that solves every solvable problem, and symmetric predictions, a backtest of `EqWeighted`,
`MinRisk`, `MaxDiverse` or `RiskParity` goes through exactly if there is a trading day, every predictor has a name and a
positive definite prediction for every trading day, and the limits leave room for a portfolio. -/
theorem C160_success {bt : Backtest τ n} {T : ℕ} {tm : ℕ → τ} {x : ℕ → NRow n} {a b : ℕ} (hb : Backtests bt T tm x a b)
    {cvx : Cvx n} (hx : cvx.Exact) (hs : cvx.Solves) {st : Strategy τ n} (hst : st.RiskOnly)
    (hsym : AllSymmetric bt.covPredictors) :
    (∃ d, bt.run cvx st = .ok d) ↔ ∀ i c, bt.covPredictors[i]? = some c →
      tradingDays x a b ≠ [] ∧ i < bt.names.length ∧ st.Room ∧
        ∀ t ∈ tradingDays x a b, ∃ S, c.lookup (tm t) = some S ∧ S.PosDef := by
  rw [C107_success hb cvx st]
  have hmus : ∀ i, meanPredictor st bt i = .ok none := by
    intro i
    cases st <;> first | rfl | exact hst.elim
  have hrho : st.rhos = none := by
    cases st <;> first | rfl | exact hst.elim
  have hday : ∀ c ∈ bt.covPredictors, ∀ t, (∃ w, dayOutcome cvx st c none t = .ok w) ↔
      ∃ S, c.lookup t = some S ∧ S.PosDef ∧ st.Room := by
    intro c hc t
    constructor
    · rintro ⟨w, hw⟩
      have hw0 := hw
      unfold dayOutcome at hw
      simp only [bind_ok_iff] at hw
      obtain ⟨S, h1, mu, h2, L, h3, rho, h4, h5⟩ := hw
      have hl := (getItem_ok_iff _ _ _).1 h1
      have hS := C107_posDef hw0 hl (lookup_symm hsym hc hl)
      exact ⟨S, hl, hS, (dayWeights_solves hx hs hb.assets hst hS h3 mu rho).1 ⟨w, h5⟩⟩
    · rintro ⟨S, h1, hS, hroom⟩
      obtain ⟨L, hL, -⟩ := C56_whitener hS
      obtain ⟨w, hw⟩ := (dayWeights_solves hx hs hb.assets hst hS hL none none).2 hroom
      refine ⟨w, ?_⟩
      unfold dayOutcome
      simp only [bind_ok_iff]
      exact ⟨S, (getItem_ok_iff _ _ _).2 h1, none, rfl, L, hL, none, by rw [hrho]; rfl, hw⟩
  constructor
  · intro h i c hc
    obtain ⟨h1, h2, mus, h3, h4⟩ := h i c hc
    rw [hmus i] at h3
    cases h3
    obtain ⟨t, ht⟩ := List.exists_mem_of_ne_nil _ h1
    have hmem := List.mem_of_getElem? hc
    have h5 := fun t ht => (hday c hmem (tm t)).1 (h4 t ht)
    exact ⟨h1, h2, (h5 t ht).choose_spec.2.2, fun t ht => ⟨_, (h5 t ht).choose_spec.1, (h5 t ht).choose_spec.2.1⟩⟩
  · intro h i c hc
    obtain ⟨h1, h2, h3, h4⟩ := h i c hc
    refine ⟨h1, h2, none, hmus i, fun t ht => ?_⟩
    obtain ⟨S, h5, h6⟩ := h4 t ht
    exact (hday c (List.mem_of_getElem? hc) (tm t)).2 ⟨S, h5, h6, h3⟩

/-- **C160.** The limits: with the standard ones `MinRisk` needs seven assets, and so does `MaxDiverse`; `EqWeighted` and
`RiskParity` have none. -/
theorem C160_room : ((Strategy.minRisk {} : Strategy τ n).Room ↔ 7 ≤ n) ∧ ((Strategy.maxDiverse {} : Strategy τ n).Room ↔ 7 ≤ n) ∧
    (Strategy.eqWeighted : Strategy τ n).Room ∧ (Strategy.riskParity : Strategy τ n).Room := by
  refine ⟨C94_min_risk_feasible, ⟨?_, fun h => ⟨_, rfl, ?_⟩⟩, trivial, trivial⟩
  · rintro ⟨M, hM, h⟩
    cases hM
    by_contra hn
    have : (n : ℝ) ≤ 6 := by exact_mod_cast (by omega : n ≤ 6)
    linarith
  · have : (7 : ℝ) ≤ n := by exact_mod_cast h
    linarith

/-- **C160.** `MeanVariance` with limits that allow not to invest goes through exactly if there is a trading day, every
predictor has a name and a mean predictor, every trading day has a positive definite prediction, expected returns and (if
they are used) uncertainties, and the volatility target is not negative. -/
theorem C160_mean_variance {bt : Backtest τ n} {T : ℕ} {tm : ℕ → τ} {x : ℕ → NRow n} {a b : ℕ} (hb : Backtests bt T tm x a b)
    {cvx : Cvx n} (hx : cvx.Exact) (hs : cvx.Solves) {cons : ExtraCons} (hc0 : cons.AllowsNothing) (sigmaTar : ℝ)
    (rhos : Option (Dict τ (Vec n))) (hsym : AllSymmetric bt.covPredictors) :
    (∃ d, bt.run cvx (.meanVariance cons sigmaTar rhos) = .ok d) ↔ ∀ i c, bt.covPredictors[i]? = some c →
      tradingDays x a b ≠ [] ∧ i < bt.names.length ∧ 0 ≤ sigmaTar ∧
        ∃ ms m, bt.meanPredictors = some ms ∧ ms[i]? = some m ∧
          ∀ t ∈ tradingDays x a b, (∃ S, c.lookup (tm t) = some S ∧ S.PosDef) ∧ (∃ mu, m.lookup (tm t) = some mu) ∧
            ∀ r, rhos = some r → ∃ rho, r.lookup (tm t) = some rho := by
  rw [C107_success hb cvx]
  have hmus : ∀ i (mus : Option (Dict τ (Vec n))), meanPredictor (.meanVariance cons sigmaTar rhos) bt i = .ok mus ↔
      ∃ ms m, bt.meanPredictors = some ms ∧ ms[i]? = some m ∧ mus = some m := by
    intro i mus
    unfold meanPredictor
    cases hp : bt.meanPredictors with
    | none =>
      constructor
      · intro h; cases h
      · rintro ⟨_, _, h, -⟩; cases h
    | some ms =>
      dsimp only
      rw [bind_ok_iff]
      constructor
      · rintro ⟨m, h1, h2⟩
        cases h2
        unfold orIndexError at h1
        split at h1
        · cases h1
        · rename_i m' he
          cases h1
          exact ⟨ms, m, rfl, he, rfl⟩
      · rintro ⟨ms', m, h1, h2, rfl⟩
        cases h1
        exact ⟨m, by rw [h2]; rfl, rfl⟩
  have hday : ∀ c ∈ bt.covPredictors, ∀ (m : Dict τ (Vec n)) t,
      (∃ w, dayOutcome cvx (.meanVariance cons sigmaTar rhos) c (some m) t = .ok w) ↔
      (∃ S, c.lookup t = some S ∧ S.PosDef) ∧ (∃ mu, m.lookup t = some mu) ∧
        (∀ r, rhos = some r → ∃ rho, r.lookup t = some rho) ∧ 0 ≤ sigmaTar := by
    intro c hc m t
    have hprob : ∀ {S L : Mat n}, S.PosDef → getLInv S = .ok L → ∀ mu rho,
        (∃ w, dayWeights cvx (.meanVariance cons sigmaTar rhos) ⟨S, L, some mu, rho⟩ = .ok w) ↔ 0 ≤ sigmaTar := by
      intro S L hS hL mu rho
      have key := C159_mean_variance_target hS hL hc0.short hc0.upper hc0.lower 1 (sigmaTar * 1) mu rho
      rw [mul_one, mul_one] at key
      unfold dayWeights
      dsimp only
      simp only [bind_ok_iff, mul_one]
      rw [← key]
      constructor
      · rintro ⟨_, w, hw, -⟩
        exact ⟨w.1, w.2, hx.meanVariance _ _ _ _ _ _ hw⟩
      · intro h
        obtain ⟨w, hw⟩ := hs.meanVariance _ _ _ _ _ h
        exact ⟨_, w, hw, rfl⟩
    constructor
    · rintro ⟨w, hw⟩
      have hw0 := hw
      unfold dayOutcome at hw
      simp only [bind_ok_iff] at hw
      obtain ⟨S, h1, mu, h2, L, h3, rho, h4, h5⟩ := hw
      have hl := (getItem_ok_iff _ _ _).1 h1
      have hS := C107_posDef hw0 hl (lookup_symm hsym hc hl)
      unfold optItem at h2
      dsimp only at h2
      rw [bind_ok_iff] at h2
      obtain ⟨mu', h6, h7⟩ := h2
      cases h7
      refine ⟨⟨S, hl, hS⟩, ⟨mu', (getItem_ok_iff _ _ _).1 h6⟩, fun r hr => ?_, (hprob hS h3 mu' rho).1 ⟨w, h5⟩⟩
      subst hr
      unfold optItem Strategy.rhos at h4
      dsimp only at h4
      rw [bind_ok_iff] at h4
      obtain ⟨rho', h8, -⟩ := h4
      exact ⟨rho', (getItem_ok_iff _ _ _).1 h8⟩
    · rintro ⟨⟨S, h1, hS⟩, ⟨mu, h2⟩, h3, h4⟩
      obtain ⟨L, hL, -⟩ := C56_whitener hS
      have hrho : ∃ rho, optItem rhos t = .ok rho := by
        cases hr : rhos with
        | none => exact ⟨none, rfl⟩
        | some r =>
          obtain ⟨rho, h5⟩ := h3 r hr
          refine ⟨some rho, ?_⟩
          unfold optItem
          dsimp only
          rw [(getItem_ok_iff _ _ _).2 h5]
          rfl
      obtain ⟨rho, hrho⟩ := hrho
      obtain ⟨w, hw⟩ := (hprob hS hL mu rho).2 h4
      refine ⟨w, ?_⟩
      unfold dayOutcome
      simp only [bind_ok_iff]
      refine ⟨S, (getItem_ok_iff _ _ _).2 h1, some mu, ?_, L, hL, rho, hrho, hw⟩
      unfold optItem
      dsimp only
      rw [(getItem_ok_iff _ _ _).2 h2]
      rfl
  constructor
  · intro h i c hc
    obtain ⟨h1, h2, mus, h3, h4⟩ := h i c hc
    obtain ⟨ms, m, h5, h6, rfl⟩ := (hmus i mus).1 h3
    obtain ⟨t, ht⟩ := List.exists_mem_of_ne_nil _ h1
    have hmem := List.mem_of_getElem? hc
    have h7 := fun t ht => (hday c hmem m (tm t)).1 (h4 t ht)
    exact ⟨h1, h2, (h7 t ht).2.2.2, ms, m, h5, h6, fun t ht => ⟨(h7 t ht).1, (h7 t ht).2.1, (h7 t ht).2.2.1⟩⟩
  · intro h i c hc
    obtain ⟨h1, h2, h3, ms, m, h4, h5, h6⟩ := h i c hc
    refine ⟨h1, h2, some m, (hmus i _).2 ⟨ms, m, h4, h5, rfl⟩, fun t ht => ?_⟩
    obtain ⟨h7, h8, h9⟩ := h6 t ht
    exact (hday c (List.mem_of_getElem? hc) m (tm t)).2 ⟨h7, h8, h9, h3⟩

/-! ### C161, C162 -/

private theorem days_perm (x x' : ℕ → NRow n) (e : Equiv.Perm (Fin n)) (hx : ∀ t i, x' t i = x t (e i)) (a b : ℕ) :
    tradingDays x' a b = tradingDays x a b := by
  have : ∀ t, CompleteRow (x' t) ↔ CompleteRow (x t) := by
    intro t
    constructor
    · intro h i
      have := h (e.symm i)
      rwa [hx, Equiv.apply_symm_apply] at this
    · intro h i
      rw [hx]
      exact h _
  unfold tradingDays
  refine List.filter_congr fun t _ => ?_
  rw [decide_eq_decide]
  exact this (t + 1)

private theorem lookup_rescaled {e : Equiv.Perm (Fin n)} {covs covs' : List (Dict τ (Mat n))} (h : List.Forall₂ (Rescaled e) covs covs')
    {i : ℕ} {c c' : Dict τ (Mat n)} (hc : covs[i]? = some c) (hc' : covs'[i]? = some c') : Rescaled e c c' := by
  obtain ⟨hi, rfl⟩ := List.getElem?_eq_some_iff.1 hc
  obtain ⟨hi', rfl⟩ := List.getElem?_eq_some_iff.1 hc'
  exact (List.forall₂_iff_get.1 h).2 i hi hi'

private theorem symm_rescaled {e : Equiv.Perm (Fin n)} {covs : List (Dict τ (Mat n))} (hsym : AllSymmetric covs) {c c' : Dict τ (Mat n)}
    (hmem : c ∈ covs) (h : Rescaled e c c') {t : τ} {S' : Mat n} (hS' : c'.lookup t = some S') :
    ∃ (k : ℝ) (S : Mat n), 0 < k ∧ c.lookup t = some S ∧ Sᵀ = S ∧ S' = fun i j => k * S (e i) (e j) := by
  obtain ⟨k, hk, hl⟩ := h t
  rw [hS'] at hl
  cases hS : c.lookup t with
  | none => rw [hS] at hl; cases hl
  | some S =>
    rw [hS] at hl
    exact ⟨k, S, hk, rfl, lookup_symm hsym hmem hS, Option.some.inj hl⟩

/-- Two runs on reordered assets and rescaled predictions. -/
private theorem run_rel {bt bt' : Backtest τ n} {T : ℕ} {tm : ℕ → τ} {x x' : ℕ → NRow n} {a b : ℕ} (hb : Backtests bt T tm x a b)
    (hb' : Backtests bt' T tm x' a b) (e : Equiv.Perm (Fin n)) (hxx : ∀ t i, x' t i = x t (e i)) (hn : bt'.names = bt.names)
    (hc : List.Forall₂ (Rescaled e) bt.covPredictors bt'.covPredictors) (hsym : AllSymmetric bt.covPredictors)
    {cvx cvx' : Cvx n} (hx : cvx.Exact) (hx' : cvx'.Exact) {st : Strategy τ n} (hst : st.RiskOnly)
    {d d' : Dict String (DatedTrader τ n)} (h : bt.run cvx st = .ok d) (h' : bt'.run cvx' st = .ok d') {name : String}
    {tr tr' : DatedTrader τ n} (htr : (name, tr) ∈ d) (htr' : (name, tr') ∈ d') :
    tr'.dates = tr.dates ∧ ∃ w : ℕ → Vec n, tr.trader.ws = (tradingDays x a b).map (fun t => List.ofFn (w t)) ∧
      tr'.trader.ws = (tradingDays x a b).map (fun t => List.ofFn fun i => w t (e i)) ∧
      tr.trader.returns = (tradingDays x a b).map (fun t => rowValues (x (t + 1))) ∧
      tr'.trader.returns = (tradingDays x a b).map (fun t i => rowValues (x (t + 1)) (e i)) ∧
      NoCash tr.trader.portfolioType ∧ NoCash tr'.trader.portfolioType := by
  obtain ⟨i, c, mus, h1, h2, h3, h4, hp, _, hr, S, L, mu, rho, W, hws, _, hall⟩ := run_days hb h htr
  obtain ⟨i', c', mus', h1', h2', h3', h4', hp', _, hr', S', L', mu', rho', W', hws', _, hall'⟩ := run_days hb' h' htr'
  have hlen := List.Forall₂.length_eq hc
  have hii : i = i' := by
    have hi := (List.getElem?_eq_some_iff.1 h1).1
    have hi' := (List.getElem?_eq_some_iff.1 h1').1
    rcases lt_trichotomy i i' with hlt | heq | hgt
    · exact absurd (by rw [← hn]; exact h2') (h4 i' hlt (by omega))
    · exact heq
    · exact absurd (by rw [hn]; exact h2) (h4' i hgt (by omega))
  subst hii
  have hres := lookup_rescaled hc h1 h1'
  have hdays := days_perm x x' e hxx a b
  rw [hdays] at hws' hr' hall'
  have hmem := List.mem_of_getElem? h1
  have hrow : ∀ t ∈ tradingDays x a b, ∃ v : Vec n, W t = List.ofFn v ∧ W' t = List.ofFn fun i => v (e i) := by
    intro t ht
    obtain ⟨q1, q2, q3, q4, q5, q6⟩ := hall t ht
    obtain ⟨q1', q2', q3', q4', q5', q6'⟩ := hall' t ht
    obtain ⟨k, S0, hk, g1, g2, g3⟩ := symm_rescaled hsym hmem hres q1'
    rw [q1] at g1
    cases g1
    have hS := C107_posDef q6 q1 g2
    exact dayWeights_rel hx hx' hb.assets hst e hk g3 hS q2 q2' _ _ _ _ q5 q5'
  choose! w hw using hrow
  have hNo : NoCash st.ptype := by
    cases st with
    | meanVariance _ _ _ => exact hst.elim
    | _ => refine ⟨?_, ?_, ?_⟩ <;> simp [Strategy.ptype]
  refine ⟨?_, w, ?_, ?_, hr, ?_, hp ▸ hNo, hp' ▸ hNo⟩
  · rw [(C106_pairing hb h htr).1, (C106_pairing hb' h' htr').1, hdays]
  · rw [hws]; exact List.map_congr_left fun t ht => (hw t ht).1
  · rw [hws']; exact List.map_congr_left fun t ht => (hw t ht).2
  · rw [hr']
    refine List.map_congr_left fun t _ => ?_
    funext j
    unfold rowValues
    rw [hxx]

private theorem rescaled_iff {e : Equiv.Perm (Fin n)} {covs covs' : List (Dict τ (Mat n))} (h : List.Forall₂ (Rescaled e) covs covs')
    (P : List ℕ → ℕ → Prop) (days : List ℕ) (tm : ℕ → τ) :
    (∀ i c, covs[i]? = some c → P days i ∧ ∀ t ∈ days, ∃ S, c.lookup (tm t) = some S ∧ S.PosDef) ↔
      ∀ i c, covs'[i]? = some c → P days i ∧ ∀ t ∈ days, ∃ S, c.lookup (tm t) = some S ∧ S.PosDef := by
  have hlen := List.Forall₂.length_eq h
  constructor
  · intro hh i c' hc'
    have hi : i < covs.length := by have := (List.getElem?_eq_some_iff.1 hc').1; omega
    have hres := lookup_rescaled h (List.getElem?_eq_getElem hi) hc'
    obtain ⟨h1, h2⟩ := hh i _ (List.getElem?_eq_getElem hi)
    refine ⟨h1, fun t ht => ?_⟩
    obtain ⟨S, h3, h4⟩ := h2 t ht
    obtain ⟨k, hk, hl⟩ := hres (tm t)
    rw [h3] at hl
    exact ⟨_, hl, posDef_rel h4 hk e⟩
  · intro hh i c hc
    have hi : i < covs'.length := by have := (List.getElem?_eq_some_iff.1 hc).1; omega
    have hres := lookup_rescaled h hc (List.getElem?_eq_getElem hi)
    obtain ⟨h1, h2⟩ := hh i _ (List.getElem?_eq_getElem hi)
    refine ⟨h1, fun t ht => ?_⟩
    obtain ⟨S', h3, h4⟩ := h2 t ht
    obtain ⟨k, hk, hl⟩ := hres (tm t)
    rw [h3] at hl
    cases hS : c.lookup (tm t) with
    | none => rw [hS] at hl; cases hl
    | some S =>
      rw [hS] at hl
      have he := Option.some.inj hl
      refine ⟨S, rfl, ?_⟩
      have h5 := posDef_rel h4 (inv_pos.2 hk) e.symm
      have h6 : (fun i j => k⁻¹ * S' (e.symm i) (e.symm j) : Mat n) = S := by
        funext i j
        rw [he]
        show k⁻¹ * (k * S (e (e.symm i)) (e (e.symm j))) = S i j
        rw [Equiv.apply_symm_apply, Equiv.apply_symm_apply, inv_mul_cancel_left₀ hk.ne']
      rwa [h6] at h5

private theorem symmetric_rescaled {e : Equiv.Perm (Fin n)} {covs covs' : List (Dict τ (Mat n))}
    (h : List.Forall₂ (Rescaled e) covs covs') (hsym : AllSymmetric covs) : AllSymmetric covs' := by
  intro c' hc' t S' hS'
  obtain ⟨i, hi, rfl⟩ := List.getElem_of_mem hc'
  have hlen := List.Forall₂.length_eq h
  have hi' : i < covs.length := by omega
  have hres := lookup_rescaled h (List.getElem?_eq_getElem hi') (List.getElem?_eq_getElem hi)
  obtain ⟨k, S, hk, h1, h2, rfl⟩ := symm_rescaled hsym (List.getElem_mem hi') hres hS'
  intro i j
  show k * S (e i) (e j) = k * S (e j) (e i)
  have : S (e j) (e i) = S (e i) (e j) := congrFun (congrFun h2 (e i)) (e j)
  rw [this]

private theorem succeeds_rel {bt bt' : Backtest τ n} {T : ℕ} {tm : ℕ → τ} {x x' : ℕ → NRow n} {a b : ℕ} (hb : Backtests bt T tm x a b)
    (hb' : Backtests bt' T tm x' a b) (e : Equiv.Perm (Fin n)) (hxx : ∀ t i, x' t i = x t (e i)) (hn : bt'.names = bt.names)
    (hc : List.Forall₂ (Rescaled e) bt.covPredictors bt'.covPredictors) (hsym : AllSymmetric bt.covPredictors)
    {cvx cvx' : Cvx n} (hx : cvx.Exact) (hx' : cvx'.Exact) (hs : cvx.Solves) (hs' : cvx'.Solves) {st : Strategy τ n}
    (hst : st.RiskOnly) : (∃ d, bt.run cvx st = .ok d) ↔ ∃ d', bt'.run cvx' st = .ok d' := by
  rw [C160_success hb hx hs hst hsym, C160_success hb' hx' hs' hst (symmetric_rescaled hc hsym), days_perm x x' e hxx a b, hn]
  have := rescaled_iff hc (fun days i => days ≠ [] ∧ i < bt.names.length ∧ st.Room) (tradingDays x a b) tm
  simpa only [and_assoc] using this

private theorem order_rescaled {e : Equiv.Perm (Fin n)} {covs covs' : List (Dict τ (Mat n))}
    (hc : List.Forall₂ (fun c c' => ∀ t, c'.lookup t = (c.lookup t).map fun S => S.submatrix e e) covs covs') :
    List.Forall₂ (Rescaled e) covs covs' := by
  refine hc.imp fun c c' hcc t => ⟨1, one_pos, ?_⟩
  rw [hcc t]
  congr 1
  funext S i j
  show S (e i) (e j) = 1 * S (e i) (e j)
  rw [one_mul]

/-- **C161.** The weights of `EqWeighted`, `MinRisk`, `MaxDiverse` and `RiskParity` do not depend on the units of the
predictions nor on the solver: if every predicted matrix is multiplied by a positive number (another one for every predictor
and date), and another exact solver is used, every trader has the same dates, weights and returns. -/
theorem C161_units {bt bt' : Backtest τ n} {T : ℕ} {tm : ℕ → τ} {x : ℕ → NRow n} {a b : ℕ} (hb : Backtests bt T tm x a b)
    (hb' : Backtests bt' T tm x a b) (hn : bt'.names = bt.names)
    (hc : List.Forall₂ (fun c c' => ∀ t, ∃ k : ℝ, 0 < k ∧ c'.lookup t = (c.lookup t).map fun S => k • S)
      bt.covPredictors bt'.covPredictors) (hsym : AllSymmetric bt.covPredictors)
    {cvx cvx' : Cvx n} (hx : cvx.Exact) (hx' : cvx'.Exact) {st : Strategy τ n} (hst : st.RiskOnly)
    {d d' : Dict String (DatedTrader τ n)} (h : bt.run cvx st = .ok d) (h' : bt'.run cvx' st = .ok d') {name : String}
    {tr tr' : DatedTrader τ n} (htr : (name, tr) ∈ d) (htr' : (name, tr') ∈ d') (y : Option ℝ) (rf : Option (List ℝ)) :
    tr'.dates = tr.dates ∧ tr'.trader.ws = tr.trader.ws ∧
      ∃ s s', tr.trader.getTotalReturns false y rf = .ok s ∧ tr'.trader.getTotalReturns false y rf = .ok s' ∧ s'.rets = s.rets := by
  obtain ⟨h1, w, h2, h3, h4, h5, h6, h7⟩ := run_rel hb hb' 1 (fun _ _ => rfl) hn hc hsym hx hx' hst h h' htr htr'
  refine ⟨h1, by rw [h2, h3]; rfl, _, _, returns_days _ h6 _ _ _ h4 h2 y rf, returns_days _ h7 _ _ _ h5 h3 y rf, rfl⟩

/-- **C162.** The order of the assets does not matter: if the columns of the returns and the rows and columns of every
predicted matrix are reordered, the weights of these strategies are reordered alike, and dates and portfolio returns stay
the same. -/
theorem C162_order {bt bt' : Backtest τ n} {T : ℕ} {tm : ℕ → τ} {x x' : ℕ → NRow n} {a b : ℕ} (hb : Backtests bt T tm x a b)
    (hb' : Backtests bt' T tm x' a b) (e : Equiv.Perm (Fin n)) (hxx : ∀ t i, x' t i = x t (e i)) (hn : bt'.names = bt.names)
    (hc : List.Forall₂ (fun c c' => ∀ t, c'.lookup t = (c.lookup t).map fun S => S.submatrix e e)
      bt.covPredictors bt'.covPredictors) (hsym : AllSymmetric bt.covPredictors)
    {cvx cvx' : Cvx n} (hx : cvx.Exact) (hx' : cvx'.Exact) {st : Strategy τ n} (hst : st.RiskOnly)
    {d d' : Dict String (DatedTrader τ n)} (h : bt.run cvx st = .ok d) (h' : bt'.run cvx' st = .ok d') {name : String}
    {tr tr' : DatedTrader τ n} (htr : (name, tr) ∈ d) (htr' : (name, tr') ∈ d') (y : Option ℝ) (rf : Option (List ℝ)) :
    tr'.dates = tr.dates ∧
      (∃ w : ℕ → Vec n, tr.trader.ws = (tradingDays x a b).map (fun t => List.ofFn (w t)) ∧
        tr'.trader.ws = (tradingDays x a b).map (fun t => List.ofFn fun i => w t (e i))) ∧
      ∃ s s', tr.trader.getTotalReturns false y rf = .ok s ∧ tr'.trader.getTotalReturns false y rf = .ok s' ∧ s'.rets = s.rets := by
  have hc' := order_rescaled hc
  obtain ⟨h1, w, h2, h3, h4, h5, h6, h7⟩ := run_rel hb hb' e hxx hn hc' hsym hx hx' hst h h' htr htr'
  refine ⟨h1, ⟨w, h2, h3⟩, _, _, returns_days _ h6 _ _ _ h4 h2 y rf, returns_days _ h7 _ _ _ h5 h3 y rf, ?_⟩
  refine List.map_congr_left fun t _ => ?_
  exact Equiv.sum_comp e fun i => w t i * rowValues (x (t + 1)) i

/-- **C161, C162.** If the solvers solve every solvable problem, either both runs go through or neither does. -/
theorem C161_succeeds {bt bt' : Backtest τ n} {T : ℕ} {tm : ℕ → τ} {x : ℕ → NRow n} {a b : ℕ} (hb : Backtests bt T tm x a b)
    (hb' : Backtests bt' T tm x a b) (hn : bt'.names = bt.names)
    (hc : List.Forall₂ (fun c c' => ∀ t, ∃ k : ℝ, 0 < k ∧ c'.lookup t = (c.lookup t).map fun S => k • S)
      bt.covPredictors bt'.covPredictors) (hsym : AllSymmetric bt.covPredictors)
    {cvx cvx' : Cvx n} (hx : cvx.Exact) (hx' : cvx'.Exact) (hs : cvx.Solves) (hs' : cvx'.Solves) {st : Strategy τ n}
    (hst : st.RiskOnly) : (∃ d, bt.run cvx st = .ok d) ↔ ∃ d', bt'.run cvx' st = .ok d' :=
  succeeds_rel hb hb' 1 (fun _ _ => rfl) hn hc hsym hx hx' hs hs' hst

/-- **C162.** The same for reordered assets. -/
theorem C162_succeeds {bt bt' : Backtest τ n} {T : ℕ} {tm : ℕ → τ} {x x' : ℕ → NRow n} {a b : ℕ} (hb : Backtests bt T tm x a b)
    (hb' : Backtests bt' T tm x' a b) (e : Equiv.Perm (Fin n)) (hxx : ∀ t i, x' t i = x t (e i)) (hn : bt'.names = bt.names)
    (hc : List.Forall₂ (fun c c' => ∀ t, c'.lookup t = (c.lookup t).map fun S => S.submatrix e e)
      bt.covPredictors bt'.covPredictors) (hsym : AllSymmetric bt.covPredictors)
    {cvx cvx' : Cvx n} (hx : cvx.Exact) (hx' : cvx'.Exact) (hs : cvx.Solves) (hs' : cvx'.Solves) {st : Strategy τ n}
    (hst : st.RiskOnly) : (∃ d, bt.run cvx st = .ok d) ↔ ∃ d', bt'.run cvx' st = .ok d' :=
  succeeds_rel hb hb' e hxx hn (order_rescaled hc) hsym hx hx' hs hs' hst

/-! ### A concrete case: seven assets, four rows, two dictionaries of predictions -/

def prX : ℕ → NRow 7 := fun t i => some (t + i)

/-- a backtest with the predictions `g` -/
def prBt (x : ℕ → NRow 7) (g : ℕ → Mat 7) : Backtest ℕ 7 where
  returns := rowDict 4 id x
  covPredictors := [(List.range 4).map fun t => (t, g t)]
  names := ["A"]
  meanPredictors := some [(List.range 4).map fun t => (t, fun _ => (t : ℝ))]
  startDate := 0
  endDate := 3

theorem prBacktests (x : ℕ → NRow 7) (g : ℕ → Mat 7) : Backtests (prBt x g) 4 id x 0 3 where
  assets := by norm_num
  labels := fun s t _ _ h => h
  first := by norm_num
  last := by norm_num
  returns := rfl
  start := rfl
  stop := rfl

theorem exactCvx_solves (n : ℕ) : (exactCvx n).Solves where
  minRisk a L h := ⟨_, dif_pos h⟩
  maxDiverse M L s h := ⟨_, dif_pos h⟩
  riskParity L h := ⟨_, dif_pos h⟩
  meanVariance a s L mu rho h := by
    obtain ⟨w, c, h1⟩ := h
    exact ⟨_, dif_pos ⟨(w, c), h1⟩⟩

theorem prLookup (g : ℕ → Mat 7) (t : ℕ) : ((List.range 4).map fun t => (t, g t)).lookup t = if t < 4 then some (g t) else none := by
  rcases t with _ | _ | _ | _ | t <;> simp [List.range_succ, List.lookup]

theorem prSymm (x : ℕ → NRow 7) (g : ℕ → Mat 7) (hg : ∀ t i j, g t i j = g t j i) : AllSymmetric (prBt x g).covPredictors := by
  intro c hc t S hS
  rw [List.mem_singleton.1 hc, prLookup] at hS
  split_ifs at hS
  cases hS
  exact hg t

theorem prDays : tradingDays prX 0 3 = [0, 1, 2] := by
  rw [(C106_days prX 0 3).2.2 fun t _ _ i => rfl]
  rfl

theorem prRuns (g : ℕ → Mat 7) (hg : ∀ t, (g t).PosDef) (st : Strategy ℕ 7) (hst : st.RiskOnly) (hroom : st.Room) :
    ∃ d, (prBt prX g).run (exactCvx 7) st = .ok d := by
  have hsym : AllSymmetric (prBt prX g).covPredictors := prSymm prX g fun t i j => congrFun (congrFun (posDef_symm (hg t)) j) i
  refine (C160_success (prBacktests prX g) (exactCvx_exact 7) (exactCvx_solves 7) hst hsym).2 fun i c hc => ?_
  rw [prDays]
  rcases i with _ | i
  · cases hc
    refine ⟨by simp, by simp [prBt], hroom, fun t ht => ⟨g t, ?_, hg t⟩⟩
    rw [show id t = t from rfl, prLookup, if_pos]
    simp at ht
    omega
  · cases hc

/-- All the strategies run on seven assets with the standard limits, in two different units with the same outcome. -/
example (st : Strategy ℕ 7) (hst : st = .eqWeighted ∨ st = .minRisk {} ∨ st = .maxDiverse {} ∨ st = .riskParity) :
    ∃ d d' name tr tr', (prBt prX fun _ => 1).run (exactCvx 7) st = .ok d ∧
      (prBt prX fun t => ((t : ℝ) + 1) • 1).run (exactCvx 7) st = .ok d' ∧ (name, tr) ∈ d ∧ (name, tr') ∈ d' ∧
      tr'.trader.ws = tr.trader.ws := by
  have hro : st.RiskOnly ∧ st.Room := by
    obtain ⟨h1, h2, h3, h4⟩ := C160_room (τ := ℕ) (n := 7)
    rcases hst with rfl | rfl | rfl | rfl
    · exact ⟨trivial, h3⟩
    · exact ⟨trivial, h1.2 le_rfl⟩
    · exact ⟨trivial, h2.2 le_rfl⟩
    · exact ⟨trivial, h4⟩
  have hpd : ∀ t : ℕ, (((t : ℝ) + 1) • (1 : Mat 7)).PosDef := fun t => PosDef.one.smul (by positivity)
  obtain ⟨d, hd⟩ := prRuns (fun _ => 1) (fun _ => PosDef.one) st hro.1 hro.2
  obtain ⟨d', hd'⟩ := prRuns (fun t => ((t : ℝ) + 1) • 1) hpd st hro.1 hro.2
  have hk := (C111_names hd).2.1
  have hk' := (C111_names hd').2.1
  have hA : "A" ∈ d.map Prod.fst := by rw [hk]; simp [prBt]
  have hA' : "A" ∈ d'.map Prod.fst := by rw [hk']; simp [prBt]
  obtain ⟨⟨_, tr⟩, htr, rfl⟩ := List.mem_map.1 hA
  obtain ⟨⟨_, tr'⟩, htr', he⟩ := List.mem_map.1 hA'
  cases he
  refine ⟨d, d', _, tr, tr', hd, hd', htr, htr', ?_⟩
  refine (C161_units (prBacktests prX fun _ => 1) (prBacktests prX fun t => ((t : ℝ) + 1) • 1) rfl ?_ (prSymm prX _ fun t i j => ?_) (exactCvx_exact 7)
    (exactCvx_exact 7) hro.1 hd hd' htr htr' none none).2.1
  · refine .cons (fun t => ⟨(t : ℝ) + 1, by positivity, ?_⟩) .nil
    rw [prLookup (fun t => ((t : ℝ) + 1) • 1), prLookup]
    split_ifs <;> rfl
  · exact congrFun (congrFun (posDef_symm PosDef.one) j) i

end CovPred
