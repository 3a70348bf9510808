import Verif.Model.TradingCalls
import Verif.Props.Trader
import Verif.Lemmas.Backtests

/-
Properties C122, C123 of `Trader.backtest`: what the workers solve, which calls can succeed, and what a failed call leaves.
-/
set_option linter.unusedSectionVars false
set_option linter.unusedSimpArgs false
namespace CovPred
open Matrix

variable {τ : Type} [DecidableEq τ] {n : ℕ}

/-! ### C122: the workers -/

/-- If all tasks set everything they use, the result does not depend on the chunks. -/
private theorem pool_eq {σ α β : Type} (solve : σ → β) (step : σ → α → σ) (g : α → σ) (P : σ → Prop) (store : σ) (h0 : P store)
    (chunks : List (List α)) (hstep : ∀ st, P st → ∀ a ∈ chunks.flatten, step st a = g a ∧ P (step st a)) :
    runPool solve step store chunks = chunks.flatten.map fun a => solve (g a) := by
  have key : ∀ (l : List α) (st : σ), P st → (∀ a ∈ l, a ∈ chunks.flatten) →
      runChunk solve step st l = l.map fun a => solve (g a) := by
    intro l
    induction l with
    | nil => intro st _ _; rfl
    | cons a l ih =>
      intro st hst hl
      obtain ⟨h1, h2⟩ := hstep st hst a (hl a (by simp))
      unfold runChunk
      rw [ih _ h2 fun b hb => hl b (List.mem_cons_of_mem _ hb), List.map_cons, h1]
  unfold runPool
  rw [List.map_flatten]
  congr 1
  exact List.map_congr_left fun l hl => key l store h0 fun a ha => List.mem_flatten.2 ⟨l, hl, ha⟩

/-- **C122.** `mean_variance` solves the problem of date `t` with that date's whitener, expected returns (0 for cash) and
uncertainties, for every way the pool cuts the work and whatever the parameters held before. `rhos` are all given, or none
is and the parameter does not exist. -/
theorem C122_mean_variance {β : Type} (solve : MvParams n → β) (store : MvParams n) (LInvs : List (Mat n))
    (rHats : List (Vec n)) (rhos : List (Option (Vec n))) (chunks : List (List (MvTask n)))
    (hc : chunks.flatten = meanVarianceTasks LInvs rHats rhos)
    (hrho : (∀ r ∈ rhos, r ≠ none) ∨ ((∀ r ∈ rhos, r = none) ∧ store.rho = none))
    (h1 : rHats.length = LInvs.length) (h2 : rhos.length = LInvs.length) :
    (runPool solve solveMeanVarianceParams store chunks).length = LInvs.length ∧
    ∀ (t : ℕ) (L : Mat n) (r : Vec n) (rho : Option (Vec n)), LInvs[t]? = some L → rHats[t]? = some r → rhos[t]? = some rho →
      (runPool solve solveMeanVarianceParams store chunks)[t]?
        = some (solve ⟨L, fun i => if h : i.1 < n then r ⟨i.1, h⟩ else 0, rho⟩) := by
  have hmem : ∀ a ∈ chunks.flatten, a.rho ∈ rhos := by
    intro a ha
    rw [hc] at ha
    unfold meanVarianceTasks at ha
    rw [List.mem_iff_getElem?] at ha
    obtain ⟨i, hi⟩ := ha
    rw [List.getElem?_zipWith_eq_some] at hi
    obtain ⟨x, p, _, hp, rfl⟩ := hi
    have := List.mem_of_getElem? hp
    exact (List.of_mem_zip this).2
  have hrun : runPool solve solveMeanVarianceParams store chunks = chunks.flatten.map fun a =>
      solve ⟨a.LInv, Fin.snoc (α := fun _ => ℝ) a.rHat 0, a.rho⟩ := by
    rcases hrho with hrho | ⟨hrho, hst⟩
    · refine pool_eq solve _ (fun a => ⟨a.LInv, Fin.snoc (α := fun _ => ℝ) a.rHat 0, a.rho⟩) (fun _ => True) store trivial
        chunks fun st _ a ha => ⟨?_, trivial⟩
      have := hrho _ (hmem a ha)
      unfold solveMeanVarianceParams
      cases ho : a.rho with
      | none => exact absurd ho this
      | some r => rfl
    · refine pool_eq solve _ (fun a => ⟨a.LInv, Fin.snoc (α := fun _ => ℝ) a.rHat 0, a.rho⟩) (fun st => st.rho = none) store hst
        chunks fun st hst' a ha => ?_
      have := hrho _ (hmem a ha)
      unfold solveMeanVarianceParams
      rw [this]
      dsimp only
      exact ⟨by rw [hst'], hst'⟩
  rw [hrun, hc]
  constructor
  · unfold meanVarianceTasks
    simp [h1, h2]
  · intro t L r rho hL hr hrh
    unfold meanVarianceTasks
    rw [List.getElem?_map, List.getElem?_zipWith, hL, List.zip, List.getElem?_zipWith, hr, hrh]
    simp only [Option.map_some]
    have hs : (Fin.snoc (α := fun _ => ℝ) r 0 : Fin (n + 1) → ℝ) = fun i => if h : i.1 < n then r ⟨i.1, h⟩ else 0 := by
      funext i
      split
      · rename_i h
        exact Fin.snoc_castSucc (α := fun _ => ℝ) (p := r) (x := 0) ⟨i.1, h⟩
      · rename_i h
        have : i = Fin.last n := Fin.ext (by have := i.2; simp only [Fin.val_last]; omega)
        rw [this]
        exact Fin.snoc_last (α := fun _ => ℝ) (p := r) (x := 0)
    rw [hs]

/-- **C122.** `risk_parity` solves the problem of every date with that date's whitener. -/
theorem C122_risk_parity {β : Type} (solve : Mat n → β) (store : Mat n) (LInvs : List (Mat n))
    (chunks : List (List (Mat n))) (hc : chunks.flatten = LInvs) :
    runPool solve solveRiskParityParam store chunks = LInvs.map solve := by
  rw [← hc]
  exact pool_eq solve _ (fun L => L) (fun _ => True) store trivial chunks fun _ _ _ _ => ⟨rfl, trivial⟩

/-- Three dates in two chunks, without uncertainties. -/
example (solve : MvParams 2 → ℝ) (A B C : Mat 2) (a b c : Vec 2) :
    (runPool solve solveMeanVarianceParams ⟨0, fun _ => 7, none⟩ [[⟨A, a, none⟩, ⟨B, b, none⟩], [⟨C, c, none⟩]])[1]?
      = some (solve ⟨B, fun i => if h : i.1 < 2 then b ⟨i.1, h⟩ else 0, none⟩) :=
  (C122_mean_variance solve ⟨0, fun _ => 7, none⟩ [A, B, C] [a, b, c] [none, none, none] _ rfl
    (Or.inr ⟨by simp, rfl⟩) rfl rfl).2 1 B b none rfl rfl rfl

/-! ### C123: which calls succeed -/

/-- cvxpy solves every problem it is given. -/
structure CvxAll.Total (cvx : CvxAll n) : Prop where
  minRisk : ∀ c L, ∃ w, cvx.minRisk c L = .ok w
  robust : ∀ k c p, ∃ w, cvx.robust k c p = .ok w
  maxDiverse : ∀ M L s, ∃ w, cvx.maxDiverse M L s = .ok w
  riskParity : ∀ L, ∃ w, cvx.riskParity L = .ok w
  meanVariance : ∀ c x L r rho, ∃ w, cvx.meanVariance c x L r rho = .ok w

/-- The uncertainties, if given, have a row for every date of the returns. -/
def RhosCover (a : BacktestArgs τ n) (dates : List τ) : Prop :=
  ∀ d, a.rhos = some d → ∀ t ∈ dates, t ∈ d.keys

private theorem rhosAt_exists_iff (rhos : Option (Dict τ (Vec n))) (dates : List τ) :
    (∃ l, rhosAt rhos dates = .ok l) ↔ ∀ d, rhos = some d → ∀ t ∈ dates, t ∈ d.keys := by
  cases rhos with
  | none => simp [rhosAt]
  | some d =>
    have hk : ∀ t, (∃ v, d.lookup t = some v) ↔ t ∈ d.keys := by
      intro t
      rw [← Option.isSome_iff_exists, List.lookup_isSome_iff]
      unfold Dict.keys
      rw [List.mem_map]
      constructor
      · rintro ⟨p, hp, h⟩
        exact ⟨p, hp, (by simpa using h : t = p.1).symm⟩
      · rintro ⟨p, hp, rfl⟩
        exact ⟨p, hp, by simp⟩
    unfold rhosAt
    constructor
    · rintro ⟨l, hl⟩ d' hd t ht
      cases hd
      dsimp only at hl
      rw [bind_ok_iff] at hl
      obtain ⟨r, hr, _⟩ := hl
      rw [← List.map_id dates, restrict_ok_iff] at hr
      obtain ⟨v, hv, _⟩ := hr
      exact (hk t).1 ⟨_, hv t ht⟩
    · intro h
      have := h d rfl
      have hr : ∃ r, restrict d (dates.map id) = .ok r := by
        classical
        refine ⟨_, (restrict_ok_iff d dates id _).2 ⟨fun t => (d.lookup t).getD 0, fun t ht => ?_, rfl⟩⟩
        obtain ⟨v, hv⟩ := (hk t).2 (this t ht)
        simp [hv]
      rw [List.map_id] at hr
      obtain ⟨r, hr⟩ := hr
      exact ⟨_, (bind_ok_iff _ _ _).2 ⟨r, hr, rfl⟩⟩


private theorem mapM_exists {A B : Type} (f : A → Except Err B) (l : List A) (h : ∀ a ∈ l, ∃ b, f a = .ok b) :
    ∃ r, l.mapM f = .ok r := by
  induction l with
  | nil => exact ⟨[], rfl⟩
  | cons a l ih =>
    obtain ⟨b, hb⟩ := h a (by simp)
    obtain ⟨r, hr⟩ := ih fun x hx => h x (by simp [hx])
    exact ⟨b :: r, by rw [List.mapM_cons, hb, hr]; rfl⟩

private theorem bind_pure_exists {A B : Type} (x : Except Err A) (f : A → B) (h : ∃ a, x = .ok a) :
    ∃ b, (do let a ← x; pure (f a) : Except Err B) = .ok b := by
  obtain ⟨a, rfl⟩ := h
  exact ⟨_, rfl⟩

/-- the call, unfolded -/
private theorem backtest_cases (cvx : CvxAll n) (o : TraderObj τ n) (a : BacktestArgs τ n) :
    ((o.backtest cvx a).2 = .ok () ∧ a.portfolioType ≠ .volCont ∧ ∃ rhos ws, rhosAt a.rhos o.dates = .ok rhos ∧
        o.weights cvx a rhos = .ok ws ∧ (o.backtest cvx a).1 = { o with trader := { o.trader with
          portfolioType := a.portfolioType, adjustFactor := a.adjustFactor, ws := ws } }) ∨
    ((∃ e, (o.backtest cvx a).2 = .error e) ∧ ((∃ e, rhosAt a.rhos o.dates = .error e) ∨ ∃ rhos,
        rhosAt a.rhos o.dates = .ok rhos ∧ ((∃ e, o.weights cvx a rhos = .error e) ∨ a.portfolioType = .volCont)) ∧
      ∃ d, (d = o.trader.diluted ∨ a.portfolioType = .volCont) ∧ (o.backtest cvx a).1 = { o with trader := { o.trader with
        portfolioType := a.portfolioType, adjustFactor := a.adjustFactor, diluted := d } }) := by
  have hw : ∀ rhos, TraderObj.weights cvx { o with trader := { o.trader with
      portfolioType := a.portfolioType, adjustFactor := a.adjustFactor } } a rhos = o.weights cvx a rhos := fun _ => rfl
  unfold TraderObj.backtest
  dsimp only
  rcases hr : rhosAt a.rhos o.dates with e | rhos
  · exact .inr ⟨⟨e, rfl⟩, .inl ⟨e, rfl⟩, _, .inl rfl, rfl⟩
  · dsimp only
    rw [hw]
    rcases hws : o.weights cvx a rhos with e | ws
    · exact .inr ⟨⟨e, rfl⟩, .inr ⟨rhos, rfl, .inl ⟨e, hws⟩⟩, _, .inl rfl, rfl⟩
    · dsimp only
      by_cases hv : a.portfolioType = .volCont
      · rw [if_pos hv]
        right
        refine ⟨⟨_, (C78_vol_cont_fails _ _ _).1⟩, .inr ⟨rhos, rfl, .inr hv⟩, true, .inr hv, ?_⟩
        have hsh := (C78_vol_cont_fails { o.trader with portfolioType := a.portfolioType, adjustFactor := a.adjustFactor }
          a.adjustFactor ws).1
        unfold Trader.backtestVolCont at hsh ⊢
        dsimp only at hsh ⊢
        generalize volContShape o.trader.returns.length n = sh at hsh ⊢
        rcases sh with e | x
        · rw [hv]
        · cases hsh
      · rw [if_neg hv]
        exact .inl ⟨rfl, hv, rhos, ws, rfl, hws, rfl⟩

/-- **C123.** Which calls of `backtest` return normally, if cvxpy solves every problem: the uncertainties, if given, need a row
for every date, and
* `eq_weighted` and `risk_parity` always do;
* `min_risk` unless `C_speedup` is set, `robust_min_risk` if moreover `kappa` is given;
* `mean_variance` if there are expected returns and a target volatility;
* `max_diverse` if there is an upper bound.
`vol_cont`, `max_sharpe` and every other name never do. -/
theorem C123_succeeds_iff (cvx : CvxAll n) (hcvx : cvx.Total) (o : TraderObj τ n) (ho : o.trader.sigmas ≠ [])
    (a : BacktestArgs τ n) :
    (o.backtest cvx a).2 = .ok () ↔ (∀ d, a.rhos = some d → ∀ t ∈ o.dates, t ∈ d.keys) ∧
      (a.portfolioType = .eqWeighted ∨ a.portfolioType = .riskParity ∨
        (a.portfolioType = .minRisk ∧ a.cSpeedup = false) ∨
        (a.portfolioType = .robustMinRisk ∧ a.cSpeedup = false ∧ a.kappa ≠ none) ∨
        (a.portfolioType = .meanVariance ∧ o.rHats ≠ none ∧ a.sigmaDes ≠ none) ∨
        (a.portfolioType = .maxDiverse ∧ a.additonalCons.upperBound ≠ none)) := by
  rw [← rhosAt_exists_iff]
  have key : ∀ rhos, a.portfolioType ≠ .volCont → ((∃ ws, o.weights cvx a rhos = .ok ws) ↔
      (a.portfolioType = .eqWeighted ∨ a.portfolioType = .riskParity ∨
        (a.portfolioType = .minRisk ∧ a.cSpeedup = false) ∨
        (a.portfolioType = .robustMinRisk ∧ a.cSpeedup = false ∧ a.kappa ≠ none) ∨
        (a.portfolioType = .meanVariance ∧ o.rHats ≠ none ∧ a.sigmaDes ≠ none) ∨
        (a.portfolioType = .maxDiverse ∧ a.additonalCons.upperBound ≠ none))) := by
    intro rhos hv
    unfold TraderObj.weights
    cases hp : a.portfolioType with
    | eqWeighted => simp
    | minRisk =>
      unfold minRiskWeights
      cases hc : a.cSpeedup with
      | true => simp
      | false =>
        simp only [Bool.false_eq_true, if_false, reduceCtorEq, false_and, and_self, false_or, or_false, true_or, or_true, iff_true]
        exact mapM_exists _ _ fun L _ => bind_pure_exists _ _ (hcvx.minRisk _ _)
    | volCont => exact absurd hp hv
    | robustMinRisk =>
      cases hk : a.kappa with
      | none => simp
      | some k =>
        cases hc : a.cSpeedup with
        | true => simp
        | false =>
          obtain ⟨S0, l, hS⟩ := List.exists_cons_of_ne_nil ho
          rw [hS]
          simp only [Bool.false_eq_true, if_false, reduceCtorEq, false_and, and_self, false_or, or_false, true_or, or_true,
            ne_eq, not_false_eq_true, iff_true]
          exact mapM_exists _ _ fun L _ => bind_pure_exists _ _ (hcvx.robust _ _ _)
    | meanVariance =>
      cases hr : o.rHats with
      | none => simp
      | some r =>
        cases hs : a.sigmaDes with
        | none => simp
        | some x =>
          simp only [reduceCtorEq, false_and, and_self, false_or, or_false, ne_eq, not_false_eq_true, true_or, or_true, iff_true]
          exact mapM_exists _ _ fun L _ => bind_pure_exists _ _ (hcvx.meanVariance _ _ _ _ _)
    | meanVariance2 => simp
    | maxDiverse =>
      cases hu : a.additonalCons.upperBound with
      | none => simp
      | some M =>
        simp only [reduceCtorEq, false_and, and_self, false_or, or_false, ne_eq, not_false_eq_true, true_or, or_true, iff_true]
        exact mapM_exists _ _ fun L _ => bind_pure_exists _ _ (hcvx.maxDiverse _ _ _)
    | riskParity =>
      simp only [reduceCtorEq, false_and, and_self, false_or, or_false, true_or, or_true, iff_true]
      exact mapM_exists _ _ fun L _ => bind_pure_exists _ _ (hcvx.riskParity _)
    | maxSharpe =>
      cases o.rHats with
      | none => simp
      | some r => cases a.additonalCons.upperBound <;> simp
    | other => simp
  rcases backtest_cases cvx o a with ⟨h1, hv, rhos, ws, h2, h3, _⟩ | ⟨⟨e, h1⟩, h2, _⟩
  · rw [h1]
    exact ⟨fun _ => ⟨⟨rhos, h2⟩, (key rhos hv).1 ⟨ws, h3⟩⟩, fun _ => rfl⟩
  · rw [h1]
    refine ⟨fun h => (by cases h), fun ⟨⟨rhos, h3⟩, h4⟩ => ?_⟩
    exfalso
    rcases h2 with ⟨e', h2⟩ | ⟨rhos', h2, h5⟩
    · rw [h2] at h3; cases h3
    · have hv : a.portfolioType ≠ .volCont := by
        rintro hv
        rw [hv] at h4
        simp at h4
      rcases h5 with ⟨e', h5⟩ | h5
      · obtain ⟨ws, h6⟩ := (key rhos' hv).2 h4
        rw [h5] at h6
        cases h6
      · exact hv h5

/-- **C123.** Whatever cvxpy does, `vol_cont`, `max_sharpe` and unknown names never succeed. -/
theorem C123_never (cvx : CvxAll n) (o : TraderObj τ n) (a : BacktestArgs τ n)
    (h : a.portfolioType = .volCont ∨ a.portfolioType = .maxSharpe ∨ a.portfolioType = .meanVariance2 ∨
      a.portfolioType = .other) : ∃ e, (o.backtest cvx a).2 = .error e := by
  rcases backtest_cases cvx o a with ⟨_, hv, rhos, ws, _, h3, _⟩ | ⟨h1, _⟩
  · exfalso
    unfold TraderObj.weights at h3
    rcases h with h | h | h | h
    · exact hv h
    · rw [h] at h3
      dsimp only at h3
      cases hr : o.rHats with
      | none => rw [hr] at h3; cases h3
      | some r =>
        rw [hr] at h3
        cases hu : a.additonalCons.upperBound <;> rw [hu] at h3 <;> cases h3
    · rw [h] at h3; cases h3
    · rw [h] at h3; cases h3
  · exact h1

/-- **C123.** A failed call has already changed the portfolio type and the adjustment factor (and, for `vol_cont`, perhaps the
flag `diluted`), but nothing else: the weights in place are those of an earlier call. -/
theorem C123_failed (cvx : CvxAll n) (o : TraderObj τ n) (a : BacktestArgs τ n) (e : Err)
    (h : (o.backtest cvx a).2 = .error e) :
    ∃ d, (a.portfolioType ≠ .volCont → d = o.trader.diluted) ∧ (o.backtest cvx a).1 = { o with trader := { o.trader with
      portfolioType := a.portfolioType, adjustFactor := a.adjustFactor, diluted := d } } := by
  rcases backtest_cases cvx o a with ⟨h1, _⟩ | ⟨_, _, d, hd, h2⟩
  · rw [h1] at h; cases h
  · exact ⟨d, fun hv => hd.resolve_right hv, h2⟩

/-- **C123.** After any sequence of calls with any outcomes the portfolio type and the adjustment factor are those of the
*last* call, the weights are those of the last *successful* one - the same as that call computes on the fresh object -,
or unchanged if there is none. -/
theorem C123_history (cvx : CvxAll n) (o : TraderObj τ n) (as : List (BacktestArgs τ n)) :
    (o.backtests cvx as).2.length = as.length ∧
    (∀ a, as.getLast? = some a → (o.backtests cvx as).1.trader.portfolioType = a.portfolioType ∧
      (o.backtests cvx as).1.trader.adjustFactor = a.adjustFactor) ∧
    ((∀ (i : ℕ) r, (o.backtests cvx as).2[i]? = some r → r ≠ .ok ()) →
      (o.backtests cvx as).1.trader.ws = o.trader.ws) ∧
    ∀ (i : ℕ) a, as[i]? = some a → (o.backtests cvx as).2[i]? = some (.ok ()) →
      (∀ (j : ℕ) r, i < j → (o.backtests cvx as).2[j]? = some r → r ≠ .ok ()) →
      (o.backtest cvx a).2 = .ok () ∧
      (o.backtests cvx as).1.trader.ws = (o.backtest cvx a).1.trader.ws := by
  -- a call only depends on the parts of the object that no call changes
  have hdep : ∀ (o o' : TraderObj τ n) (a : BacktestArgs τ n), o.dates = o'.dates → o.LInvs = o'.LInvs → o.rHats = o'.rHats →
      o.trader.sigmas = o'.trader.sigmas → (o.backtest cvx a).2 = .ok () → (o'.backtest cvx a).2 = .ok () ∧
        (o.backtest cvx a).1.trader.ws = (o'.backtest cvx a).1.trader.ws := by
    intro o o' a h1 h2 h3 h4 hok
    have hw : ∀ rhos, o.weights cvx a rhos = o'.weights cvx a rhos := by
      intro rhos
      unfold TraderObj.weights
      rw [h1, h2, h3, h4]
    rcases backtest_cases cvx o a with ⟨_, hv, rhos, ws, h5, h6, h7⟩ | ⟨⟨e, h5⟩, _⟩
    · rcases backtest_cases cvx o' a with ⟨h8, _, rhos', ws', h9, h10, h11⟩ | ⟨_, h8, _⟩
      · rw [h1, h9] at h5
        injection h5 with h5
        subst h5
        rw [hw, h10] at h6
        injection h6 with h6
        subst h6
        exact ⟨h8, by rw [h7, h11]⟩
      · exfalso
        rw [h1] at h5
        rcases h8 with ⟨e, h8⟩ | ⟨rhos', h8, h9⟩
        · rw [h8] at h5; cases h5
        · rw [h8] at h5
          injection h5 with h5
          subst h5
          rcases h9 with ⟨e, h9⟩ | h9
          · rw [hw, h9] at h6; cases h6
          · exact hv h9
    · rw [h5] at hok; cases hok
  have hkeep : ∀ (o : TraderObj τ n) (a : BacktestArgs τ n), (o.backtest cvx a).1.dates = o.dates ∧
      (o.backtest cvx a).1.LInvs = o.LInvs ∧ (o.backtest cvx a).1.rHats = o.rHats ∧
      (o.backtest cvx a).1.trader.sigmas = o.trader.sigmas ∧
      (o.backtest cvx a).1.trader.portfolioType = a.portfolioType ∧
      (o.backtest cvx a).1.trader.adjustFactor = a.adjustFactor ∧
      ((o.backtest cvx a).2 ≠ .ok () → (o.backtest cvx a).1.trader.ws = o.trader.ws) := by
    intro o a
    rcases backtest_cases cvx o a with ⟨h1, _, rhos, ws, _, _, h7⟩ | ⟨_, _, d, _, h7⟩
    · rw [h7, h1]; exact ⟨rfl, rfl, rfl, rfl, rfl, rfl, fun h => absurd rfl h⟩
    · rw [h7]; exact ⟨rfl, rfl, rfl, rfl, rfl, rfl, fun _ => rfl⟩
  induction as generalizing o with
  | nil =>
    refine ⟨rfl, by simp, fun _ => rfl, by simp⟩
  | cons a as ih =>
    obtain ⟨i1, i2, i3, i4⟩ := ih (o.backtest cvx a).1
    obtain ⟨k1, k2, k3, k4, k5, k6, k7⟩ := hkeep o a
    have e1 : (o.backtests cvx (a :: as)).1 = ((o.backtest cvx a).1.backtests cvx as).1 := rfl
    have e2 : (o.backtests cvx (a :: as)).2 = (o.backtest cvx a).2 :: ((o.backtest cvx a).1.backtests cvx as).2 := rfl
    rw [e1, e2]
    refine ⟨by simp [i1], ?_, ?_, ?_⟩
    · intro b hb
      cases as with
      | nil =>
        simp only [List.getLast?_singleton, Option.some.injEq] at hb
        subst hb
        exact ⟨k5, k6⟩
      | cons c as =>
        rw [List.getLast?_cons_cons] at hb
        exact i2 b hb
    · intro h
      rw [i3 fun i r hi => h (i + 1) r (by simpa using hi)]
      exact k7 (h 0 _ rfl)
    · intro i b hb hr hlast
      cases i with
      | zero =>
        simp only [List.getElem?_cons_zero, Option.some.injEq] at hb hr
        subst hb
        rw [i3 fun j r hj => hlast (j + 1) r (by omega) (by simpa using hj)]
        exact ⟨hr, rfl⟩
      | succ i =>
        simp only [List.getElem?_cons_succ] at hb hr
        obtain ⟨j1, j2⟩ := i4 i b hb hr fun j r hij hj => hlast (j + 1) r (by omega) (by simpa using hj)
        obtain ⟨m1, m2⟩ := hdep _ o b k1 k2 k3 k4 j1
        exact ⟨m1, j2.trans m2⟩

/-- **C123.** A failed call can leave an object that mixes two calls. If the weights in place have no cash entry, a failed
`mean_variance` or `vol_cont` call makes the evaluation of those weights raise `ValueError`. -/
theorem C123_mixed (cvx : CvxAll n) (o : TraderObj τ n) (a : BacktestArgs τ n) (e : Err)
    (hp : a.portfolioType = .meanVariance ∨ a.portfolioType = .volCont) (h : (o.backtest cvx a).2 = .error e)
    (hT : o.trader.returns ≠ []) (w : Vec n) (ws : List (List ℝ)) (hws : o.trader.ws = List.ofFn w :: ws)
    (rf : Option (List ℝ)) (hrf : rf ≠ some []) (x : Option ℝ) :
    (o.backtest cvx a).1.trader.getTotalReturns false x rf = .error .valueError := by
  obtain ⟨d, _, hobj⟩ := C123_failed cvx o a e h
  obtain ⟨r, rows, hr⟩ := List.exists_cons_of_ne_nil hT
  have hc : ∃ c, cashReturn rf 0 = .ok c := by
    unfold cashReturn
    match rf, hrf with
    | none, _ => exact ⟨0, rfl⟩
    | some (f :: l), _ => exact ⟨f, rfl⟩
  obtain ⟨c, hc⟩ := hc
  rw [hobj]
  unfold Trader.getTotalReturns
  dsimp only
  rw [hr]
  unfold totalReturnsLoop
  dsimp only
  have hcash : a.portfolioType = .volCont ∨ a.portfolioType = .meanVariance ∨ a.portfolioType = .meanVariance2 ∨ false = true := by
    rcases hp with hp | hp <;> simp [hp]
  have hdot : npDot (List.ofFn w) (List.ofFn r ++ [c]) = .error .valueError := by
    unfold npDot
    rw [if_neg (by simp)]
  rw [if_pos hcash, hc, hws]
  simp only [Bool.false_eq_true, if_false, pure_bind, List.getElem?_cons_zero, Option.getD_some]
  change (npDot (List.ofFn w) (List.ofFn r ++ [c]) >>= _ : Except Err _) >>= _ = _
  rw [hdot]
  rfl

/-- **C123.** After a failed call of another type the evaluation of weights without a cash entry still gives their returns. -/
theorem C123_unaffected (cvx : CvxAll n) (o : TraderObj τ n) (a : BacktestArgs τ n) (e : Err)
    (hp : NoCash a.portfolioType) (h : (o.backtest cvx a).2 = .error e) (T : ℕ) (r w : ℕ → Vec n)
    (hr : o.trader.returns = (List.range T).map r) (hw : o.trader.ws = (List.range T).map fun t => List.ofFn (w t))
    (x : Option ℝ) (rf : Option (List ℝ)) :
    ∃ s, (o.backtest cvx a).1.trader.getTotalReturns false x rf = .ok s ∧
      s.rets = (List.range T).map fun t => ∑ i, w t i * r t i := by
  obtain ⟨d, _, hobj⟩ := C123_failed cvx o a e h
  rw [hobj]
  exact ⟨_, C79_returns { o.trader with portfolioType := a.portfolioType, adjustFactor := a.adjustFactor, diluted := d }
    hp T r w hr hw x rf, rfl⟩

/-- the rows of the uncertainties in the order of the dates -/
private theorem rhosAt_get {rhos : Option (Dict τ (Vec n))} {dates : List τ} {l : List (Option (Vec n))}
    (h : rhosAt rhos dates = .ok l) : l.length = dates.length ∧ ∀ (t : ℕ) d, dates[t]? = some d →
      l[t]? = some (rhos.bind fun r => r.lookup d) := by
  unfold rhosAt at h
  cases rhos with
  | none =>
    injection h with h
    subst h
    refine ⟨by simp, fun t d hd => ?_⟩
    rw [List.getElem?_map, hd]
    rfl
  | some r =>
    dsimp only at h
    rw [bind_ok_iff] at h
    obtain ⟨x, hx, h⟩ := h
    injection h with h
    subst h
    rw [← List.map_id dates, restrict_ok_iff] at hx
    obtain ⟨v, hv, rfl⟩ := hx
    refine ⟨by simp, fun t d hd => ?_⟩
    rw [List.getElem?_map, List.getElem?_map, hd]
    simp only [Option.map_some, id, Option.bind_some]
    have := hv d (List.mem_of_getElem? hd)
    rw [id] at this
    rw [this]

private theorem mapM_pure_get {A B C : Type} {f : A → Except Err B} {g : B → C} {l : List A} {r : List C}
    (h : (l.mapM fun a => do let b ← f a; pure (g b)) = .ok r) :
    r.length = l.length ∧ ∀ (t : ℕ) a, l[t]? = some a → ∃ b, f a = .ok b ∧ r[t]? = some (g b) := by
  rw [mapM_ok_iff_forall₂] at h
  refine ⟨h.length_eq.symm, ?_⟩
  induction h with
  | nil => intro t a ha; cases ha
  | @cons x y l r hxy _ ih =>
    intro t a ha
    cases t with
    | zero =>
      simp only [List.getElem?_cons_zero, Option.some.injEq] at ha
      subst ha
      rw [bind_ok_iff] at hxy
      obtain ⟨b, hb, hy⟩ := hxy
      injection hy with hy
      exact ⟨b, hb, by rw [List.getElem?_cons_zero, hy]⟩
    | succ t =>
      rw [List.getElem?_cons_succ] at ha ⊢
      exact ih t a ha

/-- **C123.** The weights after a successful call, whatever cvxpy does: one row per date, and row `t` is
* `1/n` each for `eq_weighted`;
* the solution of date `t`'s own problem, with the constraints of the call, for `min_risk` and `mean_variance` (there with
  the target volatility times the adjustment factor, and the weight of cash last);
* that solution divided by its sum for `risk_parity` and `max_diverse`;
* for `robust_min_risk` the solution with date `t`'s whitener but the volatilities of the *first* date. -/
theorem C123_weights (cvx : CvxAll n) (o : TraderObj τ n) (a : BacktestArgs τ n) (h : (o.backtest cvx a).2 = .ok ())
    (hL : o.LInvs.length = o.dates.length) (hS : o.trader.sigmas.length = o.dates.length)
    (hr : ∀ r, o.rHats = some r → r.length = o.dates.length) :
    (o.backtest cvx a).1.trader.ws.length = o.dates.length ∧
    ∀ (t : ℕ) d L S, o.dates[t]? = some d → o.LInvs[t]? = some L → o.trader.sigmas[t]? = some S →
      ∃ row, (o.backtest cvx a).1.trader.ws[t]? = some row ∧
        (a.portfolioType = .eqWeighted → row = List.ofFn fun _ : Fin n => (1 : ℝ) / n) ∧
        (a.portfolioType = .minRisk → ∃ w, cvx.minRisk a.additonalCons L = .ok w ∧ row = List.ofFn w) ∧
        (a.portfolioType = .robustMinRisk → ∃ kappa S0 w, a.kappa = some kappa ∧ o.trader.sigmas[0]? = some S0 ∧
          cvx.robust kappa a.additonalCons ⟨L, fun i => Real.sqrt (S0 i i)⟩ = .ok w ∧ row = List.ofFn w) ∧
        (a.portfolioType = .meanVariance → ∃ rs r sigmaDes w cash, o.rHats = some rs ∧ rs[t]? = some r ∧
          a.sigmaDes = some sigmaDes ∧
          cvx.meanVariance a.additonalCons (sigmaDes * a.adjustFactor) L r (a.rhos.bind fun x => x.lookup d)
            = .ok (w, cash) ∧ row = List.ofFn w ++ [cash]) ∧
        (a.portfolioType = .maxDiverse → ∃ M z, a.additonalCons.upperBound = some M ∧
          cvx.maxDiverse M L (fun i => Real.sqrt (S i i)) = .ok z ∧ row = List.ofFn fun i => z i / ∑ j, z j) ∧
        (a.portfolioType = .riskParity → ∃ z, cvx.riskParity L = .ok z ∧ row = List.ofFn fun i => z i / ∑ j, z j) := by
  rcases backtest_cases cvx o a with ⟨_, hv, rhos, ws, h2, h3, h4⟩ | ⟨⟨e, h1⟩, _⟩
  swap
  · rw [h1] at h; cases h
  rw [h4]
  change ws.length = _ ∧ ∀ (t : ℕ) d L S, _ → _ → _ → ∃ row, ws[t]? = some row ∧ _
  obtain ⟨g1, g2⟩ := rhosAt_get h2
  unfold TraderObj.weights at h3
  cases hp : a.portfolioType with
  | eqWeighted =>
    rw [hp] at h3
    injection h3 with h3
    subst h3
    refine ⟨by simp, fun t d L S hd _ _ => ⟨_, by rw [List.getElem?_map, hd]; rfl, ?_⟩⟩
    simp
  | minRisk =>
    rw [hp] at h3
    dsimp only at h3
    unfold minRiskWeights at h3
    split at h3
    · cases h3
    obtain ⟨m1, m2⟩ := mapM_pure_get h3
    refine ⟨m1.trans hL, fun t d L S hd hLt _ => ?_⟩
    obtain ⟨w, hw, hrow⟩ := m2 t L hLt
    refine ⟨_, hrow, ?_⟩
    simp only [reduceCtorEq, false_implies, true_and, and_true, forall_const]
    exact ⟨w, hw, rfl⟩
  | volCont => exact absurd hp hv
  | robustMinRisk =>
    rw [hp] at h3
    dsimp only at h3
    cases hk : a.kappa with
    | none => rw [hk] at h3; cases h3
    | some kappa =>
      rw [hk] at h3
      dsimp only at h3
      split at h3
      · cases h3
      cases hs : o.trader.sigmas with
      | nil => rw [hs] at h3; cases h3
      | cons S0 l =>
        rw [hs] at h3
        dsimp only at h3
        obtain ⟨m1, m2⟩ := mapM_pure_get h3
        refine ⟨m1.trans hL, fun t d L S hd hLt _ => ?_⟩
        obtain ⟨w, hw, hrow⟩ := m2 t L hLt
        refine ⟨_, hrow, ?_⟩
        simp only [reduceCtorEq, false_implies, true_and, and_true, forall_const]
        exact ⟨kappa, S0, w, rfl, rfl, hw, rfl⟩
  | meanVariance =>
    rw [hp] at h3
    dsimp only at h3
    cases hrs : o.rHats with
    | none => rw [hrs] at h3; cases h3
    | some rs =>
      cases hsd : a.sigmaDes with
      | none => rw [hrs, hsd] at h3; cases h3
      | some x =>
        rw [hrs, hsd] at h3
        dsimp only at h3
        obtain ⟨m1, m2⟩ := mapM_pure_get h3
        have hlr := hr rs hrs
        refine ⟨?_, fun t d L S hd hLt _ => ?_⟩
        · rw [m1]
          unfold meanVarianceTasks
          simp [hL, hlr, g1]
        · have ht : t < rs.length := by
            rw [hlr]
            exact (List.getElem?_eq_some_iff.1 hd).1
          obtain ⟨w, hw, hrow⟩ := m2 t ⟨L, rs[t], a.rhos.bind fun x => x.lookup d⟩ (by
            unfold meanVarianceTasks
            rw [List.getElem?_zipWith, hLt, List.zip, List.getElem?_zipWith, g2 t d hd, List.getElem?_eq_getElem ht])
          refine ⟨_, hrow, ?_⟩
          simp only [reduceCtorEq, false_implies, true_and, and_true, forall_const]
          exact ⟨rs, rs[t], x, w.1, w.2, rfl, List.getElem?_eq_getElem ht, rfl, hw, rfl⟩
  | meanVariance2 => rw [hp] at h3; cases h3
  | maxDiverse =>
    rw [hp] at h3
    dsimp only at h3
    cases hu : a.additonalCons.upperBound with
    | none => rw [hu] at h3; cases h3
    | some M =>
      rw [hu] at h3
      dsimp only at h3
      obtain ⟨m1, m2⟩ := mapM_pure_get h3
      refine ⟨by rw [m1]; simp [hL, hS], fun t d L S hd hLt hSt => ?_⟩
      obtain ⟨z, hz, hrow⟩ := m2 t (L, S) (by rw [List.zip, List.getElem?_zipWith, hLt, hSt])
      refine ⟨_, hrow, ?_⟩
      simp only [reduceCtorEq, false_implies, true_and, and_true, forall_const]
      exact ⟨M, z, rfl, hz, rfl⟩
  | riskParity =>
    rw [hp] at h3
    dsimp only at h3
    obtain ⟨m1, m2⟩ := mapM_pure_get h3
    refine ⟨m1.trans hL, fun t d L S hd hLt _ => ?_⟩
    obtain ⟨z, hz, hrow⟩ := m2 t L hLt
    refine ⟨_, hrow, ?_⟩
    simp only [reduceCtorEq, false_implies, true_and, and_true, forall_const]
    exact ⟨z, hz, rfl⟩
  | maxSharpe =>
    rw [hp] at h3
    dsimp only at h3
    cases hrs : o.rHats with
    | none => rw [hrs] at h3; cases h3
    | some r =>
      rw [hrs] at h3
      cases hu : a.additonalCons.upperBound <;> rw [hu] at h3 <;> cases h3
  | other => rw [hp] at h3; cases h3

/-- **C123.** Which exception a missing argument raises, if the uncertainties are complete and cvxpy solves every problem:
`AssertionError` for a missing `kappa`, `sigma_des` or expected returns, `KeyError` for a missing upper bound; and `vol_cont`
with a target raises `ValueError` after it has set the flag `diluted`, without one `AssertionError` before. -/
theorem C123_exceptions (cvx : CvxAll n) (hcvx : cvx.Total) (o : TraderObj τ n) (a : BacktestArgs τ n)
    (hrho : ∀ d, a.rhos = some d → ∀ t ∈ o.dates, t ∈ d.keys) :
    (a.portfolioType = .robustMinRisk → a.kappa = none → (o.backtest cvx a).2 = .error .assertionError) ∧
    (a.portfolioType = .meanVariance → (o.rHats = none ∨ a.sigmaDes = none) →
      (o.backtest cvx a).2 = .error .assertionError) ∧
    (a.portfolioType = .maxDiverse → a.additonalCons.upperBound = none → (o.backtest cvx a).2 = .error .keyError) ∧
    (a.portfolioType = .maxSharpe → (o.backtest cvx a).2 = .error (if o.rHats = none then .assertionError else
      if a.additonalCons.upperBound = none then .keyError else .attributeError)) ∧
    (a.portfolioType = .volCont → a.cSpeedup = false → a.sigmaDes = none →
      (o.backtest cvx a).2 = .error .assertionError ∧ (o.backtest cvx a).1.trader.diluted = o.trader.diluted) ∧
    (a.portfolioType = .volCont → a.cSpeedup = false → a.sigmaDes ≠ none →
      (o.backtest cvx a).2 = .error .valueError ∧ (o.backtest cvx a).1.trader.diluted = true) := by
  obtain ⟨rhos, hr⟩ := (rhosAt_exists_iff a.rhos o.dates).2 hrho
  have hb : ∀ e, o.weights cvx a rhos = .error e → (o.backtest cvx a).2 = .error e ∧
      (o.backtest cvx a).1.trader.diluted = o.trader.diluted := by
    intro e he
    have hw : TraderObj.weights cvx { o with trader := { o.trader with
        portfolioType := a.portfolioType, adjustFactor := a.adjustFactor } } a rhos = .error e := he
    unfold TraderObj.backtest
    dsimp only
    rw [hr]
    dsimp only
    rw [hw]
    exact ⟨rfl, rfl⟩
  refine ⟨fun hp hk => (hb _ ?_).1, fun hp hk => (hb _ ?_).1, fun hp hk => (hb _ ?_).1, fun hp => (hb _ ?_).1,
    fun hp hc hs => hb _ ?_, fun hp hc hs => ?_⟩
  · unfold TraderObj.weights
    rw [hp, hk]
  · unfold TraderObj.weights
    rw [hp]
    rcases hk with hk | hk
    · rw [hk]
    · rw [hk]
      cases o.rHats <;> rfl
  · unfold TraderObj.weights
    rw [hp, hk]
  · unfold TraderObj.weights
    rw [hp]
    cases o.rHats with
    | none => rfl
    | some r => cases a.additonalCons.upperBound <;> rfl
  · unfold TraderObj.weights
    rw [hp, hs]
    have : ∃ ws, minRiskWeights cvx a o.LInvs = .ok ws := by
      unfold minRiskWeights
      rw [hc]
      exact mapM_exists _ _ fun L _ => bind_pure_exists _ _ (hcvx.minRisk _ _)
    obtain ⟨ws, hws⟩ := this
    dsimp only
    rw [hws]
    rfl
  · have : ∃ ws, o.weights cvx a rhos = .ok ws := by
      unfold TraderObj.weights
      rw [hp]
      obtain ⟨x, hx⟩ := Option.ne_none_iff_exists'.1 hs
      rw [hx]
      have : ∃ ws, minRiskWeights cvx a o.LInvs = .ok ws := by
        unfold minRiskWeights
        rw [hc]
        exact mapM_exists _ _ fun L _ => bind_pure_exists _ _ (hcvx.minRisk _ _)
      obtain ⟨ws, hws⟩ := this
      dsimp only
      rw [hws]
      exact ⟨_, rfl⟩
    obtain ⟨ws, hws⟩ := this
    have hw : TraderObj.weights cvx { o with trader := { o.trader with
        portfolioType := a.portfolioType, adjustFactor := a.adjustFactor } } a rhos = .ok ws := hws
    unfold TraderObj.backtest
    dsimp only
    rw [hr]
    dsimp only
    rw [hw]
    dsimp only
    rw [if_pos hp]
    have := C78_vol_cont_fails { o.trader with portfolioType := a.portfolioType, adjustFactor := a.adjustFactor }
      a.adjustFactor ws
    exact ⟨this.1, this.2.1⟩

/-! Non-vacuity -/

/-- an exact solver: every problem is answered by the equal weights -/
private noncomputable def eqCvx : CvxAll 2 where
  minRisk := fun _ _ => .ok fun _ => 1 / 2
  maxDiverse := fun _ _ _ => .ok fun _ => 1
  riskParity := fun _ => .ok fun _ => 1
  meanVariance := fun _ _ _ _ _ => .ok (fun _ => 0, 1)
  robust := fun _ _ _ => .ok fun _ => 1 / 2

private theorem eqCvx_total : eqCvx.Total :=
  ⟨fun _ _ => ⟨_, rfl⟩, fun _ _ _ => ⟨_, rfl⟩, fun _ _ _ => ⟨_, rfl⟩, fun _ => ⟨_, rfl⟩, fun _ _ _ _ _ => ⟨_, rfl⟩⟩

private noncomputable def oneDay : TraderObj ℕ 2 where
  dates := [0]
  LInvs := [1]
  rHats := none
  trader := { returns := [fun _ => 1 / 100], sigmas := [1], portfolioType := .minRisk, ws := [] }

/-- Three calls: `min_risk` succeeds, `mean_variance` fails (no expected returns), and then the returns of the first
cannot be evaluated any more. -/
example : (oneDay.backtest eqCvx {}).2 = .ok () ∧
    ((oneDay.backtest eqCvx {}).1.backtest eqCvx { portfolioType := .meanVariance }).2 ≠ .ok () ∧
    ((oneDay.backtest eqCvx {}).1.backtest eqCvx { portfolioType := .meanVariance }).1.trader.getTotalReturns
      = .error .valueError := by
  have h1 : (oneDay.backtest eqCvx {}).2 = .ok () :=
    (C123_succeeds_iff eqCvx eqCvx_total oneDay (by simp [oneDay]) {}).2
      ⟨by simp, .inr (.inr (.inl ⟨rfl, rfl⟩))⟩
  have hk : (oneDay.backtest eqCvx {}).1.trader.ws = [List.ofFn fun _ : Fin 2 => (1 : ℝ) / 2] := rfl
  have h2 : ((oneDay.backtest eqCvx {}).1.backtest eqCvx { portfolioType := .meanVariance }).2 = .error .assertionError := rfl
  refine ⟨h1, by rw [h2]; simp, ?_⟩
  exact C123_mixed eqCvx _ _ _ (.inl rfl) h2 (by simp [TraderObj.backtest, oneDay, rhosAt, TraderObj.weights, minRiskWeights, eqCvx]) _ [] hk none (by simp) none

/-- A `mean_variance` call with expected returns and a target: one row, no assets, all cash. -/
example : (({ oneDay with rHats := some [fun _ => 1] } : TraderObj ℕ 2).backtest eqCvx
    { portfolioType := .meanVariance, sigmaDes := some (1 / 10) }).1.trader.ws.length = 1 :=
  (C123_weights eqCvx { oneDay with rHats := some [fun _ => 1] } { portfolioType := .meanVariance, sigmaDes := some (1 / 10) }
    rfl rfl rfl (by rintro r hr; cases hr; rfl)).1

/-- `vol_cont` with a target leaves the flag set. -/
example : (oneDay.backtest eqCvx { portfolioType := .volCont, sigmaDes := some (1 / 10) }).1.trader.diluted = true :=
  ((C123_exceptions eqCvx eqCvx_total oneDay { portfolioType := .volCont, sigmaDes := some (1 / 10) } (by simp)).2.2.2.2.2
    rfl rfl (by simp)).2

end CovPred
