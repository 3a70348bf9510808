import Verif.Props.Backtests3

/-
C106-C112: concrete cases. Four rows of two assets; the hypotheses of the theorems about `portfolio_backtests.py` hold for
all five strategies with an exact solver, and a rolling window is a causal predictor.
-/
namespace CovPred
open Matrix
set_option linter.unusedSectionVars false

/-! ### An exact solver -/

open Classical in
/-- A solver which returns a solution if there is one. -/
noncomputable def exactCvx (n : ℕ) : Cvx n where
  minRisk a L := if h : ∃ w, minRiskCons a w ∧ ∀ w', minRiskCons a w' → riskExpr L w ≤ riskExpr L w' then .ok h.choose
    else .error .other
  maxDiverse M L s := if h : ∃ z, DiverseOptimal L M s z then .ok h.choose else .error .other
  riskParity L := if h : ∃ w, ParityOptimal L w then .ok h.choose else .error .other
  meanVariance a s L mu rho := if h : ∃ w : Vec n × ℝ, meanVarianceCons a 1 s L w.1 w.2 ∧
      ∀ w' c', meanVarianceCons a 1 s L w' c' → meanVarianceRet mu rho w' c' ≤ meanVarianceRet mu rho w.1 w.2 then .ok h.choose
    else .error .other

theorem exactCvx_exact (n : ℕ) : (exactCvx n).Exact where
  minRisk a L w h := by
    unfold exactCvx at h
    dsimp only at h
    split at h
    · rename_i hh; cases h; exact hh.choose_spec
    · cases h
  maxDiverse M L s z h := by
    unfold exactCvx at h
    dsimp only at h
    split at h
    · rename_i hh; cases h; exact hh.choose_spec
    · cases h
  riskParity L w h := by
    unfold exactCvx at h
    dsimp only at h
    split at h
    · rename_i hh; cases h; exact hh.choose_spec
    · cases h
  meanVariance a s L mu rho w h := by
    unfold exactCvx at h
    dsimp only at h
    split at h
    · rename_i hh; cases h; exact hh.choose_spec
    · cases h

/-! ### A backtest of four rows -/

private def exX : ℕ → NRow 2 := fun t i => some (t + i)

/-- a backtest of the four rows `x`, with a predictor of covariances 1 and means 0 -/
def btExample (x : ℕ → NRow 2) : Backtest ℕ 2 where
  returns := rowDict 4 id x
  covPredictors := [[(0, 1), (1, 1), (2, 1), (3, 1)]]
  names := ["A"]
  meanPredictors := some [[(0, 0), (1, 0), (2, 0), (3, 0)]]
  startDate := 0
  endDate := 3

private def exBt : Backtest ℕ 2 := btExample exX

private theorem exInit : backtestInit (rowDict 4 id exX) exBt.covPredictors exBt.names exBt.meanPredictors none none = .ok exBt := by
  rw [C107_constructor]
  refine ⟨?_, [(0, 1), (1, 1), (2, 1), (3, 1)], rfl, ?_, ?_, ?_, Or.inr ⟨rfl, rfl⟩, Or.inr ⟨rfl, rfl⟩, rfl, rfl, rfl, rfl⟩
  · intro c hc t ht
    have : c = [(0, 1), (1, 1), (2, 1), (3, 1)] := by simpa [exBt, btExample] using hc
    subst this
    simpa [rowDict, List.range_succ] using ht
  · intro ms hms m hm t ht
    have := Option.some.inj hms
    subst this
    have : m = [(0, 0), (1, 0), (2, 0), (3, 0)] := by simpa using hm
    subst this
    simpa using ht
  · intro t h; cases h
  · intro t h; cases h

private theorem exB : Backtests exBt 4 id exX 0 3 :=
  ⟨by norm_num, fun s t _ _ h => h, by norm_num, by norm_num, rfl, rfl, rfl⟩

private theorem exDays : tradingDays exX 0 3 = [0, 1, 2] :=
  (C106_days exX 0 3).2.2 (fun _ _ _ _ => rfl)

private theorem one_risk {L : Mat 2} (hL : getLInv (1 : Mat 2) = .ok L) (w : Vec 2) :
    riskExpr L w = Real.sqrt (w 0 ^ 2 + w 1 ^ 2) := by
  obtain ⟨L', hL', hr⟩ := C56_whitener (S := (1 : Mat 2)) Matrix.PosDef.one
  rw [hL] at hL'
  cases hL'
  rw [hr]
  unfold predictedStd
  congr 1
  simp [dotProduct, Fin.sum_univ_two]
  ring

/-- The strategies of the example; no limits, a volatility target of 10%, uncertainties of 1 or none. -/
noncomputable def btStrategies : List (Strategy ℕ 2) :=
  [.eqWeighted, .minRisk ⟨none, none, none⟩, .maxDiverse ⟨none, some 1, none⟩, .riskParity,
    .meanVariance ⟨none, none, none⟩ (1 / 10) (some [(0, 1), (1, 1), (2, 1)]),
    .meanVariance ⟨none, none, none⟩ (1 / 10) none]

private theorem exDiverse {L : Mat 2} (hL : getLInv (1 : Mat 2) = .ok L) :
    DiverseOptimal L 1 (fun i => Real.sqrt ((1 : Mat 2) i i)) (fun _ => 1 / 2) := by
  refine ⟨⟨fun i => by norm_num, fun i => by norm_num, by simp⟩, ?_⟩
  rintro z ⟨h0, h1, h2⟩
  rw [one_risk hL, one_risk hL]
  apply Real.sqrt_le_sqrt
  simp only [dotProduct, Fin.sum_univ_two, Matrix.one_apply_eq, Real.sqrt_one, one_mul] at h2
  nlinarith [sq_nonneg (z 0 - z 1)]

private theorem exParity {L : Mat 2} (hL : getLInv (1 : Mat 2) = .ok L) : ParityOptimal L (fun _ => Real.sqrt 2) := by
  refine (C84_optimal_iff (by norm_num) Matrix.PosDef.one hL _).2 ⟨fun _ => by positivity, fun i => ?_⟩
  rw [Matrix.one_mulVec]
  rw [Real.mul_self_sqrt (by norm_num)]
  norm_num

private theorem exDay (st : Strategy ℕ 2) (hst : st ∈ btStrategies) (L : Mat 2) (hL : getLInv (1 : Mat 2) = .ok L)
    (rho : Option (Vec 2)) (hrho : rho = st.rhos.map fun _ => 1)
    (mu : Option (Vec 2)) (hmu : st.ptype = .meanVariance → mu = some 0) :
    ∃ w, dayWeights (exactCvx 2) st ⟨1, L, mu, rho⟩ = .ok w := by
  have hL1 := hL
  unfold btStrategies at hst
  simp only [List.mem_cons, List.not_mem_nil, or_false] at hst
  rcases hst with rfl | rfl | rfl | rfl | rfl | rfl
  · exact ⟨_, rfl⟩
  · have : ∃ w : Vec 2, minRiskCons ⟨none, none, none⟩ w ∧ ∀ w', minRiskCons ⟨none, none, none⟩ w' → riskExpr L w ≤ riskExpr L w' := by
      refine ⟨fun _ => 1 / 2, ⟨by norm_num [Fin.sum_univ_two], by simp, by simp, by simp⟩, fun w' hw' => ?_⟩
      rw [one_risk hL, one_risk hL]
      apply Real.sqrt_le_sqrt
      have h1 : w' 0 + w' 1 = 1 := by simpa [Fin.sum_univ_two] using hw'.1
      nlinarith [sq_nonneg (w' 0 - w' 1)]
    unfold dayWeights exactCvx
    dsimp only
    rw [dif_pos this]
    exact ⟨_, rfl⟩
  · have : ∃ z : Vec 2, DiverseOptimal L 1 (fun i => Real.sqrt ((1 : Mat 2) i i)) z := ⟨_, exDiverse hL1⟩
    simp only [dayWeights, exactCvx]
    rw [dif_pos this]
    exact ⟨_, rfl⟩
  · have : ∃ z : Vec 2, ParityOptimal L z := ⟨_, exParity hL1⟩
    unfold dayWeights exactCvx
    dsimp only
    rw [dif_pos this]
    exact ⟨_, rfl⟩
  · have : ∃ w : Vec 2 × ℝ, meanVarianceCons ⟨none, none, none⟩ 1 (1 / 10 * 1) L w.1 w.2 ∧
        ∀ w' c', meanVarianceCons ⟨none, none, none⟩ 1 (1 / 10 * 1) L w' c' → meanVarianceRet 0 rho w' c' ≤ meanVarianceRet 0 rho w.1 w.2 := by
      refine ⟨(0, 1), ⟨by simp, ?_, by simp, by simp, by simp⟩, fun w' c' _ => ?_⟩
      · rw [one_risk hL]
        simp only [Pi.zero_apply]
        norm_num
        positivity
      · subst hrho
        simp only [Strategy.rhos, Option.map_some, meanVarianceRet, Pi.zero_apply, Pi.one_apply, Fin.sum_univ_two]
        have h1 := abs_nonneg (w' 0)
        have h2 := abs_nonneg (w' 1)
        norm_num
        linarith
    have hm : mu = some 0 := hmu rfl
    subst hm
    simp only [dayWeights, exactCvx]
    rw [dif_pos this]
    exact ⟨_, rfl⟩
  · have : ∃ w : Vec 2 × ℝ, meanVarianceCons ⟨none, none, none⟩ 1 (1 / 10 * 1) L w.1 w.2 ∧
        ∀ w' c', meanVarianceCons ⟨none, none, none⟩ 1 (1 / 10 * 1) L w' c' → meanVarianceRet 0 rho w' c' ≤ meanVarianceRet 0 rho w.1 w.2 := by
      refine ⟨(0, 1), ⟨by simp, ?_, by simp, by simp, by simp⟩, fun w' c' _ => ?_⟩
      · rw [one_risk hL]
        simp only [Pi.zero_apply]
        norm_num
        positivity
      · subst hrho
        simp [Strategy.rhos, meanVarianceRet]
    have hm : mu = some 0 := hmu rfl
    subst hm
    simp only [dayWeights, exactCvx]
    rw [dif_pos this]
    exact ⟨_, rfl⟩

private theorem exOutcome (x : ℕ → NRow 2) (st : Strategy ℕ 2) (hst : st ∈ btStrategies) (mus : Option (Dict ℕ (Vec 2)))
    (hmus : meanPredictor st (btExample x) 0 = .ok mus) (t : ℕ) (ht : t ∈ [0, 1, 2]) :
    ∃ w, dayOutcome (exactCvx 2) st [(0, 1), (1, 1), (2, 1), (3, 1)] mus t = .ok w := by
  obtain ⟨L, hL, _⟩ := C56_whitener (S := (1 : Mat 2)) Matrix.PosDef.one
  have hS : getItem ([(0, 1), (1, 1), (2, 1), (3, 1)] : Dict ℕ (Mat 2)) t = .ok 1 := by
    simp only [List.mem_cons, List.not_mem_nil, or_false] at ht
    rcases ht with rfl | rfl | rfl <;> rfl
  have hmu : ∃ mu, optItem mus t = .ok mu ∧ (st.ptype = .meanVariance → mu = some 0) := by
    unfold meanPredictor at hmus
    cases st with
    | meanVariance cons s rhos =>
      have := Except.ok.inj hmus
      subst this
      simp only [List.mem_cons, List.not_mem_nil, or_false] at ht
      refine ⟨some 0, ?_, fun _ => rfl⟩
      rcases ht with rfl | rfl | rfl <;> rfl
    | _ =>
      have := Except.ok.inj hmus
      subst this
      exact ⟨none, rfl, fun h => PType.noConfusion h⟩
  have hrho : optItem st.rhos t = .ok (st.rhos.map fun _ => 1) := by
    unfold btStrategies at hst
    simp only [List.mem_cons, List.not_mem_nil, or_false] at hst
    simp only [List.mem_cons, List.not_mem_nil, or_false] at ht
    rcases hst with rfl | rfl | rfl | rfl | rfl | rfl
    all_goals first | rfl | (rcases ht with rfl | rfl | rfl <;> rfl)
  obtain ⟨mu, hmu, hmv⟩ := hmu
  obtain ⟨w, hw⟩ := exDay st hst L hL _ rfl mu hmv
  refine ⟨w, ?_⟩
  unfold dayOutcome
  simp only [bind_ok_iff]
  exact ⟨1, hS, mu, hmu, L, hL, _, hrho, hw⟩

/-- all strategies of the list run through on any four complete rows with an exact solver -/
theorem btExample_run (X : ℕ → Vec 2) (st : Strategy ℕ 2) (hst : st ∈ btStrategies) :
    Backtests (btExample fun t i => some (X t i)) 4 id (fun t i => some (X t i)) 0 3 ∧
    ∃ tr, (btExample fun t i => some (X t i)).run (exactCvx 2) st = .ok [("A", tr)] := by
  have hB : Backtests (btExample fun t i => some (X t i)) 4 id (fun t i => some (X t i)) 0 3 :=
    ⟨by norm_num, fun s t _ _ h => h, by norm_num, by norm_num, rfl, rfl, rfl⟩
  have hdays : tradingDays (fun t i => some (X t i)) 0 3 = [0, 1, 2] :=
    (C106_days _ 0 3).2.2 (fun _ _ _ _ => rfl)
  refine ⟨hB, ?_⟩
  have h : ∃ d, (btExample fun t i => some (X t i)).run (exactCvx 2) st = .ok d := by
    rw [C107_success hB]
    intro i c hc
    have hi : i = 0 := by
      have := (List.getElem?_eq_some_iff.1 hc).1
      simpa [btExample] using this
    subst hi
    have := Option.some.inj hc
    subst this
    rw [hdays]
    have hm : ∃ mus, meanPredictor st (btExample fun t i => some (X t i)) 0 = .ok mus := by
      unfold meanPredictor
      cases st <;> exact ⟨_, rfl⟩
    obtain ⟨mus, hm⟩ := hm
    exact ⟨by simp, by simp [btExample], mus, hm, fun t ht => exOutcome _ st hst mus hm t ht⟩
  obtain ⟨d, hd⟩ := h
  have hk := (C111_names hd).2.1
  have hk' : d.map Prod.fst = ["A"] := by rw [hk]; rfl
  obtain ⟨p, rfl⟩ : ∃ p, d = [p] := by
    have : d.length = 1 := by simpa using congrArg List.length hk'
    exact List.length_eq_one_iff.1 this
  have hp : p.1 = "A" := by simpa using hk'
  obtain ⟨nm, tr⟩ := p
  dsimp only at hp
  subst hp
  exact ⟨tr, hd⟩

/-- **Non-vacuity of C106-C111.** All six strategies run through on the example with an exact solver, and the only entry of
the result has rows for the dates 0, 1, 2. -/
example (st : Strategy ℕ 2) (hst : st ∈ btStrategies) : ∃ tr, exBt.run (exactCvx 2) st = .ok [("A", tr)] ∧ tr.dates = [0, 1, 2] ∧
    tr.trader.returns = [![1, 2], ![2, 3], ![3, 4]] := by
  obtain ⟨_, tr, hd⟩ := btExample_run (fun t i => t + i) st hst
  replace hd : exBt.run (exactCvx 2) st = .ok [("A", tr)] := hd
  obtain ⟨h1, h2, _⟩ := C106_pairing exB hd (name := "A") (tr := tr) (by simp)
  rw [exDays] at h1 h2
  refine ⟨tr, hd, by simpa using h1, ?_⟩
  rw [h2]
  simp only [List.map_cons, List.map_nil, rowValues, exX]
  congr 1
  · ext i; fin_cases i <;> norm_num [rowValues, exX]
  · congr 1
    · ext i; fin_cases i <;> norm_num [rowValues, exX]
    · congr 1
      ext i; fin_cases i <;> norm_num [rowValues, exX]

/-- **Non-vacuity of C111.** Without names, or `MeanVariance` without forecasts, the same example fails. -/
example : (∀ st ∈ btStrategies, ({ exBt with names := [] } : Backtest ℕ 2).run (exactCvx 2) st = .error .indexError) ∧
    ∀ cons sigmaTar rhos, .meanVariance cons sigmaTar rhos ∈ btStrategies →
      ({ exBt with meanPredictors := some [] } : Backtest ℕ 2).run (exactCvx 2) (.meanVariance cons sigmaTar rhos)
        = .error .indexError := by
  constructor
  · intro st hst
    obtain ⟨_, tr, hd⟩ := btExample_run (fun t i => t + i) st hst
    exact C111_too_few_names (bt := { exBt with names := [] }) ["A"] hd (by decide)
  · intro cons sigmaTar rhos hst
    obtain ⟨_, tr, hd⟩ := btExample_run (fun t i => t + i) _ hst
    exact C111_too_few_means.1 [] _ _ rfl (List.nil_prefix) hd (by decide)

/-- a predictor without dates -/
example : backtestInit (rowDict 2 (fun t => t) (fun t => ![some (t : ℝ)])) [([] : Dict ℕ (Mat 1))] ["A"] = .error .indexError :=
  (C107_constructor_errors _ _ _ _ _ _).2.2 rfl (by simp) rfl rfl

/-! ### A causal predictor -/

private theorem lookup_congr {τ A : Type} [DecidableEq τ] (tm : ℕ → τ) (htm : Function.Injective tm) (g g' : ℕ → A) (s : ℕ) (h : g s = g' s)
    (l : List ℕ) : (l.map fun t => (tm t, g t)).lookup (tm s) = (l.map fun t => (tm t, g' t)).lookup (tm s) := by
  induction l with
  | nil => rfl
  | cons t l ih =>
    simp only [List.map_cons, List.lookup_cons]
    by_cases e : s = t
    · subst e; simp [h]
    · have : (tm s == tm t) = false := by simpa using fun h => e (htm h)
      rw [this]
      exact ih

/-- The rolling window of the experiments, as a function of the returns; `[]` if it raises. -/
noncomputable def windowPredictor {τ : Type} {n : ℕ} (T : ℕ) (tm : ℕ → τ) (M : ℕ) (minPeriods : Int) (x : ℕ → NRow n) :
    Dict τ (Mat n) :=
  match rollingWindow ((List.range T).map fun t => (tm t, rowValues (x t))) M minPeriods with
  | .ok d => d
  | .error _ => []

/-- **Non-vacuity of C110.** The rolling window does not look ahead. -/
theorem C110_window_causal {τ : Type} [LinearOrder τ] {n : ℕ} (T : ℕ) (hT : 0 < T) (tm : ℕ → τ) (htm : Function.Injective tm) {M : ℕ}
    (hM : 2 ≤ M) (minPeriods : Int) : CausalPredictor tm (windowPredictor (n := n) T tm M minPeriods) := by
  intro x y s hxy
  unfold windowPredictor
  rw [C49_rolling_window T hT tm (fun t => rowValues (x t)) hM minPeriods, C49_rolling_window T hT tm (fun t => rowValues (y t)) hM minPeriods]
  dsimp only
  apply lookup_congr tm htm
  rw [hxy 0 (by omega)]
  congr 2
  refine Finset.sum_congr rfl fun u hu => ?_
  rw [hxy u (Finset.mem_Icc.1 hu).2]

/-! ### The table -/

private noncomputable def exTr (c : ℝ) : Trader 1 where
  returns := [fun _ => c, fun _ => 2 * c]
  sigmas := [1, 1]
  portfolioType := .eqWeighted
  ws := [[1], [1]]

/-- **Non-vacuity of C112.** A table of three traders, with `PRESCIENT` first: it is printed for a nonzero target, and again
for another one. -/
example : ∃ trs out, createTable [("PRESCIENT", exTr 1), ("A", exTr 2), ("B", exTr 3)] (some (1 / 10)) none false true = .ok (trs, out) ∧
    createTable trs (some (2 / 10)) none false true = .ok (trs, out) := by
  have h : ∀ c : ℝ, ∃ p, tableMetrics (some (1 / 10)) none false (exTr c) = .ok p := by
    intro c
    obtain ⟨s', h1, _⟩ := C53_diluted_returns (exTr c) rfl 2 (by norm_num) (fun t _ => (t + 1) * c) (fun _ _ => 1) (fun _ => 1)
      (by simp [exTr, List.range_succ]; funext i; norm_num) rfl (by simp [exTr, List.range_succ]) (1 / 10) none []
    obtain ⟨s2, m, dd, _, h2, _⟩ := metrics_np (exTr c) s' true _ none (by norm_num [exTr]) (by simp [exTr]) h1
    refine ⟨(s2, m), ?_⟩
    unfold tableMetrics
    dsimp only
    rw [if_neg (by norm_num)]
    exact h2
  obtain ⟨p1, h1⟩ := h 1
  obtain ⟨p2, h2⟩ := h 2
  obtain ⟨p3, h3⟩ := h 3
  have : createTable [("PRESCIENT", exTr 1), ("A", exTr 2), ("B", exTr 3)] (some (1 / 10)) none false true
      = .ok ([("PRESCIENT", p1.1), ("A", p2.1), ("B", p3.1)],
          createTableHelper [("PRESCIENT", p1.2), ("A", p2.2), ("B", p3.2)] true) := by
    unfold createTable
    simp only [List.mapM_cons, List.mapM_nil, h1, h2, h3]
    rfl
  refine ⟨_, _, this, C112_stale_target _ _ ?_ _ _ (by norm_num) (by norm_num) _ _ _ _ this⟩
  intro p hp
  simp only [List.mem_cons, List.not_mem_nil, or_false] at hp
  rcases hp with rfl | rfl | rfl <;> simp [exTr]

end CovPred
