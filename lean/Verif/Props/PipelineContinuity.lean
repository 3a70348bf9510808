import Verif.Props.Pipeline
import Verif.Props.Continuity
import Verif.Lemmas.IewmaContinuity
import Verif.Lemmas.ChoiceContinuity

/-
Property C203: from returns to portfolio weights, a small revision of the returns has a small effect (the cells of
`experiments/industry_portfolios.ipynb` modelled in Model/Pipeline; ewma.py:88-183, combination.py:103-266,
portfolio_backtests.py:82-265, trading_model.py).
-/
set_option linter.unusedSectionVars false
namespace CovPred
open Matrix Filter XR

variable {τ : Type} [LinearOrder τ] {n : ℕ} {L : Type} [DecidableEq L] {label : XR × XR → L}
variable {solvers solvers' : Solvers n} {pairs : List (ℝ × ℝ)} {mv mc window T : ℕ} {tm : ℕ → τ} {x : ℕ → Vec n} {lamda : ℝ} {a b : ℕ}

private theorem vol_pos_cm {p : ℝ × ℝ} (hp : 0 < p.1 ∧ 0 < p.2) (hx : ∀ i, ∃ s < mv, x s i ≠ 0) {t : ℕ} (ht : mv ≤ t + 1) (i : Fin n) :
    0 < vol (cmArgs mv mc p) x t i := by
  refine lt_of_le_of_ne (Real.sqrt_nonneg _) fun h0 => ?_
  obtain ⟨s, hs, hne⟩ := hx i
  have := (volSq_zero_iff (cmArgs_valid hp) x t i).mp h0.symm s (by omega) (Or.inl rfl)
  rw [show cRet (cmArgs mv mc p) x s i = x s i by simp [cRet, muOf, cmArgs]] at this
  exact hne this

/-- an expert's covariance depends continuously on the returns -/
private theorem expert_lim (hn : 0 < n) (hmv : 0 < mv) (hmc : 0 < mc) {p : ℝ × ℝ} (hp : 0 < p.1 ∧ 0 < p.2) (hx : ∀ i, ∃ s < mv, x s i ≠ 0)
    {X : ℕ → ℕ → Vec n} {s : ℕ} (hX : ∀ t ≤ s, ∀ i, Tendsto (fun m => X m t i) atTop (nhds (x t i))) (hs : mv + mc - 2 ≤ s)
    (hfin : allFinite (itemAt (cmArgs mv mc p) (s + 1) (fun t : ℕ => t) x (s + 1 - mv)).covariance.get) :
    (∀ᶠ m in atTop, allFinite (itemAt (cmArgs mv mc p) (s + 1) (fun t : ℕ => t) (X m) (s + 1 - mv)).covariance.get) ∧
      Tendsto (fun m => rowIewma mv mc p (X m) s) atTop (nhds (rowIewma mv mc p x s)) := by
  have : Nonempty (Fin n) := ⟨⟨0, hn⟩⟩
  have hA : Approach atTop (cmArgs mv mc p) (s + 1) X x := ⟨fun t ht i => hX t (by omega) i, fun t _ hm i =>
    vol_pos_cm hp hx (by simp only [cmArgs] at hm; omega) i⟩
  have haw : ∃ s < mv, x s ≠ 0 := by
    obtain ⟨i⟩ := this
    obtain ⟨u, hu, hne⟩ := hx i
    exact ⟨u, hu, fun h0 => hne (by rw [h0]; rfl)⟩
  have hj : s + 1 - mv < (live (cmArgs mv mc p) (s + 1) x).length := by rw [live_cm hp haw, List.length_range']; omega
  have hd : ∀ i, covAt (cmArgs mv mc p) (s + 1) x (s + 1 - mv) (i, i) ≠ 0 := fun i h0 => by
    obtain ⟨v, hv⟩ := hfin (i, i)
    simp only [itemAt, Arr.get_ofFn, sigmaAt] at hv
    rw [if_pos (Or.inl h0)] at hv
    cases hv
  choose g v h1 h2 h3 using fun q : Fin n × Fin n => hA.sigma hj q (hd _) (hd _)
  refine ⟨(eventually_all.2 h2).mono fun m hm q => ⟨g q m, by simpa [itemAt] using hm q⟩, tendsto_matrix_iff.2 fun i k => ?_⟩
  have e0 : rowIewma mv mc p x s i k = v (i, k) := by simp [rowIewma, realCov, itemAt, h1 (i, k), toReal]
  rw [e0]
  refine (h3 (i, k)).congr' ((h2 (i, k)).mono fun m hm => ?_)
  simp [rowIewma, realCov, itemAt, hm, toReal]

private theorem lim_of_close {f : ℕ → ℝ} {a : ℝ} (h : ∀ m : ℕ, |f m - a| ≤ 1 / ((m : ℝ) + 1)) : Tendsto f atTop (nhds a) := by
  rw [tendsto_iff_dist_tendsto_zero]
  refine squeeze_zero (fun m => dist_nonneg) (fun m => ?_) tendsto_one_div_add_atTop_nhds_zero_nat
  rw [Real.dist_eq]
  exact h m

/-- the experts, and what is made of them, for nearby returns -/
private theorem cm_close (h : CmSetup solvers pairs mv mc window T tm x) (hx : ∀ i, ∃ s < mv, x s i ≠ 0) (label : XR × XR → L) (lamda : ℝ)
    (hfin : FiniteCmExperts label pairs mv mc x T)
    (hpd : ∀ s, mv + mc - 2 ≤ s → s < T → ∀ i, (cmExpert label pairs mv mc lamda x s i).PosDef) {d0 : ℝ} (hd0 : 0 < d0) :
    ∃ d, 0 < d ∧ ∀ x' : ℕ → Vec n, (∀ t < T, ∀ i, |x' t i - x t i| ≤ d) →
      (∃ s < mv, x' s ≠ 0) ∧ FiniteCmExperts label pairs mv mc x' T ∧ (cmPanel label pairs mv mc lamda tm x' T).Ok ∧
      (cmPanel label pairs mv mc lamda tm x T).CloseBy d0 (cmPanel label pairs mv mc lamda tm x' T) := by
  obtain ⟨p0, ps, hps⟩ := h.cons
  by_contra hcon
  push Not at hcon
  choose X hXc hbad using fun m : ℕ => hcon (1 / ((m : ℝ) + 1)) Nat.one_div_pos_of_nat
  have hX : ∀ t < T, ∀ i, Tendsto (fun m => X m t i) atTop (nhds (x t i)) := fun t ht i => lim_of_close fun m => hXc m t ht i
  have hrows := h.rows
  have hmc := h.cov
  have hpos : ∀ i, 0 < (expertPair label pairs i).1 ∧ 0 < (expertPair label pairs i).2 := by
    intro i
    exact h.halflives _ (expertPair_mem label i)
  have hone := fun (i : Fin (nExperts label pairs)) (s : ℕ) (h1 : mv + mc - 2 ≤ s) (h2 : s < T) =>
    expert_lim h.assets h.vola h.cov (hpos i) hx (X := X) (fun t ht => hX t (by omega)) h1 (hfin i s h1 h2)
  have hexp : ∀ s, mv + mc - 2 ≤ s → s < T → ∀ i, Tendsto (fun m => cmExpert label pairs mv mc lamda (X m) s i) atTop
      (nhds (cmExpert label pairs mv mc lamda x s i)) := by
    intro s h1 h2 i
    have h3 := (hone i s h1 h2).2
    unfold cmExpert
    dsimp only
    split
    · rw [tendsto_matrix_iff] at h3 ⊢
      intro j k
      simp only [Matrix.of_apply]
      split
      · exact (h3 j k).const_mul _
      · exact h3 j k
    · exact h3
  have e1 : ∀ᶠ m in atTop, ∃ s < mv, X m s ≠ 0 := by
    obtain ⟨s, hs, hne⟩ := h.awake
    obtain ⟨i, hi⟩ := Function.ne_iff.1 hne
    exact ((hX s (by omega) i).eventually_ne hi).mono fun m hm => ⟨s, hs, fun h0 => hm (by rw [h0])⟩
  have e2 : ∀ᶠ m in atTop, ∀ s ∈ Finset.range T, mv + mc - 2 ≤ s → ∀ i : Fin (nExperts label pairs),
      allFinite (itemAt (cmArgs mv mc (expertPair label pairs i)) (s + 1) (fun t : ℕ => t) (X m) (s + 1 - mv)).covariance.get ∧
      (cmExpert label pairs mv mc lamda (X m) s i).PosDef ∧
      ∀ j k, |cmExpert label pairs mv mc lamda (X m) s i j k - cmExpert label pairs mv mc lamda x s i j k| < d0 := by
    rw [Filter.eventually_all_finset]
    intro s hs
    rw [Finset.mem_range] at hs
    by_cases h1 : mv + mc - 2 ≤ s
    · refine (eventually_all.2 fun i => (hone i s h1 hs).1.and ((posDef_eventually (fun m => cmExpert_symm _ _ _ _ _ _ _ _) (hexp s h1 hs i)
        (hpd s h1 hs i)).and (eventually_all.2 fun j => eventually_all.2 fun k => ?_))).mono fun m hm _ => hm
      exact (Metric.tendsto_nhds.1 (tendsto_matrix_iff.1 (hexp s h1 hs i) j k) d0 hd0).mono fun m hm => by rwa [Real.dist_eq] at hm
    · exact .of_forall fun m h2 => absurd h2 h1
  have e3 : ∀ᶠ m : ℕ in atTop, 1 / ((m : ℝ) + 1) < d0 := tendsto_one_div_add_atTop_nhds_zero_nat.eventually (gt_mem_nhds hd0)
  obtain ⟨m, h1, h2, h3⟩ := (e1.and (e2.and e3)).exists
  refine hbad m h1 (fun i s hs1 hs2 => (h2 s (Finset.mem_range.2 hs2) hs1 i).1) ⟨fun s t hst ht => h.labels _ _ (by omega) ?_, fun t ht i => ?_⟩ ?_
  · simp only [cmPanel] at ht; omega
  · simp only [cmPanel] at ht
    exact (h2 _ (Finset.mem_range.2 (by omega)) (by omega) i).2.1
  · refine ⟨rfl, fun t _ => rfl, fun t ht i j k => ?_, fun t ht k i => ?_, fun t ht _ i => ?_⟩
    · simp only [cmPanel] at ht
      exact ((h2 (mv + mc - 2 + t) (Finset.mem_range.2 (by omega)) (by omega) i).2.2 j k).le
    · simp only [cmPanel, sub_self, abs_zero]; exact hd0.le
    · simp only [cmPanel] at ht
      exact (hXc m _ (by omega) i).trans h3.le

/-- the combination of nearby experts completes, too, with nearby results -/
private theorem completes_close {K : ℕ} {P : Panel τ n K} {W : ℕ} {solver : Solver n K} (hK : 0 < K) (hc : P.Completes solver W)
    (hs : solver.Exact) {e : ℝ} (he : 0 < e) :
    ∃ d, 0 < d ∧ ∀ Q : Panel τ n K, Q.Ok → P.CloseBy d Q → ∀ solver' : Solver n K, solver'.Exact → solver'.Complete →
      Q.Completes solver' W ∧ ∀ t, W ≤ t → t < P.len → ∀ i j,
        |blendCov (Q.cov t) (Q.weightsAt solver' W W t) i j - blendCov (P.cov t) (P.weightsAt solver W W t) i j| < e := by
  obtain ⟨d, hd, hpos⟩ := positions_close hc.ok hK W he
  refine ⟨d, hd, fun Q hQ hcl solver' hs' hcm' => ?_⟩
  have hgram : ∀ t, W ≤ t → t < P.len → (Q.gram W t).PosDef := fun t h1 h2 => (hpos Q hQ hcl t h2 h1 (hc.gram t h1 h2)).1
  have hlen := hcl.len
  have hc' : Q.Completes solver' W := ⟨hQ, fun t h4 h5 => hgram t h4 (by omega), fun t h4 h5 =>
    ⟨_, outcome_complete hQ hK h4 h4 h5 (hgram t h4 (by omega)) hs' hcm'⟩⟩
  refine ⟨hc', fun t h1 h2 i j => ?_⟩
  have h2' : t < Q.len := by omega
  obtain ⟨w, hw⟩ := hc.solved t h1 h2
  obtain ⟨w', hw'⟩ := hc'.solved t h1 h2'
  have e1 : P.weightsAt solver W W t = P.best W t := by
    unfold Panel.weightsAt; rw [hw]
    exact outcome_exact hc.ok hK h1 h1 h2 (hc.gram t h1 h2) hs hw
  have e2 : Q.weightsAt solver' W W t = Q.best W t := by
    unfold Panel.weightsAt; rw [hw']
    exact outcome_exact hQ hK h1 h1 h2' (hgram t h1 h2) hs' hw'
  have hb := best_optimal hQ hK h1 h2' (hgram t h1 h2)
  rw [e1, e2]
  exact ((hpos Q hQ hcl t h2 h1 (hc.gram t h1 h2)).2 _ hb.1 fun w'' hw'' => (hb.2 w'' hw'').trans (by linarith)).covariance i j

/-- **C203.** The predictions depend continuously on the returns. -/
theorem C203_predictions (label : XR × XR → L) (h : CmSetup solvers pairs mv mc window T tm x) (hs : ∀ K, (solvers K).Exact)
    (hx : ∀ i, ∃ s < mv, x s i ≠ 0) (lamda : ℝ) {D : Dict τ (Mat n)}
    (hD : cmIewma label solvers (pairs.map xr) (rowDict T tm x) mv mc lamda window = .ok D) (e : ℝ) (he : 0 < e) :
    ∃ d, 0 < d ∧ ∀ x' : ℕ → Vec n, (∀ t < T, ∀ i, |x' t i - x t i| ≤ d) → ∀ solvers' : Solvers n,
      (∀ K, (solvers' K).Exact ∧ (solvers' K).Complete) → CmSetup solvers' pairs mv mc window T tm x' ∧
      ∃ D', cmIewma label solvers' (pairs.map xr) (rowDict T tm x') mv mc lamda window = .ok D' ∧
        List.Forall₂ (fun p q => q.1 = p.1 ∧ ∀ i j, |q.2 i j - p.2 i j| < e) D D' := by
  obtain ⟨p0, ps, hps⟩ := h.cons
  have hK : 0 < nExperts label pairs := by rw [hps]; exact expertPairs_pos label p0 ps
  obtain ⟨hfin, hc, rfl⟩ := (cmIewma_ok_iff label h lamda D).mp hD
  have hpd : ∀ s, mv + mc - 2 ≤ s → s < T → ∀ i, (cmExpert label pairs mv mc lamda x s i).PosDef := fun s hs1 hs2 i => by
    have := hc.ok.posDef (s - (mv + mc - 2)) (by show _ < T - (mv + mc - 2); omega) i
    change (cmExpert label pairs mv mc lamda x (mv + mc - 2 + (s - (mv + mc - 2))) i).PosDef at this
    rwa [show mv + mc - 2 + (s - (mv + mc - 2)) = s by omega] at this
  obtain ⟨d0, hd0, hpos⟩ := completes_close hK hc (hs _) he
  obtain ⟨d, hd, hclose⟩ := cm_close h hx label lamda hfin hpd hd0
  refine ⟨d, hd, fun x' hx' solvers' hs' => ?_⟩
  obtain ⟨haw, hfin', hok', hcl⟩ := hclose x' hx'
  have h' : CmSetup solvers' pairs mv mc window T tm x' :=
    { h with
      feasible := fun K => (hs' K).1.feasible
      awake := haw }
  obtain ⟨hc', hnear⟩ := hpos _ hok' hcl (solvers' _) (hs' _).1 (hs' _).2
  refine ⟨h', _, (cmIewma_ok_iff label h' lamda _).mpr ⟨hfin', hc', rfl⟩, ?_⟩
  rw [List.forall₂_map_left_iff, List.forall₂_map_right_iff]
  refine List.forall₂_same.2 fun s hsm => ⟨rfl, fun i j => ?_⟩
  rw [List.mem_range'_1] at hsm
  have hlt : s - (mv + mc - 2) < (cmPanel label pairs mv mc lamda tm x T).len := by show _ < T - (mv + mc - 2); omega
  have hcov : ∀ y : ℕ → Vec n, (cmPanel label pairs mv mc lamda tm y T).cov (s - (mv + mc - 2)) = cmExpert label pairs mv mc lamda y s := fun y => by
    show cmExpert label pairs mv mc lamda y (mv + mc - 2 + (s - (mv + mc - 2))) = _
    rw [show mv + mc - 2 + (s - (mv + mc - 2)) = s by omega]
  have := hnear _ (by omega) hlt i j
  rw [hcov, hcov] at this
  exact this

private theorem lower_fin {N : ℕ} (f : Fin N → ℝ) (hf : ∀ k, 0 < f k) : ∃ m, 0 < m ∧ ∀ k, m ≤ f k := by
  rcases Nat.eq_zero_or_pos N with rfl | hN
  · exact ⟨1, one_pos, fun k => k.elim0⟩
  · have : Nonempty (Fin N) := ⟨⟨0, hN⟩⟩
    obtain ⟨k, hk⟩ := Finite.exists_min f
    exact ⟨f k, hf k, hk⟩

/-- the covariance a portfolio of a day is made of, found in the predictions for the whole table -/
private theorem day_of_fit (h : CmSetup solvers pairs mv mc window T tm x) {D : Dict τ (Mat n)}
    (hD : cmIewma label solvers (pairs.map xr) (rowDict T tm x) mv mc lamda window = .ok D) {t : ℕ} (ht : mv + mc - 2 + window ≤ t)
    (htT : t < T) {S : Mat n}
    (hS : ∃ D', cmIewma label solvers (pairs.map xr) (rowDict (t + 1) tm x) mv mc lamda window = .ok D' ∧ D'.lookup (tm t) = some S) :
    D.lookup (tm t) = some S := by
  obtain ⟨D', S', h1, h2, h3, _⟩ := cm_upTo h hD ht htT
  obtain ⟨D'', g1, g2⟩ := hS
  rw [h1] at g1
  cases g1
  rw [h2] at g2
  rw [h3, g2]

private theorem lookup_close {D D' : Dict τ (Mat n)} {e : ℝ} (h : List.Forall₂ (fun p q => q.1 = p.1 ∧ ∀ i j, |q.2 i j - p.2 i j| < e) D D')
    {t : τ} {S S' : Mat n} (hS : D.lookup t = some S) (hS' : D'.lookup t = some S') : ∀ i j, |S' i j - S i j| < e := by
  induction h with
  | nil => cases hS
  | @cons p q D D' hpq _ ih =>
    rw [List.lookup_cons] at hS hS'
    rw [hpq.1] at hS'
    split at hS
    · next he =>
      rw [he] at hS'
      cases hS
      cases hS'
      exact hpq.2
    · next he =>
      rw [he] at hS'
      exact ih hS hS'

/-- the weights of a day are determined by the list of weights -/
private theorem weights_inj {l : List ℕ} {w w' : ℕ → Vec n} (h : l.map (fun t => List.ofFn (w t)) = l.map fun t => List.ofFn (w' t)) :
    ∀ t ∈ l, w t = w' t := fun t ht => List.ofFn_injective (List.map_inj_left.1 h t ht)

private theorem return_close {w w' r r' : Vec n} {e d B : ℝ} (hw : ∀ i, |w' i - w i| ≤ e) (hr : ∀ i, |r' i - r i| ≤ d)
    (hB : ∀ i, |w i| ≤ B ∧ |r i| ≤ B) (he : 0 ≤ e) (hd : 0 ≤ d) : |w' ⬝ᵥ r' - w ⬝ᵥ r| ≤ n * (e * B + e * d + B * d) := by
  have e1 : w' ⬝ᵥ r' - w ⬝ᵥ r = ∑ i, ((w' i - w i) * r i + (w' i - w i) * (r' i - r i) + w i * (r' i - r i)) := by
    unfold dotProduct
    rw [← Finset.sum_sub_distrib]
    exact Finset.sum_congr rfl fun i _ => by ring
  rw [e1]
  refine (Finset.abs_sum_le_sum_abs _ _).trans ?_
  calc ∑ i, |(w' i - w i) * r i + (w' i - w i) * (r' i - r i) + w i * (r' i - r i)| ≤ ∑ _i : Fin n, (e * B + e * d + B * d) :=
        Finset.sum_le_sum fun i _ => by
          refine (abs_add_le _ _).trans (add_le_add ((abs_add_le _ _).trans (add_le_add ?_ ?_)) ?_)
          · rw [abs_mul]; exact mul_le_mul (hw i) (hB i).2 (abs_nonneg _) he
          · rw [abs_mul]; exact mul_le_mul (hw i) (hr i) (abs_nonneg _) he
          · rw [abs_mul]; exact mul_le_mul (hB i).1 (hr i) (abs_nonneg _) ((abs_nonneg _).trans (hB i).1)
    _ = n * (e * B + e * d + B * d) := by rw [Finset.sum_const, Finset.card_univ, Fintype.card_fin, nsmul_eq_mul]

/-- **C203.** From returns to portfolio weights, a small revision of the returns has a small effect. Let every asset have a return other than 0
among the first `min_periods_vola` rows, and let the fit and a backtest of `EqWeighted`, `MinRisk`, `MaxDiverse` or `RiskParity` on its
predictions go through. For every `e > 0` there is `d > 0` such that for every table whose returns are within `d` of the given ones (and any
solvers that find the optimum) the run goes through, too, trades on the same days, holds weights within `e` on every day in every asset, and earns
within `e` of the given returns on every day. -/
theorem C203_portfolio (h : CmSetup solvers pairs mv mc window T tm x) (ha : mv + mc - 2 + window ≤ a) (hab : a < b) (hb : b < T)
    (hs : ∀ K, (solvers K).Exact) (hx : ∀ i, ∃ s < mv, x s i ≠ 0) {cvx : Cvx n} (hcvx : cvx.Exact) (hsol : cvx.Solves)
    {st : Strategy τ n} (hst : st.RiskOnly) {name : String} {tr : DatedTrader τ n}
    (htr : cmPortfolio label solvers cvx (pairs.map xr) (rowDict T tm x) (tm a) (tm b) st name mv mc lamda window = .ok tr)
    (e : ℝ) (he : 0 < e) :
    ∃ d, 0 < d ∧ ∀ x' : ℕ → Vec n, (∀ t < T, ∀ i, |x' t i - x t i| ≤ d) → ∀ (solvers' : Solvers n) (cvx' : Cvx n),
      (∀ K, (solvers' K).Exact ∧ (solvers' K).Complete) → cvx'.Exact → cvx'.Solves →
      ∃ tr', cmPortfolio label solvers' cvx' (pairs.map xr) (rowDict T tm x') (tm a) (tm b) st name mv mc lamda window = .ok tr' ∧
        tr'.dates = tr.dates ∧
        (∃ w w' : ℕ → Vec n, tr.trader.ws = (List.range' a (b - a)).map (fun t => List.ofFn (w t)) ∧
          tr'.trader.ws = (List.range' a (b - a)).map (fun t => List.ofFn (w' t)) ∧ ∀ t, a ≤ t → t < b → ∀ i, |w' t i - w t i| < e) ∧
        ∀ y rf, ∃ s s', tr.trader.getTotalReturns false y rf = .ok s ∧ tr'.trader.getTotalReturns false y rf = .ok s' ∧
          List.Forall₂ (fun r r' => |r' - r| < e) s.rets s'.rets := by
  obtain ⟨D, _, hD, _⟩ := (cmPortfolio_ok_iff h ha hab hb cvx st name tr).1 htr
  have hroom : st.Room := (cm_runs_iff h ha hab hb hD hcvx hsol hst name).1 ⟨tr, htr⟩
  obtain ⟨S, w, h1, _, h2, _, h3⟩ := C164_portfolio h ha hab hb hcvx hst htr none none
  -- a bound for weights and returns
  obtain ⟨B, hB0, hB⟩ : ∃ B : ℝ, 0 < B ∧ ∀ t < T, ∀ i, |w t i| ≤ B ∧ |x (t + 1) i| ≤ B := by
    refine ⟨1 + ∑ t ∈ Finset.range T, ∑ i, (|w t i| + |x (t + 1) i|), ?_, fun t ht i => ?_⟩
    · have : 0 ≤ ∑ t ∈ Finset.range T, ∑ i, (|w t i| + |x (t + 1) i|) := Finset.sum_nonneg fun t _ => Finset.sum_nonneg fun i _ => by positivity
      linarith
    · have g1 : |w t i| + |x (t + 1) i| ≤ ∑ i, (|w t i| + |x (t + 1) i|) :=
        Finset.single_le_sum (f := fun i => |w t i| + |x (t + 1) i|) (fun i _ => by positivity) (Finset.mem_univ i)
      have g2 : ∑ i, (|w t i| + |x (t + 1) i|) ≤ ∑ t ∈ Finset.range T, ∑ i, (|w t i| + |x (t + 1) i|) :=
        Finset.single_le_sum (f := fun t => ∑ i, (|w t i| + |x (t + 1) i|)) (fun t _ => Finset.sum_nonneg fun i _ => by positivity)
          (Finset.mem_range.2 ht)
      have g3 := abs_nonneg (w t i)
      have g4 := abs_nonneg (x (t + 1) i)
      exact ⟨by linarith, by linarith⟩
  -- tolerances
  set e1 := min (min e 1) (e / (4 * (n + 1) * (B + 1))) with he1
  have he1p : 0 < e1 := lt_min (lt_min he one_pos) (by positivity)
  have hday : ∀ k : Fin (b - a), ∃ η, 0 < η ∧ ∀ S' : Mat n, S'.PosDef → (∀ i j, |S' i j - S (a + k) i j| ≤ η) →
      ∀ w', st.Chooses S' w' → ∀ i, |w' i - w (a + k) i| < e1 := fun k => by
    obtain ⟨g1, g2, _⟩ := h3 (a + k) (by omega) (by omega)
    exact chooses_near h.assets g1 g2 he1p
  choose η hη0 hη using hday
  obtain ⟨m, hm, hmη⟩ := lower_fin η hη0
  obtain ⟨d, hd, hpred⟩ := C203_predictions label h hs hx lamda hD m hm
  refine ⟨min d e1, lt_min hd he1p, fun x' hx' solvers' cvx' hs' hcvx' hsol' => ?_⟩
  obtain ⟨h', D', hD', hnear⟩ := hpred x' (fun t ht i => (hx' t ht i).trans (min_le_left _ _)) solvers' hs'
  obtain ⟨tr', htr'⟩ := (cm_runs_iff h' ha hab hb hD' hcvx' hsol' hst name).2 hroom
  obtain ⟨S', w', h1', _, h2', _, h3'⟩ := C164_portfolio h' ha hab hb hcvx' hst htr' none none
  have hww : ∀ t, a ≤ t → t < b → ∀ i, |w' t i - w t i| < e1 := fun t ht1 ht2 => by
    obtain ⟨_, _, g3⟩ := h3 t ht1 ht2
    obtain ⟨f1, f2, f3⟩ := h3' t ht1 ht2
    have hc := lookup_close hnear (day_of_fit h hD (by omega) (by omega) g3) (day_of_fit h' hD' (by omega) (by omega) f3)
    have := hη ⟨t - a, by omega⟩ (S' t) f1
    simp only [show a + (t - a) = t by omega] at this
    exact this (fun i j => (hc i j).le.trans (hmη _)) (w' t) f2
  refine ⟨tr', htr', by rw [h1, h1'], ⟨w, w', h2, h2', fun t ht1 ht2 i => (hww t ht1 ht2 i).trans_le ((min_le_left _ _).trans (min_le_left _ _))⟩,
    fun y rf => ?_⟩
  obtain ⟨_, v, _, _, k2, ⟨s, k3, k4⟩, _⟩ := C164_portfolio h ha hab hb hcvx hst htr y rf
  obtain ⟨_, v', _, _, k2', ⟨s', k3', k4'⟩, _⟩ := C164_portfolio h' ha hab hb hcvx' hst htr' y rf
  refine ⟨s, s', k3, k3', ?_⟩
  rw [k4, k4', List.forall₂_map_left_iff, List.forall₂_map_right_iff]
  refine List.forall₂_same.2 fun t ht => ?_
  rw [weights_inj (k2.symm.trans h2) t ht, weights_inj (k2'.symm.trans h2') t ht]
  rw [List.mem_range'_1] at ht
  have hle := return_close (w := w t) (w' := w' t) (r := x (t + 1)) (r' := x' (t + 1)) (e := e1) (d := e1) (B := B)
    (fun i => (hww t ht.1 (by omega) i).le) (fun i => (hx' (t + 1) (by omega) i).trans (min_le_right _ _)) (hB t (by omega)) he1p.le he1p.le
  have q1 : e1 * (4 * (n + 1) * (B + 1)) ≤ e := by
    rw [← le_div_iff₀ (by positivity)]; exact min_le_right _ _
  have q2 : e1 ≤ 1 := (min_le_left _ _).trans (min_le_right _ _)
  have hn0 : (0 : ℝ) ≤ n := Nat.cast_nonneg n
  have q3 : e1 * B + e1 * e1 + B * e1 ≤ 2 * (e1 * (B + 1)) := by
    have := mul_le_mul_of_nonneg_left q2 he1p.le
    linarith
  have q4 : (n : ℝ) * (e1 * B + e1 * e1 + B * e1) ≤ n * (2 * (e1 * (B + 1))) := mul_le_mul_of_nonneg_left q3 hn0
  have q5 : 0 < e1 * (B + 1) := by positivity
  have q6 : 0 ≤ n * (e1 * (B + 1)) := by positivity
  have q7 : e1 * (4 * (n + 1) * (B + 1)) = 4 * (n * (e1 * (B + 1))) + 4 * (e1 * (B + 1)) := by ring
  linarith

/-! ### A concrete case: one asset, 150 rows, the arguments of the notebook -/

namespace PipelineContinuityEx

/-- The hypotheses are met: risk parity on CM-IEWMA, 14 trading days. -/
example : ∃ tr, cmPortfolio CmEx.label CmEx.solvers (exactCvx 1) (CmEx.pairs.map xr) (rowDict 150 (id : ℕ → ℕ) CmEx.x) (id 134) (id 148)
    .riskParity "CM-IEWMA" 63 63 0.05 10 = .ok tr ∧
    ∃ d, 0 < d ∧ ∀ x' : ℕ → Vec 1, (∀ t < 150, ∀ i, |x' t i - CmEx.x t i| ≤ d) →
      ∃ tr', cmPortfolio CmEx.label CmEx.solvers (exactCvx 1) (CmEx.pairs.map xr) (rowDict 150 (id : ℕ → ℕ) x') (id 134) (id 148)
        .riskParity "CM-IEWMA" 63 63 0.05 10 = .ok tr' ∧ tr'.dates = List.range' 134 14 ∧
      ∃ s s', tr.trader.getTotalReturns false none none = .ok s ∧ tr'.trader.getTotalReturns false none none = .ok s' ∧
        List.Forall₂ (fun r r' => |r' - r| < 1 / 10 ^ 6) s.rets s'.rets := by
  obtain ⟨tr, htr⟩ := PipelineEx.goes
  have hset := CmEx.setup (mv := 63) (mc := 63) (window := 10) (T := 150) (by norm_num) (by norm_num) (by norm_num) (by norm_num)
  have hs : ∀ K, (CmEx.solvers K).Exact ∧ (CmEx.solvers K).Complete := fun K => ⟨exactSolver_exact, exactSolver_complete⟩
  obtain ⟨d, hd, hall⟩ := C203_portfolio hset (by norm_num) (by norm_num) (by norm_num) (fun K => (hs K).1)
    (fun i => ⟨0, by norm_num, by have : i = 0 := Subsingleton.elim _ _; subst this; exact CmEx.x_ne 0⟩) (exactCvx_exact 1) (exactCvx_solves 1)
    (st := .riskParity) trivial htr (1 / 10 ^ 6) (by norm_num)
  obtain ⟨_, _, hdates, _⟩ := C164_portfolio hset (by norm_num) (by norm_num) (by norm_num) (exactCvx_exact 1) (st := .riskParity) trivial htr none none
  refine ⟨tr, htr, d, hd, fun x' hx' => ?_⟩
  obtain ⟨tr', h1, h2, _, h3⟩ := hall x' hx' CmEx.solvers (exactCvx 1) hs (exactCvx_exact 1) (exactCvx_solves 1)
  exact ⟨tr', h1, by rw [h2, hdates]; simp, h3 none none⟩

end PipelineContinuityEx

end CovPred
