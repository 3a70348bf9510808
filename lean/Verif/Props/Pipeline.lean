import Verif.Spec.Pipeline
import Verif.Props.Experiment
import Verif.Props.CmIewma
import Verif.Props.Backtests3

/-
Properties C164 and C165: from returns to a portfolio.
-/
namespace CovPred
open Matrix
set_option linter.unusedSectionVars false

variable {τ : Type} [LinearOrder τ] {n : ℕ} {L : Type} [DecidableEq L] {label : XR × XR → L}
variable {solvers : Solvers n} {pairs : List (ℝ × ℝ)} {mv mc window T : ℕ} {tm : ℕ → τ} {x : ℕ → Vec n} {lamda : ℝ} {a b : ℕ}

/-- the table as one that could have missing entries -/
theorem rowDict_some (T : ℕ) (tm : ℕ → τ) (x : ℕ → Vec n) :
    ((rowDict T tm x).map fun p => (p.1, fun i => some (p.2 i))) = rowDict T tm fun t i => some (x t i) := by
  unfold rowDict
  rw [List.map_map]
  rfl

theorem days_complete (x : ℕ → Vec n) (a b : ℕ) : tradingDays (fun t i => some (x t i)) a b = List.range' a (b - a) :=
  (C106_days _ a b).2.2 fun _ _ _ _ => rfl

theorem cmWindow_room (ha : mv + mc - 2 + window ≤ a) (haT : a < T) : cmWindow mv mc window T = window := by
  unfold cmWindow
  omega

/-- the prediction of a day -/
theorem cm_day (h : CmSetup solvers pairs mv mc window T tm x) {D : Dict τ (Mat n)}
    (hD : cmIewma label solvers (pairs.map xr) (rowDict T tm x) mv mc lamda window = .ok D) {s : ℕ} (hs : mv + mc - 2 + window ≤ s)
    (hsT : s < T) : ∃ S, D.lookup (tm s) = some S ∧ S.PosDef := by
  have hw := cmWindow_room hs hsT
  obtain ⟨S, h1, h2, _⟩ := C150_prediction label h lamda hD (s := s) (by rw [hw]; exact hs) hsT
  exact ⟨S, h1, h2⟩

theorem cm_symm (h : CmSetup solvers pairs mv mc window T tm x) {D : Dict τ (Mat n)}
    (hD : cmIewma label solvers (pairs.map xr) (rowDict T tm x) mv mc lamda window = .ok D) {t : τ} {S : Mat n}
    (hS : D.lookup t = some S) : S.PosDef := by
  have hk := C150_days label h lamda hD
  have hm : t ∈ D.map Prod.fst := List.mem_map.2 ⟨_, mem_of_lookup_some hS, rfl⟩
  rw [hk] at hm
  obtain ⟨s, hs, rfl⟩ := List.mem_map.1 hm
  rw [List.mem_range'_1] at hs
  obtain ⟨S', h1, h2, _⟩ := C150_prediction label h lamda hD (s := s) hs.1 (by omega)
  rw [hS] at h1
  cases h1
  exact h2

theorem cm_allSymmetric (h : CmSetup solvers pairs mv mc window T tm x) {D : Dict τ (Mat n)}
    (hD : cmIewma label solvers (pairs.map xr) (rowDict T tm x) mv mc lamda window = .ok D) :
    AllSymmetric [betweenDates (tm a) (tm b) D] := by
  intro c hc t S hS i j
  rw [List.mem_singleton] at hc
  subst hc
  have hm := mem_of_lookup_some hS
  unfold betweenDates at hm
  rw [List.mem_filter] at hm
  have : tm a ≤ t ∧ t ≤ tm b := by simpa using hm.2
  rw [lookup_between _ _ _ this.1 this.2] at hS
  have := (cm_symm h hD hS).isHermitian
  have := congrFun (congrFun this j) i
  simpa using this

/-- the object made of the prediction -/
theorem cm_init (h : CmSetup solvers pairs mv mc window T tm x) {D : Dict τ (Mat n)}
    (hD : cmIewma label solvers (pairs.map xr) (rowDict T tm x) mv mc lamda window = .ok D) (ha : mv + mc - 2 + window ≤ a)
    (hab : a < b) (hb : b < T) (name : String) :
    backtestInit (rowDict T tm fun t i => some (x t i)) [betweenDates (tm a) (tm b) D] [name] none (some (tm a)) (some (tm b))
      = .ok ⟨rowDict T tm fun t i => some (x t i), [betweenDates (tm a) (tm b) D], [name], none, tm a, tm b⟩ := by
  have hle := (h.labels a b hab hb).le
  have hkey : ∀ s, mv + mc - 2 + window ≤ s → s < T → tm a ≤ tm s → tm s ≤ tm b →
      tm s ∈ (betweenDates (tm a) (tm b) D).map Prod.fst := by
    intro s h1 h2 h3 h4
    obtain ⟨S, h5, _⟩ := cm_day h hD h1 h2
    rw [← lookup_between _ _ D h3 h4] at h5
    exact List.mem_map.2 ⟨_, mem_of_lookup_some h5, rfl⟩
  refine (C107_constructor _ _ _ _ _ _ _).2 ⟨?_, _, rfl, (fun ms h => by cases h), ?_, ?_, .inl rfl, .inl rfl, rfl, rfl, rfl, rfl⟩
  · intro c hc t ht
    rw [List.mem_singleton] at hc
    subst hc
    obtain ⟨p, hp, rfl⟩ := List.mem_map.1 ht
    unfold betweenDates at hp
    have hp' : p.1 ∈ D.map Prod.fst := List.mem_map.2 ⟨p, (List.mem_filter.1 hp).1, rfl⟩
    rw [C150_days label h lamda hD] at hp'
    obtain ⟨s, hs, he⟩ := List.mem_map.1 hp'
    rw [List.mem_range'_1] at hs
    rw [← he]
    refine List.mem_map.2 ⟨(tm s, fun i => some (x s i)), ?_, rfl⟩
    exact List.mem_map.2 ⟨s, List.mem_range.2 (by omega), rfl⟩
  · intro t ht
    cases ht
    exact hkey a ha (by omega) le_rfl hle
  · intro t ht
    cases ht
    exact hkey b (by omega) hb hle le_rfl

theorem cm_backtests (h : CmSetup solvers pairs mv mc window T tm x) (D : Dict τ (Mat n)) (hab : a < b) (hb : b < T) (name : String) :
    Backtests ⟨rowDict T tm fun t i => some (x t i), [betweenDates (tm a) (tm b) D], [name], none, tm a, tm b⟩ T tm
      (fun t i => some (x t i)) a b :=
  ⟨h.assets, fun s t hs ht he => distinct_of_increasing h.labels s t hs ht he, by omega, hb, rfl, rfl, rfl⟩

theorem lookup_mapVal {A B : Type} (d : Dict τ A) (g : A → B) (t : τ) :
    (d.map fun p => (p.1, g p.2)).lookup t = (d.lookup t).map g := by
  induction d with
  | nil => rfl
  | cons p d ih =>
    rw [List.map_cons, List.lookup_cons, List.lookup_cons]
    split
    · rfl
    · exact ih

/-- the diluted returns of the days `l` if cash earns nothing -/
theorem diluted_free (s : Trader n) (hd : s.diluted = false) (l : List ℕ) (hl : l ≠ []) (r w : ℕ → Vec n) (S : ℕ → Mat n)
    (hr : s.returns = l.map r) (hS : s.sigmas = l.map S) (hw : s.ws = l.map fun t => List.ofFn (w t)) (y : ℝ) :
    ∃ s', s.getTotalReturns true (some y) none = .ok s' ∧ s'.rets = l.map fun t => positionReturn y (S t) (w t) (r t) 0 := by
  have hrange : ∀ {B : Type} (f : ℕ → B), l.map f = (List.range l.length).map fun k => f (l.getD k 0) := by
    intro B f
    apply List.ext_getElem (by simp)
    intro i h1 h2
    simp only [List.length_map] at h1
    simp [List.getD_eq_getElem?_getD, h1]
  rw [hrange] at hr hS hw
  obtain ⟨s', h1, h2⟩ := C53_diluted_returns s hd l.length (List.length_pos_iff.2 hl) (fun k => r (l.getD k 0))
    (fun k => w (l.getD k 0)) (fun k => S (l.getD k 0)) hr hS hw y none []
  refine ⟨s', h1, ?_⟩
  rw [h2, hrange]
  rfl

/-- the steps of a run that goes through -/
theorem cmPortfolio_ok_iff (h : CmSetup solvers pairs mv mc window T tm x) (ha : mv + mc - 2 + window ≤ a) (hab : a < b) (hb : b < T)
    (cvx : Cvx n) (st : Strategy τ n) (name : String) (tr : DatedTrader τ n) :
    cmPortfolio label solvers cvx (pairs.map xr) (rowDict T tm x) (tm a) (tm b) st name mv mc lamda window = .ok tr ↔
      ∃ D d, cmIewma label solvers (pairs.map xr) (rowDict T tm x) mv mc lamda window = .ok D ∧
        (⟨rowDict T tm fun t i => some (x t i), [betweenDates (tm a) (tm b) D], [name], none, tm a, tm b⟩ : Backtest τ n).run cvx st
          = .ok d ∧ d.lookup name = some tr := by
  unfold cmPortfolio
  rw [bind_ok_iff _ _ _]
  constructor
  · rintro ⟨D, hD, h1⟩
    rw [rowDict_some, cm_init h hD ha hab hb, ok_bind, bind_ok_iff _ _ _] at h1
    obtain ⟨d, h2, h3⟩ := h1
    exact ⟨D, d, hD, h2, (getItem_ok_iff _ _ _).1 h3⟩
  · rintro ⟨D, d, hD, h2, h3⟩
    refine ⟨D, hD, ?_⟩
    rw [rowDict_some, cm_init h hD ha hab hb, ok_bind, h2, ok_bind]
    exact (getItem_ok_iff _ _ _).2 h3

/-- the only trader -/
theorem cm_only {bt : Backtest τ n} {c : Dict τ (Mat n)} (h1 : bt.covPredictors = [c]) {i : ℕ} {c' : Dict τ (Mat n)}
    (h : bt.covPredictors[i]? = some c') : c' = c := by
  rw [h1] at h
  cases i with
  | zero => simpa [eq_comm] using h
  | succ i => simp at h

theorem lookup_of_take {A : Type} {d : Dict τ A} {k : ℕ} {t : τ} {v : A} (h : (d.take k).lookup t = some v) : d.lookup t = some v := by
  rw [← List.take_append_drop k d, List.lookup_append, h]
  rfl

/-- the setup for the rows up to `t` -/
theorem CmSetup.upTo (h : CmSetup solvers pairs mv mc window T tm x) {t : ℕ} (ht : mv + mc - 2 + window ≤ t) (htT : t < T) :
    CmSetup solvers pairs mv mc window (t + 1) tm x where
  assets := h.assets
  labels := fun s u hsu hu => h.labels s u hsu (by omega)
  pairs_ne := h.pairs_ne
  halflives := h.halflives
  vola := h.vola
  cov := h.cov
  window_pos := h.window_pos
  feasible := h.feasible
  awake := h.awake
  rows := by have := h.window_pos; omega

/-- what is predicted for a row is what is predicted from the rows up to it -/
theorem cm_upTo (h : CmSetup solvers pairs mv mc window T tm x) {D : Dict τ (Mat n)}
    (hD : cmIewma label solvers (pairs.map xr) (rowDict T tm x) mv mc lamda window = .ok D) {t : ℕ} (ht : mv + mc - 2 + window ≤ t)
    (htT : t < T) :
    ∃ D' S, cmIewma label solvers (pairs.map xr) (rowDict (t + 1) tm x) mv mc lamda window = .ok D' ∧
      D'.lookup (tm t) = some S ∧ D.lookup (tm t) = some S ∧ S.PosDef := by
  have h' := h.upTo ht htT
  obtain ⟨D', h1, h2⟩ := C151_no_lookahead label h' lamda h (by omega) (fun _ _ => rfl) (by omega) hD
  obtain ⟨S, h3, h4⟩ := cm_day h' h1 ht (by omega)
  refine ⟨D', S, h1, h3, lookup_of_take (k := t + 1 - (mv + mc - 2 + window)) ?_, h4⟩
  rw [← h2]
  exact h3

/-- **C164.** From the returns to the portfolio: if the fit and a backtest of `EqWeighted`, `MinRisk`, `MaxDiverse` or
`RiskParity` on its predictions go through (start not before the first prediction), every row from the start to the one
before the end is a trading day `t`. `S t` is a positive definite matrix, the one that fitting on the rows up to and including `t`
alone gives; the weights `w t` are what the strategy is meant to hold if `S t` is the covariance; and the
return of the portfolio is that of these weights on the row after `t`. -/
theorem C164_portfolio (h : CmSetup solvers pairs mv mc window T tm x) (ha : mv + mc - 2 + window ≤ a) (hab : a < b) (hb : b < T)
    {cvx : Cvx n} (hx : cvx.Exact) {st : Strategy τ n} (hst : st.RiskOnly) {name : String} {tr : DatedTrader τ n}
    (htr : cmPortfolio label solvers cvx (pairs.map xr) (rowDict T tm x) (tm a) (tm b) st name mv mc lamda window = .ok tr)
    (y : Option ℝ) (rf : Option (List ℝ)) :
    ∃ (S : ℕ → Mat n) (w : ℕ → Vec n),
      tr.dates = (List.range' a (b - a)).map tm ∧
      tr.trader.sigmas = (List.range' a (b - a)).map S ∧
      tr.trader.ws = (List.range' a (b - a)).map (fun t => List.ofFn (w t)) ∧
      (∃ s, tr.trader.getTotalReturns false y rf = .ok s ∧ s.rets = (List.range' a (b - a)).map fun t => w t ⬝ᵥ x (t + 1)) ∧
      ∀ t, a ≤ t → t < b → (S t).PosDef ∧ st.Chooses (S t) (w t) ∧
        ∃ D, cmIewma label solvers (pairs.map xr) (rowDict (t + 1) tm x) mv mc lamda window = .ok D ∧ D.lookup (tm t) = some (S t) := by
  obtain ⟨D, d, hD, hd, hl⟩ := (cmPortfolio_ok_iff h ha hab hb cvx st name tr).1 htr
  have hbt := cm_backtests h D hab hb name
  have hm : (name, tr) ∈ d := mem_of_lookup_str hl
  have hdays := days_complete x a b
  have hday : ∀ t, ∃ S, a ≤ t → t < b → D.lookup (tm t) = some S ∧ S.PosDef ∧
      (betweenDates (tm a) (tm b) D).lookup (tm t) = some S ∧
      ∃ D', cmIewma label solvers (pairs.map xr) (rowDict (t + 1) tm x) mv mc lamda window = .ok D' ∧ D'.lookup (tm t) = some S := by
    intro t
    by_cases ht : a ≤ t ∧ t < b
    · obtain ⟨D', S, h1, h2, h3, h4⟩ := cm_upTo h hD (t := t) (by omega) (by omega)
      refine ⟨S, fun _ _ => ⟨h3, h4, ?_, D', h1, h2⟩⟩
      rw [lookup_between _ _ _ ?_ (h.labels t b ht.2 hb).le]
      · exact h3
      · rcases Nat.eq_or_lt_of_le ht.1 with h5 | h5
        · rw [h5]
        · exact (h.labels a t h5 (by omega)).le
    · exact ⟨0, fun h1 h2 => absurd ⟨h1, h2⟩ ht⟩
  choose S hS using hday
  obtain ⟨p1, p2, i0, c0, p3, _, p4⟩ := C106_pairing hbt hd hm
  have hc0 := cm_only rfl p3
  subst hc0
  rw [hdays] at p1 p2 p4
  have hsig : tr.trader.sigmas = (List.range' a (b - a)).map S := by
    have : tr.trader.sigmas.map some = ((List.range' a (b - a)).map S).map some := by
      rw [p4, List.map_map]
      refine List.map_congr_left fun t ht => ?_
      rw [List.mem_range'_1] at ht
      exact (hS t ht.1 (by omega)).2.2.1
    exact List.map_injective_iff.2 (Option.some_injective _) this
  have main : ∃ w : ℕ → Vec n, tr.trader.ws = (List.range' a (b - a)).map (fun t => List.ofFn (w t)) ∧
      (∃ s, tr.trader.getTotalReturns false y rf = .ok s ∧ s.rets = (List.range' a (b - a)).map fun t => w t ⬝ᵥ x (t + 1)) ∧
      ∀ t, a ≤ t → t < b → st.Chooses (S t) (w t) := by
    cases st with
    | meanVariance _ _ _ => exact hst.elim
    | eqWeighted =>
      obtain ⟨_, q1, s, q2, q3⟩ := C108_equal_weights hbt hd hm y rf
      rw [hdays] at q1 q3
      refine ⟨fun _ _ => 1 / n, q1, ⟨s, q2, ?_⟩, fun t _ _ i => rfl⟩
      rw [q3]
      refine List.map_congr_left fun t _ => ?_
      rw [Finset.sum_div]
      refine Finset.sum_congr rfl fun i _ => ?_
      change x (t + 1) i / n = 1 / n * x (t + 1) i
      ring
    | minRisk cons =>
      obtain ⟨i, c, w, q1, _, q2, ⟨s, q3, q4⟩, q5⟩ := C109_min_risk hbt hx hd hm y rf
      have := cm_only rfl q1
      subst this
      rw [hdays] at q2 q4 q5
      refine ⟨w, q2, ⟨s, q3, q4⟩, fun t h1 h2 => ?_⟩
      obtain ⟨S', r1, r2, r3⟩ := q5 t (by rw [List.mem_range'_1]; omega)
      rw [(hS t h1 h2).2.2.1] at r1
      cases r1
      exact ⟨r2, r3 (posDef_symm (hS t h1 h2).2.1)⟩
    | maxDiverse cons =>
      cases hM : cons.upperBound with
      | none => exact absurd hd (C109_max_diverse_bound hbt cvx hM (by simp) d)
      | some M =>
        obtain ⟨i, c, w, q1, _, q2, ⟨s, q3, q4⟩, q5⟩ := C109_max_diverse hbt hx hM hd hm y rf
        have := cm_only rfl q1
        subst this
        rw [hdays] at q2 q4 q5
        refine ⟨w, q2, ⟨s, q3, q4⟩, fun t h1 h2 => ?_⟩
        obtain ⟨S', r1, r3⟩ := q5 t (by rw [List.mem_range'_1]; omega)
        rw [(hS t h1 h2).2.2.1] at r1
        cases r1
        exact ⟨M, hM, r3 (posDef_symm (hS t h1 h2).2.1)⟩
    | riskParity =>
      obtain ⟨i, c, w, q1, _, q2, ⟨s, q3, q4⟩, q5⟩ := C109_risk_parity hbt hx hd hm y rf
      have := cm_only rfl q1
      subst this
      rw [hdays] at q2 q4 q5
      refine ⟨w, q2, ⟨s, q3, q4⟩, fun t h1 h2 => ?_⟩
      obtain ⟨S', r1, r3⟩ := q5 t (by rw [List.mem_range'_1]; omega)
      rw [(hS t h1 h2).2.2.1] at r1
      cases r1
      exact r3 (posDef_symm (hS t h1 h2).2.1)
  obtain ⟨w, m1, m2, m3⟩ := main
  exact ⟨S, w, p1, hsig, m1, m2, fun t h1 h2 => ⟨(hS t h1 h2).2.1, m3 t h1 h2, (hS t h1 h2).2.2.2⟩⟩

/-- **C164.** No look-ahead from returns to weights: two tables (of any lengths, with any starts and ends of the backtest) that agree
up to and including row `t` give the same weights at `t`, for every strategy and any solvers. -/
theorem C164_no_lookahead {T' a' b' : ℕ} {x' : ℕ → Vec n} (h : CmSetup solvers pairs mv mc window T tm x)
    (h' : CmSetup solvers pairs mv mc window T' tm x') (ha : mv + mc - 2 + window ≤ a) (hab : a < b) (hb : b < T)
    (ha' : mv + mc - 2 + window ≤ a') (hab' : a' < b') (hb' : b' < T') {t : ℕ} (hat : a ≤ t) (htb : t < b) (hat' : a' ≤ t)
    (htb' : t < b') (hxx : ∀ u ≤ t, x u = x' u) {cvx : Cvx n} {st : Strategy τ n} {name : String} {tr tr' : DatedTrader τ n}
    (htr : cmPortfolio label solvers cvx (pairs.map xr) (rowDict T tm x) (tm a) (tm b) st name mv mc lamda window = .ok tr)
    (htr' : cmPortfolio label solvers cvx (pairs.map xr) (rowDict T' tm x') (tm a') (tm b') st name mv mc lamda window = .ok tr') :
    ∃ w, HoldsAt tr (tm t) w ∧ HoldsAt tr' (tm t) w := by
  obtain ⟨D, d, hD, hd, hl⟩ := (cmPortfolio_ok_iff h ha hab hb cvx st name tr).1 htr
  obtain ⟨D', d', hD', hd', hl'⟩ := (cmPortfolio_ok_iff h' ha' hab' hb' cvx st name tr').1 htr'
  have hbt := cm_backtests h D hab hb name
  have hbt' := cm_backtests h' D' hab' hb' name
  have hm : (name, tr) ∈ d := mem_of_lookup_str hl
  have hm' : (name, tr') ∈ d' := mem_of_lookup_str hl'
  have hholds : ∀ {T a b : ℕ} {x : ℕ → Vec n} {D : Dict τ (Mat n)} {d tr}, a ≤ t → t < b → b < T →
      Backtests ⟨rowDict T tm fun t i => some (x t i), [betweenDates (tm a) (tm b) D], [name], none, tm a, tm b⟩ T tm
        (fun t i => some (x t i)) a b →
      (⟨rowDict T tm fun t i => some (x t i), [betweenDates (tm a) (tm b) D], [name], none, tm a, tm b⟩ : Backtest τ n).run cvx st
          = .ok d → (name, tr) ∈ d → ∃ w, HoldsAt tr (tm t) w := by
    intro T a b x D d tr h1 h2 h3 hbt hd hm
    have p1 := (C106_pairing hbt hd hm).1
    obtain ⟨i, c, mus, _, _, _, _, _, _, _, S, L, mu, rho, W, hws, _, _⟩ := run_days hbt hd hm
    refine ⟨W t, ?_⟩
    unfold HoldsAt
    rw [p1, hws, List.zip_map', List.mem_map]
    exact ⟨t, by rw [days_complete, List.mem_range'_1]; omega, rfl⟩
  obtain ⟨w, hw⟩ := hholds hat htb hb hbt hd hm
  obtain ⟨w', hw'⟩ := hholds hat' htb' hb' hbt' hd' hm'
  have hle : ∀ {T a b : ℕ}, Increasing T tm → a ≤ t → t < b → b < T → tm a ≤ tm t ∧ tm t ≤ tm b := by
    intro T a b hinc h1 h2 h3
    refine ⟨?_, (hinc t b h2 h3).le⟩
    rcases Nat.eq_or_lt_of_le h1 with h5 | h5
    · rw [h5]
    · exact (hinc a t h5 (by omega)).le
  have hlk : (betweenDates (tm a) (tm b) D).lookup (tm t) = (betweenDates (tm a') (tm b') D').lookup (tm t) := by
    obtain ⟨e1, e2⟩ := hle h.labels hat htb hb
    obtain ⟨e3, e4⟩ := hle h'.labels hat' htb' hb'
    rw [lookup_between _ _ _ e1 e2, lookup_between _ _ _ e3 e4]
    obtain ⟨E, S, f1, f2, f3, _⟩ := cm_upTo h hD (t := t) (by omega) (by omega)
    obtain ⟨E', S', f1', f2', f3', _⟩ := cm_upTo h' hD' (t := t) (by omega) (by omega)
    have hrow : rowDict (t + 1) tm x = rowDict (t + 1) tm x' := by
      unfold rowDict
      refine List.map_congr_left fun u hu => ?_
      rw [List.mem_range] at hu
      rw [hxx u (by omega)]
    rw [hrow, f1'] at f1
    cases f1
    rw [f2'] at f2
    rw [f3, f3', f2]
  have := C110_local hbt hbt' rfl (tm t) (by simp [hlk]) rfl hd hd' hm hm' hw hw'
  exact ⟨w, hw, this ▸ hw'⟩

/-- once the fit goes through -/
theorem cm_runs_iff (h : CmSetup solvers pairs mv mc window T tm x) (ha : mv + mc - 2 + window ≤ a) (hab : a < b) (hb : b < T)
    {D : Dict τ (Mat n)} (hD : cmIewma label solvers (pairs.map xr) (rowDict T tm x) mv mc lamda window = .ok D)
    {cvx : Cvx n} (hx : cvx.Exact) (hsol : cvx.Solves) {st : Strategy τ n} (hst : st.RiskOnly) (name : String) :
    (∃ tr, cmPortfolio label solvers cvx (pairs.map xr) (rowDict T tm x) (tm a) (tm b) st name mv mc lamda window = .ok tr) ↔
      st.Room := by
  constructor
  · rintro ⟨tr, htr⟩
    obtain ⟨D, d, hD, hd, hl⟩ := (cmPortfolio_ok_iff h ha hab hb cvx st name tr).1 htr
    obtain ⟨_, _, h1, _⟩ := (C160_success (cm_backtests h D hab hb name) hx hsol hst (cm_allSymmetric h hD)).1 ⟨d, hd⟩ 0 _ rfl
    exact h1
  · intro hroom
    have hbt := cm_backtests h D hab hb name
    obtain ⟨d, hd⟩ := (C160_success hbt hx hsol hst (cm_allSymmetric h hD)).2 (by
      intro i c hi
      have := cm_only rfl hi
      subst this
      have hi0 : i = 0 := by
        cases i with
        | zero => rfl
        | succ i => simp at hi
      subst hi0
      rw [days_complete]
      refine ⟨by simp; omega, by simp, hroom, fun t ht => ?_⟩
      rw [List.mem_range'_1] at ht
      obtain ⟨S, h1, h2⟩ := cm_day h hD (s := t) (by omega) (by omega)
      refine ⟨S, ?_, h2⟩
      rw [lookup_between _ _ _ ?_ (h.labels t b (by omega) hb).le]
      · exact h1
      · rcases Nat.eq_or_lt_of_le ht.1 with h5 | h5
        · rw [h5]
        · exact (h.labels a t h5 (by omega)).le)
    have hk := (C111_names hd).2.1
    have : name ∈ d.map Prod.fst := by rw [hk]; simp
    obtain ⟨q, hq, he⟩ := List.mem_map.1 this
    have hlk : ∃ tr, d.lookup name = some tr := by
      cases hl : d.lookup name with
      | some tr => exact ⟨tr, rfl⟩
      | none => exact absurd (List.lookup_eq_none_iff.1 hl q hq) (by simp [he])
    obtain ⟨tr, htr⟩ := hlk
    exact ⟨tr, (cmPortfolio_ok_iff h ha hab hb cvx st name tr).2 ⟨D, d, hD, hd, htr⟩⟩

/-- **C164.** When it goes through, with solvers that find the optimum: exactly if the fit does (C150: the covariances of the
experts are finite and positive definite and no window is degenerate) and the limits leave room for a portfolio. -/
theorem C164_success (h : CmSetup solvers pairs mv mc window T tm x) (ha : mv + mc - 2 + window ≤ a) (hab : a < b) (hb : b < T)
    (hs : ∀ K, (solvers K).Exact ∧ (solvers K).Complete) {cvx : Cvx n} (hx : cvx.Exact) (hsol : cvx.Solves) {st : Strategy τ n}
    (hst : st.RiskOnly) (name : String) :
    (∃ tr, cmPortfolio label solvers cvx (pairs.map xr) (rowDict T tm x) (tm a) (tm b) st name mv mc lamda window = .ok tr) ↔
      st.Room ∧ FiniteCmExperts label pairs mv mc x T ∧
      (∀ s, mv + mc - 2 ≤ s → s < T → ∀ i, (cmExpert label pairs mv mc lamda x s i).PosDef) ∧
      ∀ t, window ≤ t → t < T - (mv + mc - 2) → ((cmPanel label pairs mv mc lamda tm x T).gram window t).PosDef := by
  have hcm := C150_success label h lamda hs
  rw [cmWindow_room (T := T) ha (by omega)] at hcm
  rw [← hcm]
  constructor
  · rintro ⟨tr, htr⟩
    obtain ⟨D, d, hD, hd, hl⟩ := (cmPortfolio_ok_iff h ha hab hb cvx st name tr).1 htr
    exact ⟨(cm_runs_iff h ha hab hb hD hx hsol hst name).1 ⟨tr, htr⟩, D, hD⟩
  · rintro ⟨hroom, D, hD⟩
    exact (cm_runs_iff h ha hab hb hD hx hsol hst name).2 hroom

/-- **C165.** From returns to weights, units do not matter: if all the returns are multiplied by a number `k` other than 0
(percent instead of fractions; also a negative one), the run goes through too (with solvers that find the optimum), with
the same dates and weights, and the returns of the portfolio are multiplied by `k`. With a volatility target and no interest, not even
the returns change (`k` positive). -/
theorem C165_units (h : CmSetup solvers pairs mv mc window T tm x) (ha : mv + mc - 2 + window ≤ a) (hab : a < b) (hb : b < T)
    (hs : ∀ K, (solvers K).Exact ∧ (solvers K).Complete) {solvers' : Solvers n} (hs' : ∀ K, (solvers' K).Exact ∧ (solvers' K).Complete)
    {cvx cvx' : Cvx n} (hx : cvx.Exact) (hsol : cvx.Solves) (hx' : cvx'.Exact) (hsol' : cvx'.Solves) {st : Strategy τ n}
    (hst : st.RiskOnly) {name : String} {k : ℝ} (hk : k ≠ 0) {tr : DatedTrader τ n}
    (htr : cmPortfolio label solvers cvx (pairs.map xr) (rowDict T tm x) (tm a) (tm b) st name mv mc lamda window = .ok tr) :
    ∃ tr', cmPortfolio label solvers' cvx' (pairs.map xr) (rowDict T tm fun t i => k * x t i) (tm a) (tm b) st name mv mc lamda window
        = .ok tr' ∧
      tr'.dates = tr.dates ∧ tr'.trader.ws = tr.trader.ws ∧
      (∀ y rf, ∃ s s', tr.trader.getTotalReturns false y rf = .ok s ∧ tr'.trader.getTotalReturns false y rf = .ok s' ∧
        s'.rets = s.rets.map (k * ·)) ∧
      (0 < k → ∀ y, ∃ s s', tr.trader.getTotalReturns true (some y) none = .ok s ∧
        tr'.trader.getTotalReturns true (some y) none = .ok s' ∧ s'.rets = s.rets) := by
  obtain ⟨D, d, hD, hd, hl⟩ := (cmPortfolio_ok_iff h ha hab hb cvx st name tr).1 htr
  have hD' := C153_units label h lamda (fun _ => k) (fun _ => hk) hs hs' hD
  have h' := h.scale (fun _ => k) (fun _ => hk) (solvers' := solvers') fun K => (hs' K).1.feasible
  obtain ⟨tr', htr'⟩ := (cm_runs_iff h' ha hab hb hD' hx' hsol' hst name).2 ((cm_runs_iff h ha hab hb hD hx hsol hst name).1 ⟨tr, htr⟩)
  refine ⟨tr', htr', ?_⟩
  obtain ⟨D1, d', hD1, hd', hl'⟩ := (cmPortfolio_ok_iff h' ha hab hb cvx' st name tr').1 htr'
  rw [hD'] at hD1
  cases hD1
  have hbt := cm_backtests h D hab hb name
  have hbt' := cm_backtests h' (D.map fun p => (p.1, Matrix.of fun i j => k * p.2 i j * k)) hab hb name
  have hm : (name, tr) ∈ d := mem_of_lookup_str hl
  have hm' : (name, tr') ∈ d' := mem_of_lookup_str hl'
  obtain ⟨i, c, mus, h1, h2, h3, h4, hp, _, hr, S, L, mu, rho, W, hws, hsg, hall⟩ := run_days hbt hd hm
  obtain ⟨i', c', mus', h1', h2', h3', h4', hp', _, hr', S', L', mu', rho', W', hws', hsg', hall'⟩ := run_days hbt' hd' hm'
  have hc := cm_only rfl h1
  have hc' := cm_only rfl h1'
  subst hc hc'
  rw [days_complete] at hr hws hsg hall hr' hws' hsg' hall'
  have hk2 : 0 < k ^ 2 := by positivity
  have hrow : ∀ t ∈ List.range' a (b - a), (∃ v : Vec n, W t = List.ofFn v ∧ W' t = List.ofFn v) ∧ (S' t = fun i j => k ^ 2 * S t i j) ∧
      (S t).PosDef := by
    intro t ht
    obtain ⟨q1, q2, q3, q4, q5, q6⟩ := hall t ht
    obtain ⟨q1', q2', q3', q4', q5', q6'⟩ := hall' t ht
    rw [List.mem_range'_1] at ht
    have e1 : tm a ≤ tm t := by
      rcases Nat.eq_or_lt_of_le ht.1 with h5 | h5
      · rw [h5]
      · exact (h.labels a t h5 (by omega)).le
    have e2 : tm t ≤ tm b := (h.labels t b (by omega) hb).le
    rw [lookup_between _ _ _ e1 e2] at q1 q1'
    have hlk : (D.map fun p => (p.1, Matrix.of fun i j => k * p.2 i j * k)).lookup (tm t)
        = (D.lookup (tm t)).map fun S => Matrix.of fun i j => k * S i j * k := by
      exact lookup_mapVal D (fun S : Mat n => (Matrix.of fun i j => k * S i j * k : Mat n)) (tm t)
    rw [hlk, q1] at q1'
    have hSS : S' t = fun i j => k ^ 2 * S t i j := by
      rw [← Option.some.inj q1']
      ext i j
      simp only [Matrix.of_apply]
      ring
    have hpos := cm_symm h hD q1
    exact ⟨dayWeights_rel hx hx' h.assets hst 1 hk2 hSS hpos q2 q2' _ _ _ _ q5 q5', hSS, hpos⟩
  choose! w hw using fun t ht => (hrow t ht).1
  have hWs : tr.trader.ws = (List.range' a (b - a)).map fun t => List.ofFn (w t) := by
    rw [hws]; exact List.map_congr_left fun t ht => (hw t ht).1
  have hWs' : tr'.trader.ws = (List.range' a (b - a)).map fun t => List.ofFn (w t) := by
    rw [hws']; exact List.map_congr_left fun t ht => (hw t ht).2
  have hNo : NoCash st.ptype := by
    cases st with
    | meanVariance _ _ _ => exact hst.elim
    | _ => refine ⟨?_, ?_, ?_⟩ <;> simp [Strategy.ptype]
  refine ⟨?_, by rw [hWs, hWs'], fun y rf => ?_, fun hk0 y => ?_⟩
  · rw [(C106_pairing hbt hd hm).1, (C106_pairing hbt' hd' hm').1, days_complete, days_complete]
  · refine ⟨_, _, returns_days _ (hp ▸ hNo) _ _ _ hr hWs y rf, returns_days _ (hp' ▸ hNo) _ _ _ hr' hWs' y rf, ?_⟩
    dsimp only
    rw [List.map_map]
    refine List.map_congr_left fun t _ => ?_
    simp only [Function.comp_apply, Finset.mul_sum]
    refine Finset.sum_congr rfl fun i _ => ?_
    change w t i * (k * x (t + 1) i) = k * (w t i * x (t + 1) i)
    ring
  · have hne : List.range' a (b - a) ≠ [] := by simp; omega
    obtain ⟨s, g1, g2⟩ := diluted_free tr.trader (C106_fresh hbt hd hm).1 _ hne _ w S hr hsg hWs y
    obtain ⟨s', g1', g2'⟩ := diluted_free tr'.trader (C106_fresh hbt' hd' hm').1 _ hne _ w S' hr' hsg' hWs' y
    refine ⟨s, s', g1, g1', ?_⟩
    rw [g2, g2']
    refine List.map_congr_left fun t ht => ?_
    obtain ⟨_, hSS, hpos⟩ := hrow t ht
    have hstd : predictedStd (S' t) (w t) = k * predictedStd (S t) (w t) := by
      have := std_rel (S t) hk2 1 (w t)
      rw [Real.sqrt_sq hk0.le] at this
      rw [hSS]
      exact this
    have hdot : w t ⬝ᵥ rowValues (fun i => some (k * x (t + 1) i)) = k * (w t ⬝ᵥ rowValues fun i => some (x (t + 1) i)) := by
      unfold dotProduct rowValues
      rw [Finset.mul_sum]
      refine Finset.sum_congr rfl fun i _ => ?_
      simp only [Option.getD_some]
      ring
    unfold positionReturn investedShare
    rw [hstd, hdot, show Real.sqrt 252 * (k * predictedStd (S t) (w t)) = k * (Real.sqrt 252 * predictedStd (S t) (w t)) by ring]
    simp only [mul_zero, add_zero]
    rw [div_mul_eq_mul_div, div_mul_eq_mul_div,
      show y * (k * (w t ⬝ᵥ rowValues fun i => some (x (t + 1) i))) = k * (y * (w t ⬝ᵥ rowValues fun i => some (x (t + 1) i))) by ring,
      mul_div_mul_left _ _ hk]

/-! ### A concrete case: one asset, 150 rows, the arguments of the notebook, a backtest from row 134 to row 148 -/

namespace PipelineEx

theorem goes : ∃ tr, cmPortfolio CmEx.label CmEx.solvers (exactCvx 1) (CmEx.pairs.map xr) (rowDict 150 (id : ℕ → ℕ) CmEx.x) (id 134) (id 148)
    .riskParity "CM-IEWMA" 63 63 0.05 10 = .ok tr := by
  obtain ⟨D, hD⟩ := CmEx.run (mv := 63) (mc := 63) (window := 10) (T := 150) (lamda := 0.05) (by norm_num) (by norm_num) (by norm_num)
    (by norm_num) (by norm_num)
  exact (cm_runs_iff (CmEx.setup (mv := 63) (mc := 63) (window := 10) (T := 150) (by norm_num) (by norm_num) (by norm_num) (by norm_num))
    (by norm_num) (by norm_num) (by norm_num) hD (exactCvx_exact 1) (exactCvx_solves 1) (st := .riskParity) trivial _).2 trivial

/-- `C164_portfolio` and `C165_units` (returns in percent) apply to it, and it is fully invested in the asset -/
example : ∃ tr tr', cmPortfolio CmEx.label CmEx.solvers (exactCvx 1) (CmEx.pairs.map xr) (rowDict 150 (id : ℕ → ℕ) CmEx.x) (id 134) (id 148)
    .riskParity "CM-IEWMA" 63 63 0.05 10 = .ok tr ∧
    cmPortfolio CmEx.label CmEx.solvers (exactCvx 1) (CmEx.pairs.map xr) (rowDict 150 (id : ℕ → ℕ) fun t i => 100 * CmEx.x t i) (id 134) (id 148)
    .riskParity "CM-IEWMA" 63 63 0.05 10 = .ok tr' ∧ tr'.trader.ws = tr.trader.ws ∧ tr.dates = List.range' 134 14 ∧
    ∃ s, tr.trader.getTotalReturns false none none = .ok s ∧ s.rets = (List.range' 134 14).map fun t => CmEx.x (t + 1) 0 := by
  obtain ⟨tr, htr⟩ := goes
  have hset := CmEx.setup (mv := 63) (mc := 63) (window := 10) (T := 150) (by norm_num) (by norm_num) (by norm_num) (by norm_num)
  have hs : ∀ K, (CmEx.solvers K).Exact ∧ (CmEx.solvers K).Complete := fun K => ⟨exactSolver_exact, exactSolver_complete⟩
  obtain ⟨tr', h1, h2, h3, _⟩ := C165_units hset (by norm_num) (by norm_num) (by norm_num) hs hs (exactCvx_exact 1) (exactCvx_solves 1)
    (exactCvx_exact 1) (exactCvx_solves 1) (st := .riskParity) trivial (k := 100) (by norm_num) htr
  obtain ⟨S, w, q1, _, _, ⟨s, q2, q3⟩, q4⟩ := C164_portfolio hset (by norm_num) (by norm_num) (by norm_num) (exactCvx_exact 1) (st := .riskParity)
    trivial htr none none
  refine ⟨tr, tr', htr, h1, h3, by simpa using q1, s, q2, ?_⟩
  rw [q3]
  refine List.map_congr_left fun t ht => ?_
  rw [List.mem_range'_1] at ht
  have hw : ∑ i, w t i = 1 := (q4 t (by omega) (by omega)).2.1.2.1
  rw [Fin.sum_univ_one] at hw
  simp [dotProduct, hw]

end PipelineEx

end CovPred
