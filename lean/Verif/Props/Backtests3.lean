import Verif.Props.Backtests2

/-
C110-C112: `portfolio_backtests.py`, continued.
-/
namespace CovPred
open Matrix
set_option linter.unusedSectionVars false

variable {τ : Type} [DecidableEq τ] {n : ℕ}

/-! ### C110: no look-ahead -/

private theorem holds_day {bt : Backtest τ n} {T : ℕ} {tm : ℕ → τ} {x : ℕ → NRow n} {a b : ℕ} (hb : Backtests bt T tm x a b)
    {cvx : Cvx n} {st : Strategy τ n} {d : Dict String (DatedTrader τ n)} (h : bt.run cvx st = .ok d) {name : String}
    {tr : DatedTrader τ n} (hm : (name, tr) ∈ d) {t : τ} {w : List ℝ} (hw : HoldsAt tr t w) :
    ∃ (i : ℕ) (c : Dict τ (Mat n)) (mus : Option (Dict τ (Vec n))), bt.covPredictors[i]? = some c ∧ bt.names[i]? = some name ∧
      meanPredictor st bt i = .ok mus ∧ (∀ j, i < j → j < bt.covPredictors.length → bt.names[j]? ≠ some name) ∧
      dayOutcome cvx st c mus t = .ok w := by
  obtain ⟨i, c, mus, h1, h2, h3, h4, _, _, _, S, L, mu, rho, W, hws, _, hall⟩ := run_days hb h hm
  have hd := (C106_pairing hb h hm).1
  refine ⟨i, c, mus, h1, h2, h3, h4, ?_⟩
  unfold HoldsAt at hw
  rw [hd, hws, List.zip_map', List.mem_map] at hw
  obtain ⟨s, hs, he⟩ := hw
  cases he
  exact (hall s hs).2.2.2.2.2

/-- **C110.** The weights of a date depend on nothing but the predictions (and uncertainties) of that very date: two
backtests with the same names, whose predictors agree at the date `t`, hold the same weights on it. -/
theorem C110_local {bt bt' : Backtest τ n} {T T' : ℕ} {tm tm' : ℕ → τ} {x x' : ℕ → NRow n} {a b a' b' : ℕ}
    (hb : Backtests bt T tm x a b) (hb' : Backtests bt' T' tm' x' a' b') (hn : bt.names = bt'.names) (t : τ)
    (hc : bt.covPredictors.map (List.lookup t) = bt'.covPredictors.map (List.lookup t))
    (hm : bt.meanPredictors.map (List.map (List.lookup t)) = bt'.meanPredictors.map (List.map (List.lookup t)))
    {cvx : Cvx n} {st : Strategy τ n} {d d' : Dict String (DatedTrader τ n)} (h : bt.run cvx st = .ok d)
    (h' : bt'.run cvx st = .ok d') {name : String} {tr tr' : DatedTrader τ n} (htr : (name, tr) ∈ d)
    (htr' : (name, tr') ∈ d') {w w' : List ℝ} (hw : HoldsAt tr t w) (hw' : HoldsAt tr' t w') : w = w' := by
  obtain ⟨i, c, mus, h1, h2, h3, h4, h5⟩ := holds_day hb h htr hw
  obtain ⟨i', c', mus', h1', h2', h3', h4', h5'⟩ := holds_day hb' h' htr' hw'
  have hlen : bt.covPredictors.length = bt'.covPredictors.length := by
    simpa using congrArg List.length hc
  have hii : i = i' := by
    have hi := (List.getElem?_eq_some_iff.1 h1).1
    have hi' := (List.getElem?_eq_some_iff.1 h1').1
    rcases lt_trichotomy i i' with hlt | heq | hgt
    · exact absurd (by rw [hn]; exact h2') (h4 i' hlt (by omega))
    · exact heq
    · exact absurd (by rw [← hn]; exact h2) (h4' i hgt (by omega))
  subst hii
  have hcc : getItem c t = getItem c' t := by
    have := congrArg (fun l : List (Option (Mat n)) => l[i]?) hc
    simp only [List.getElem?_map, h1, h1', Option.map_some, Option.some.injEq] at this
    unfold getItem
    rw [this]
  have hmm : optItem mus t = optItem mus' t := by
    unfold meanPredictor at h3 h3'
    cases st with
    | meanVariance cons s rhos =>
      dsimp only at h3 h3'
      cases hp : bt.meanPredictors with
      | none => rw [hp] at h3; cases h3
      | some ms =>
        cases hp' : bt'.meanPredictors with
        | none => rw [hp'] at h3'; cases h3'
        | some ms' =>
          rw [hp] at h3
          rw [hp'] at h3'
          rw [hp, hp'] at hm
          have hm' := Option.some.inj hm
          dsimp only at h3 h3'
          rw [bind_ok_iff] at h3 h3'
          obtain ⟨m, h6, h7⟩ := h3
          obtain ⟨m', h6', h7'⟩ := h3'
          have := congrArg (fun l : List (Option (Vec n)) => l[i]?) hm'
          cases hi : ms[i]? with
          | none => rw [hi] at h6; cases h6
          | some m0 =>
            cases hi' : ms'[i]? with
            | none => rw [hi'] at h6'; cases h6'
            | some m0' =>
              rw [hi] at h6
              rw [hi'] at h6'
              cases h6; cases h6'; cases h7; cases h7'
              simp only [List.getElem?_map, hi, hi', Option.map_some, Option.some.injEq] at this
              unfold optItem getItem
              dsimp only
              rw [this]
    | eqWeighted => cases h3; cases h3'; rfl
    | minRisk => cases h3; cases h3'; rfl
    | maxDiverse => cases h3; cases h3'; rfl
    | riskParity => cases h3; cases h3'; rfl
  unfold dayOutcome at h5 h5'
  rw [hcc, hmm, h5'] at h5
  exact (Except.ok.inj h5).symm

/-- **C110.** No look-ahead: if all predictors are causal, changing the returns after row `s` (and with them the dates
between which is traded) changes no weight of a date up to `s`. -/
theorem C110_no_lookahead {T T' : ℕ} {tm : ℕ → τ} {x x' : ℕ → NRow n} (Fs : List ((ℕ → NRow n) → Dict τ (Mat n)))
    (hF : ∀ F ∈ Fs, CausalPredictor tm F) (Gs : Option (List ((ℕ → NRow n) → Dict τ (Vec n))))
    (hG : ∀ l, Gs = some l → ∀ G ∈ l, CausalPredictor tm G) {bt bt' : Backtest τ n} {a b a' b' : ℕ}
    (hb : Backtests bt T tm x a b) (hb' : Backtests bt' T' tm x' a' b') (hn : bt.names = bt'.names)
    (hc : bt.covPredictors = Fs.map fun F => F x) (hc' : bt'.covPredictors = Fs.map fun F => F x')
    (hm : bt.meanPredictors = Gs.map (List.map fun G => G x)) (hm' : bt'.meanPredictors = Gs.map (List.map fun G => G x'))
    (s : ℕ) (hx : ∀ u ≤ s, x u = x' u)
    {cvx : Cvx n} {st : Strategy τ n} {d d' : Dict String (DatedTrader τ n)} (h : bt.run cvx st = .ok d)
    (h' : bt'.run cvx st = .ok d') {name : String} {tr tr' : DatedTrader τ n} (htr : (name, tr) ∈ d)
    (htr' : (name, tr') ∈ d') {t : ℕ} (ht : t ≤ s) {w w' : List ℝ} (hw : HoldsAt tr (tm t) w) (hw' : HoldsAt tr' (tm t) w') :
    w = w' := by
  refine C110_local hb hb' hn (tm t) ?_ ?_ h h' htr htr' hw hw'
  · rw [hc, hc', List.map_map, List.map_map]
    exact List.map_congr_left fun F hFF => hF F hFF x x' t fun u hu => hx u (by omega)
  · rw [hm, hm']
    cases Gs with
    | none => rfl
    | some l =>
      simp only [Option.map_some, List.map_map, Option.some.injEq]
      exact List.map_congr_left fun G hGG => hG l rfl G hGG x x' t fun u hu => hx u (by omega)

/-! ### C111: the result is a dictionary by name -/

private theorem dictOf_keys_eraseDups {A : Type} (l : List (String × A)) :
    (dictOf l).map Prod.fst = (l.map Prod.fst).eraseDups := by
  induction l using List.reverseRecOn with
  | nil => rfl
  | append_singleton l p ih =>
    rw [dictOf_concat, List.map_append, List.eraseDups_append]
    have hk := (dictOf_keys l).2.1 p.1
    by_cases h : p.1 ∈ (dictOf l).map Prod.fst
    · rw [if_pos h, List.map_map]
      have hr : ([p].map Prod.fst).removeAll (l.map Prod.fst) = [] := by
        unfold List.removeAll
        rw [List.filter_eq_nil_iff]
        intro k hkm
        simp only [List.map_cons, List.map_nil, List.mem_singleton] at hkm
        subst hkm
        simpa using (hk.1 h)
      rw [hr, ← ih]
      simp only [List.eraseDups_nil, List.append_nil]
      refine List.map_congr_left fun q _ => ?_
      dsimp only [Function.comp]
      split
      · rename_i e; exact e.symm
      · rfl
    · rw [if_neg h]
      have hr : ([p].map Prod.fst).removeAll (l.map Prod.fst) = [p.1] := by
        unfold List.removeAll
        rw [List.filter_eq_self.2]
        · rfl
        intro k hkm
        simp only [List.map_cons, List.map_nil, List.mem_singleton] at hkm
        subst hkm
        have := fun hh => h (hk.2 hh)
        simpa using this
      rw [hr, List.map_append, ih]
      simp [List.eraseDups_cons]

private theorem alone {bt : Backtest τ n} {cvx : Cvx n} {st : Strategy τ n} {name : String} {tr : DatedTrader τ n} {i : ℕ}
    {c : Dict τ (Mat n)} {mus : Option (Dict τ (Vec n))} (h3 : meanPredictor st bt i = .ok mus)
    (h4 : backtestOne cvx st bt c mus = .ok tr) :
    ({ bt with covPredictors := [c], names := [name],
               meanPredictors := bt.meanPredictors.map fun ms => (ms[i]?).toList } : Backtest τ n).run cvx st
      = .ok [(name, tr)] := by
  unfold Backtest.run
  rw [bind_ok_iff]
  refine ⟨[(name, tr)], ?_, rfl⟩
  rw [mapM_zipIdx_ok_iff]
  refine ⟨rfl, fun j hj _ => ?_⟩
  have hj0 : j = 0 := by simpa using hj
  subst hj0
  change backtestItem _ _ _ (c, 0) = .ok (name, tr)
  rw [backtestItem_ok_iff]
  refine ⟨mus, ?_, h4, rfl⟩
  unfold meanPredictor at h3 ⊢
  cases st with
  | meanVariance cons s rhos =>
    dsimp only at h3 ⊢
    cases hp : bt.meanPredictors with
    | none => rw [hp] at h3; cases h3
    | some ms =>
      rw [hp] at h3
      dsimp only [Option.map_some] at h3 ⊢
      rw [bind_ok_iff] at h3
      obtain ⟨m, h6, h7⟩ := h3
      cases hi : ms[i]? with
      | none => rw [hi] at h6; cases h6
      | some m0 => rw [hi] at h6; cases h6; exact h7
  | eqWeighted => exact h3
  | minRisk => exact h3
  | maxDiverse => exact h3
  | riskParity => exact h3

/-- **C111.** The keys of the result are the names of the predictors, in the order in which they first appear (a name
beyond the number of predictors is not used; with fewer names than predictors no run succeeds); if a name is used
twice, the entry is the trader of the last predictor with that name: what a backtest of that predictor alone gives. -/
theorem C111_names {bt : Backtest τ n} {cvx : Cvx n} {st : Strategy τ n} {d : Dict String (DatedTrader τ n)}
    (h : bt.run cvx st = .ok d) :
    bt.covPredictors.length ≤ bt.names.length ∧
    d.map Prod.fst = (bt.names.take bt.covPredictors.length).eraseDups ∧
    ∀ name tr, (name, tr) ∈ d → ∃ (i : ℕ) (c : Dict τ (Mat n)), bt.covPredictors[i]? = some c ∧ bt.names[i]? = some name ∧
      (∀ j, i < j → j < bt.covPredictors.length → bt.names[j]? ≠ some name) ∧
      ({ bt with covPredictors := [c], names := [name],
                 meanPredictors := bt.meanPredictors.map fun ms => (ms[i]?).toList } : Backtest τ n).run cvx st
        = .ok [(name, tr)] := by
  refine ⟨?_, ?_, ?_⟩
  rotate_left 2
  · intro name tr hm
    obtain ⟨i, c, mus, h1, h2, h3, h4, h5⟩ := run_mem h hm
    exact ⟨i, c, h1, h2, h5, alone h3 h4⟩
  all_goals
    unfold Backtest.run at h
    rw [bind_ok_iff] at h
    obtain ⟨items, h1, h2⟩ := h
    cases h2
    obtain ⟨hlen, hit⟩ := (mapM_zipIdx_ok_iff _ _ _).1 h1
    have hname : ∀ i (hi : i < items.length), bt.names[i]? = some items[i].1 := by
      intro i hi
      have h3 := hit i (by omega) hi
      rcases hp : items[i] with ⟨nm, tr⟩
      rw [hp, backtestItem_ok_iff] at h3
      obtain ⟨_, _, _, h4⟩ := h3
      exact h4
  · by_contra hlt
    have h3 := hname bt.names.length (by omega)
    simp at h3
  · rw [dictOf_keys_eraseDups]
    congr 1
    rw [← hlen]
    apply List.ext_getElem?
    intro i
    rw [List.getElem?_map, List.getElem?_take]
    by_cases hi : i < items.length
    · rw [if_pos hi, hname i hi, List.getElem?_eq_getElem hi]; rfl
    · rw [if_neg hi, List.getElem?_eq_none (by omega)]; rfl

/-- **C111.** The traders do not interfere: each entry of the result is what a backtest of its predictor alone, over the
same dates, gives. -/
theorem C111_alone {bt : Backtest τ n} {cvx : Cvx n} {st : Strategy τ n} {d : Dict String (DatedTrader τ n)}
    (h : bt.run cvx st = .ok d) {name : String} {tr : DatedTrader τ n} (hm : (name, tr) ∈ d) :
    ∃ (i : ℕ) (c : Dict τ (Mat n)), bt.covPredictors[i]? = some c ∧ bt.names[i]? = some name ∧
      ({ bt with covPredictors := [c], names := [name],
                 meanPredictors := bt.meanPredictors.map fun ms => (ms[i]?).toList } : Backtest τ n).run cvx st
        = .ok [(name, tr)] := by
  obtain ⟨i, c, mus, h1, h2, h3, h4, _⟩ := run_mem h hm
  exact ⟨i, c, h1, h2, alone h3 h4⟩

/-! ### What is missing when a run fails -/

private theorem mapM_zipIdx_error {A B : Type} (f : A × ℕ → Except Err B) (e : Err) (l : List A) (m : ℕ) :
    ∀ (k : ℕ) (hk : k < l.length), (∀ (j : ℕ) (hj : j < k), ∃ b, f (l[j]'(by omega), m + j) = .ok b) → f (l[k], m + k) = .error e →
      (l.zipIdx m).mapM f = .error e := by
  induction l generalizing m with
  | nil => intro k hk; simp at hk
  | cons a l ih =>
    intro k hk h1 h2
    rw [List.zipIdx_cons, List.mapM_cons]
    cases k with
    | zero =>
      have : f (a, m) = .error e := h2
      rw [this]; rfl
    | succ k =>
      obtain ⟨b, hb⟩ := h1 0 (by omega)
      have hb' : f (a, m) = .ok b := hb
      rw [hb']
      have := ih (m + 1) k (by simpa using hk)
        (fun j hj => by
          obtain ⟨c, hc⟩ := h1 (j + 1) (by omega)
          refine ⟨c, ?_⟩
          rw [show m + 1 + j = m + (j + 1) by ring]
          exact hc)
        (by rw [show m + 1 + k = m + (k + 1) by ring]; exact h2)
      change ((l.zipIdx (m + 1)).mapM f >>= fun x => pure (b :: x)) = _
      rw [this]; rfl

private theorem run_items {bt : Backtest τ n} {cvx : Cvx n} {st : Strategy τ n} {d : Dict String (DatedTrader τ n)}
    (h : bt.run cvx st = .ok d) {i : ℕ} (hi : i < bt.covPredictors.length) :
    ∃ mus tr name, meanPredictor st bt i = .ok mus ∧ backtestOne cvx st bt bt.covPredictors[i] mus = .ok tr ∧
      bt.names[i]? = some name := by
  unfold Backtest.run at h
  rw [bind_ok_iff] at h
  obtain ⟨items, h1, _⟩ := h
  obtain ⟨hlen, hit⟩ := (mapM_zipIdx_ok_iff _ _ _).1 h1
  have h2 := hit i hi (by omega)
  rcases hp : items[i]'(by omega) with ⟨nm, tr⟩
  rw [hp, backtestItem_ok_iff] at h2
  obtain ⟨mus, h3, h4, h5⟩ := h2
  exact ⟨mus, tr, nm, h3, h4, h5⟩

/-- **C111.** With fewer names than predictors a run that would succeed with enough names `names'` ends with `IndexError` (after
all the work for the first predictor without a name). The first names do not matter. -/
theorem C111_too_few_names {bt : Backtest τ n} {cvx : Cvx n} {st : Strategy τ n} {d : Dict String (DatedTrader τ n)}
    (names' : List String) (h : ({ bt with names := names' } : Backtest τ n).run cvx st = .ok d)
    (hfew : bt.names.length < bt.covPredictors.length) : bt.run cvx st = .error .indexError := by
  have hitems := fun (i : ℕ) (hi : i < bt.covPredictors.length) => run_items h hi
  unfold Backtest.run
  rw [mapM_zipIdx_error (backtestItem cvx st bt) .indexError bt.covPredictors 0 bt.names.length hfew]
  · rfl
  · intro j hj
    obtain ⟨mus, tr, name, h3, h4, _⟩ := hitems j (by omega)
    rw [Nat.zero_add]
    exact ⟨(bt.names[j], tr), (backtestItem_ok_iff _ _ _ _ _ _ _).2 ⟨mus, h3, h4, List.getElem?_eq_getElem hj⟩⟩
  · obtain ⟨mus, tr, name, h3, h4, _⟩ := hitems bt.names.length hfew
    rw [Nat.zero_add]
    unfold backtestItem
    have h3' : meanPredictor st bt bt.names.length = .ok mus := h3
    have h4' : backtestOne cvx st bt bt.covPredictors[bt.names.length] mus = .ok tr := h4
    dsimp only
    rw [h3']
    change (backtestOne cvx st bt bt.covPredictors[bt.names.length] mus >>= fun tr => _) = _
    rw [h4', List.getElem?_eq_none (le_refl _)]
    rfl

/-- **C111.** `MeanVariance` with fewer forecasts than covariance predictors, which the constructor accepts: a run that would
succeed with enough forecasts `ms'` (of which the given ones are the first) ends with `IndexError`. Without any forecasts
(`mean_predictors=None`) it ends with `TypeError`, whatever the data. -/
theorem C111_too_few_means {bt : Backtest τ n} {cvx : Cvx n} {cons : ExtraCons} {sigmaTar : ℝ} {rhos : Option (Dict τ (Vec n))} :
    (∀ (ms ms' : List (Dict τ (Vec n))) (d : Dict String (DatedTrader τ n)), bt.meanPredictors = some ms → ms <+: ms' →
      ({ bt with meanPredictors := some ms' } : Backtest τ n).run cvx (.meanVariance cons sigmaTar rhos) = .ok d →
      ms.length < bt.covPredictors.length → bt.run cvx (.meanVariance cons sigmaTar rhos) = .error .indexError) ∧
    (bt.meanPredictors = none → bt.covPredictors ≠ [] → bt.run cvx (.meanVariance cons sigmaTar rhos) = .error .typeError) := by
  constructor
  · intro ms ms' d hms hpre h hfew
    have hitems := fun (i : ℕ) (hi : i < bt.covPredictors.length) => run_items h hi
    unfold Backtest.run
    rw [mapM_zipIdx_error (backtestItem cvx _ bt) .indexError bt.covPredictors 0 ms.length hfew]
    · rfl
    · intro j hj
      obtain ⟨mus, tr, name, h3, h4, h5⟩ := hitems j (by omega)
      rw [Nat.zero_add]
      refine ⟨(name, tr), (backtestItem_ok_iff _ _ _ _ _ _ _).2 ⟨mus, ?_, h4, h5⟩⟩
      obtain ⟨r, rfl⟩ := hpre
      unfold meanPredictor at h3 ⊢
      dsimp only at h3 ⊢
      rw [hms]
      dsimp only
      rw [List.getElem?_append_left hj] at h3
      exact h3
    · rw [Nat.zero_add]
      unfold backtestItem meanPredictor
      dsimp only
      rw [hms]
      dsimp only
      rw [List.getElem?_eq_none (le_refl _)]
      rfl
  · intro hnone hne
    unfold Backtest.run
    rw [mapM_zipIdx_error (backtestItem cvx _ bt) .typeError bt.covPredictors 0 0 (List.length_pos_iff.2 hne)]
    · rfl
    · intro j hj; omega
    · unfold backtestItem meanPredictor
      dsimp only
      rw [hnone]
      rfl

/-- **C107.** How the constructor of a backtest fails: a predictor with a date without returns, forecasts that do not cover the dates of
the last predictor, or a first or last day that is none of these dates raise `AssertionError`; a last predictor without dates
raises `IndexError` if no first or no last day is given (and the assertions hold). -/
theorem C107_constructor_errors (returns : List (τ × NRow n)) (covs : List (Dict τ (Mat n))) (names : List String)
    (means : Option (List (Dict τ (Vec n)))) (startDate endDate : Option τ) :
    ((∃ c ∈ covs, ∃ t ∈ c.map Prod.fst, t ∉ returns.map Prod.fst) →
      backtestInit returns covs names means startDate endDate = .error .assertionError) ∧
    (∀ last, covs.getLast? = some last →
      ((∃ ms, means = some ms ∧ ∃ m ∈ ms, ∃ t ∈ last.map Prod.fst, t ∉ m.map Prod.fst) ∨
        (∃ t, startDate = some t ∧ t ∉ last.map Prod.fst) ∨ (∃ t, endDate = some t ∧ t ∉ last.map Prod.fst) →
      backtestInit returns covs names means startDate endDate = .error .assertionError)) ∧
    (covs.getLast? = some [] → (∀ c ∈ covs, ∀ t ∈ c.map Prod.fst, t ∈ returns.map Prod.fst) → startDate = none → endDate = none →
      backtestInit returns covs names means startDate endDate = .error .indexError) := by
  refine ⟨?_, ?_, ?_⟩
  · rintro ⟨c, hc, t, ht, hno⟩
    unfold backtestInit
    rw [if_pos fun h => hno (h c hc t ht)]
  · intro last hl h
    unfold backtestInit
    by_cases h1 : ∀ c ∈ covs, ∀ t ∈ c.keys, t ∈ returns.map Prod.fst
    swap
    · rw [if_pos h1]
    rw [if_neg (not_not.2 h1), hl]
    dsimp only
    by_cases h2 : ∀ ms, means = some ms → ∀ m ∈ ms, ∀ t ∈ last.keys, t ∈ m.keys
    swap
    · rw [if_pos h2]
    rw [if_neg (not_not.2 h2)]
    by_cases h3 : ∀ t, startDate = some t → t ∈ last.keys
    swap
    · rw [if_pos h3]
    rw [if_neg (not_not.2 h3)]
    by_cases h4 : ∀ t, endDate = some t → t ∈ last.keys
    swap
    · rw [if_pos h4]
    exfalso
    rcases h with ⟨ms, hms, m, hm, t, ht, hno⟩ | ⟨t, ht, hno⟩ | ⟨t, ht, hno⟩
    · exact hno (h2 ms hms m hm t ht)
    · exact hno (h3 t ht)
    · exact hno (h4 t ht)
  · rintro hl h1 rfl rfl
    unfold backtestInit Dict.keys
    rw [if_neg (not_not.2 h1), hl]
    dsimp only
    rw [if_neg (not_not.2 fun ms _ m _ t ht => by cases ht), if_neg (not_not.2 fun t ht => by cases ht),
      if_neg (not_not.2 fun t ht => by cases ht)]
    rfl

/-! ### C112: the table -/

/-- the line of a trader with its metrics -/
noncomputable def lineOf (name : String) (m : Metrics) : TableLine :=
  .row ⟨name, m.meanReturn * 100, m.risk * 100, m.sharpe, m.drawdown * 100⟩

/-- `createTable` evaluates every trader once -/
private theorem createTable_ok_iff (traders : Dict String (Trader n)) (x : Option ℝ) (rf : Option (List ℝ)) (excess prescient : Bool)
    (trs : Dict String (Trader n)) (out : List TableLine × Option Err) :
    createTable traders x rf excess prescient = .ok (trs, out) ↔
      ∃ l : List (String × (Trader n × Metrics)),
        List.Forall₂ (fun p q => q.1 = p.1 ∧ tableMetrics x rf excess p.2 = .ok q.2) traders l ∧
        trs = l.map (fun p => (p.1, p.2.1)) ∧ out = createTableHelper (l.map fun p => (p.1, p.2.2)) prescient := by
  unfold createTable
  rw [bind_ok_iff]
  have hf : ∀ (p : String × Trader n) (q : String × (Trader n × Metrics)),
      (do let m ← tableMetrics x rf excess p.2; pure (p.1, m) : Except Err (String × (Trader n × Metrics))) = .ok q ↔
        q.1 = p.1 ∧ tableMetrics x rf excess p.2 = .ok q.2 := by
    intro p q
    rw [bind_ok_iff]
    constructor
    · rintro ⟨m, h1, h2⟩; cases h2; exact ⟨rfl, h1⟩
    · rintro ⟨h1, h2⟩; refine ⟨q.2, h2, ?_⟩; rw [← h1]; rfl
  constructor
  · rintro ⟨l, h1, h2⟩
    rw [mapM_ok_iff_forall₂] at h1
    cases h2
    exact ⟨l, h1.imp fun p q h => (hf p q).1 h, rfl, rfl⟩
  · rintro ⟨l, h1, rfl, rfl⟩
    exact ⟨l, (mapM_ok_iff_forall₂ _ _ _).2 (h1.imp fun p q h => (hf p q).2 h), rfl⟩

private theorem loop_target (x y : Option ℝ) (rf : Option (List ℝ)) : ∀ (rows : List (Vec n)) (t : ℕ) (s : Trader n)
    (acc : List ℝ), totalReturnsLoop false x rf rows t s acc = totalReturnsLoop false y rf rows t s acc
  | [], _, _, _ => rfl
  | r :: rows, t, s, acc => by
    unfold totalReturnsLoop
    simp only [Bool.false_eq_true, if_false, or_false]
    simp only [loop_target x y rf rows]

/-- the target does not matter without dilution -/
private theorem undiluted_target (s : Trader n) (x y : Option ℝ) (rf : Option (List ℝ)) :
    s.getTotalReturns false x rf = s.getTotalReturns false y rf := by
  unfold Trader.getTotalReturns
  rw [loop_target x y]

open Classical in
/-- **C112.** What is printed: each trader is evaluated once, diluted with cash to the volatility target if that is given
and not zero, and not diluted otherwise; first come the rows of the traders not called `PRESCIENT`, in order, then a
rule. Without `prescient` that is all. With it and without a trader of that name, `KeyError` is raised after that. Else
one more row has the numbers of the trader `PRESCIENT` -- under the name of the *last* trader. -/
theorem C112_table (traders : Dict String (Trader n)) (x : Option ℝ) (rf : Option (List ℝ)) (excess prescient : Bool)
    (trs : Dict String (Trader n)) (out : List TableLine × Option Err)
    (h : createTable traders x rf excess prescient = .ok (trs, out)) :
    ∃ ms : Dict String Metrics,
      List.Forall₂ (fun p q => q.1 = p.1 ∧ ∃ s,
        p.2.getMetrics (dilutedWithCash := decide (∃ y, x = some y ∧ y ≠ 0)) (sigmaDes := if x.isSome then x else some (1 / 10))
          (rf := rf) (excess := excess) = .ok (s, q.2)) traders ms ∧
      (prescient = false → out = ((ms.filter (·.1 ≠ "PRESCIENT")).map (fun q => lineOf q.1 q.2) ++ [.hline], none)) ∧
      (prescient = true → "PRESCIENT" ∉ traders.map Prod.fst →
        out = ((ms.filter (·.1 ≠ "PRESCIENT")).map (fun q => lineOf q.1 q.2) ++ [.hline], some .keyError)) ∧
      (prescient = true → ∀ m name, ms.lookup "PRESCIENT" = some m → (traders.map Prod.fst).getLast? = some name →
        out = ((ms.filter (·.1 ≠ "PRESCIENT")).map (fun q => lineOf q.1 q.2) ++ [.hline] ++ [lineOf name m], none)) := by
  obtain ⟨l, h1, rfl, rfl⟩ := (createTable_ok_iff _ _ _ _ _ _ _).1 h
  have hkeys : (l.map fun p => (p.1, p.2.2)).map Prod.fst = traders.map Prod.fst := by
    clear h
    induction h1 with
    | nil => rfl
    | cons hp _ ih => simp only [List.map_cons]; rw [hp.1]; simpa using ih
  refine ⟨l.map fun p => (p.1, p.2.2), ?_, ?_, ?_, ?_⟩
  · rw [List.forall₂_map_right_iff]
    refine h1.imp fun p q hpq => ⟨hpq.1, q.2.1, ?_⟩
    have h2 := hpq.2
    cases x with
    | none => simpa [tableMetrics] using h2
    | some y =>
      by_cases hy : y = 0
      · subst hy
        simp only [tableMetrics, if_true] at h2
        have : decide (∃ y : ℝ, some (0 : ℝ) = some y ∧ y ≠ 0) = false := by simp
        rw [this]
        simp only [Option.isSome_some, if_true]
        have e : p.2.getMetrics false (some (0 : ℝ)) rf excess = p.2.getMetrics false (some (1 / 10)) rf excess := by
          unfold Trader.getMetrics
          rw [undiluted_target p.2 (some 0) (some (1 / 10)) rf]
        rw [e]
        exact h2
      · simp only [tableMetrics, if_neg hy] at h2
        have : decide (∃ z : ℝ, some y = some z ∧ z ≠ 0) = true := by simpa using hy
        rw [this]
        simpa using h2
  · intro hp
    subst hp
    rfl
  · intro hp hno
    subst hp
    unfold createTableHelper
    dsimp only
    have : (l.map fun p => (p.1, p.2.2)).lookup "PRESCIENT" = none := by
      rw [List.lookup_eq_none_iff]
      intro p hpm
      have : p.1 ∈ traders.map Prod.fst := by rw [← hkeys]; exact List.mem_map_of_mem hpm
      have hne : p.1 ≠ "PRESCIENT" := fun e => hno (by rw [← e]; exact this)
      simpa using fun e : "PRESCIENT" = p.1 => hne e.symm
    rw [this]
    rfl
  · intro hp m name hm hname
    subst hp
    unfold createTableHelper
    dsimp only
    rw [hm]
    dsimp only
    rw [← hkeys, List.getLast?_map] at hname
    cases hg : (l.map fun p => (p.1, p.2.2)).getLast? with
    | none => rw [hg] at hname; cases hname
    | some q =>
      rw [hg] at hname
      cases hname
      rfl

private theorem diluted_state (s s' : Trader n) (hT : s.returns ≠ []) (x : Option ℝ) (rf : Option (List ℝ))
    (h : s.getTotalReturns true x rf = .ok s') :
    ∃ wd, s'.diluted = true ∧ s'.wsDiluted = some wd ∧ dilutedRets s'.returns wd rf = .ok s'.rets := by
  obtain ⟨hd, wd, hw⟩ := C77_marks s s' hT x rf h
  obtain ⟨s'', h1, h2⟩ := C77_stale s s' hT x rf h s'.portfolioType s'.adjustFactor s'.ws x
  have hs : s'.setBacktest s'.portfolioType s'.adjustFactor s'.ws = s' := rfl
  rw [hs, get_diluted s' wd hd hw] at h1
  cases hr : dilutedRets s'.returns wd rf with
  | error e => rw [hr] at h1; cases h1
  | ok l =>
    rw [hr] at h1
    have := Except.ok.inj h1
    subst this
    exact ⟨wd, hd, hw, by rw [hr]; exact congrArg Except.ok h2⟩

/-- a second diluted evaluation repeats the first one -/
private theorem metrics_stale (s s' : Trader n) (hT : s.returns ≠ []) (x y : Option ℝ) (rf : Option (List ℝ)) (excess : Bool)
    (m : Metrics) (h : s.getMetrics true x rf excess = .ok (s', m)) : s'.getMetrics true y rf excess = .ok (s', m) := by
  unfold Trader.getMetrics at h
  rw [bind_ok_iff] at h
  obtain ⟨s1, h1, h2⟩ := h
  obtain ⟨wd, hd, hw, hr⟩ := diluted_state s s1 hT x rf h1
  have hs' : s' = s1.getPortfolioGrowth := by
    dsimp only at h2
    split at h2
    · split at h2
      · cases h2
      · split at h2
        · cases h2
        · simp only [pure_bind] at h2
          rw [bind_ok_iff] at h2
          obtain ⟨dd, _, h6⟩ := h2
          cases h6
          rfl
    · simp only [pure_bind] at h2
      rw [bind_ok_iff] at h2
      obtain ⟨dd, _, h6⟩ := h2
      cases h6
      rfl
  have hget : s'.getTotalReturns true y rf = .ok s' := by
    rw [hs', get_diluted s1.getPortfolioGrowth wd hd hw y rf]
    have : dilutedRets s1.getPortfolioGrowth.returns wd rf = .ok s1.rets := hr
    rw [this]
    rfl
  unfold Trader.getMetrics
  rw [hget]
  rw [bind_ok_iff]
  refine ⟨s', rfl, ?_⟩
  rw [hs'] at h2 ⊢
  exact h2

/-- **C112.** The volatility target of the first table sticks: printing the table again with the same risk-free returns and
any other target (not zero) prints the same table. -/
theorem C112_stale_target (traders trs : Dict String (Trader n)) (hT : ∀ p ∈ traders, p.2.returns ≠ []) (x y : ℝ) (hx : x ≠ 0)
    (hy : y ≠ 0) (rf : Option (List ℝ)) (excess prescient : Bool) (out : List TableLine × Option Err)
    (h : createTable traders (some x) rf excess prescient = .ok (trs, out)) :
    createTable trs (some y) rf excess prescient = .ok (trs, out) := by
  obtain ⟨l, h1, rfl, rfl⟩ := (createTable_ok_iff _ _ _ _ _ _ _).1 h
  rw [createTable_ok_iff]
  refine ⟨l, ?_, rfl, rfl⟩
  rw [List.forall₂_map_left_iff, List.forall₂_same]
  intro q hq
  obtain ⟨p, hp, hpq⟩ := forall₂_mem_left h1.flip hq
  refine ⟨rfl, ?_⟩
  have h2 := hpq.2
  simp only [tableMetrics, if_neg hx] at h2
  simp only [tableMetrics, if_neg hy]
  exact metrics_stale p.2 q.2.1 (hT p hp) (some x) (some y) rf excess q.2.2 h2

end CovPred
