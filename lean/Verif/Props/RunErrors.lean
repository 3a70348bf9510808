import Verif.Lemmas.RunErrors
import Verif.Props.ReadmeRun
import Verif.Props.CmIewma
import Verif.Props.MarimoDemo

/-
Properties C150, C155 and C158, continued: which exceptions the CM-IEWMA cell, the second README example and the demo notebook
raise. `Panel.Fails` (Verif/Spec/RunErrors.lean) says which exception ends the comprehension over the results,
`Panel.FailsList` which one it is if the results are collected in a list first.
-/
set_option linter.unusedSectionVars false
namespace CovPred
open XR

variable {τ : Type} [LinearOrder τ] {n m : ℕ} {L : Type} [DecidableEq L]

/-- **C155.** The exceptions of the second README example: `LinAlgError` if some expert is not positive definite; else that of
the comprehension. -/
theorem C155_exceptions {K : ℕ} {solver : Solver n K} {halflives : Fin K → ℝ} {m window T : ℕ} {tm : ℕ → τ} {x : ℕ → Vec n}
    (h : ReadmeSetup solver halflives m window T tm) {e : Err}
    (he : readmePredictors solver halflives m window (rowDict T tm x) = .error e) :
    (e = .linAlgError ∧ ∃ s, readmeFirst m ≤ s ∧ s < T ∧ ∃ k, ¬ (halflifeCov (halflives k) x s).PosDef) ∨
    ((∀ s, readmeFirst m ≤ s → s < T → ∀ k, (halflifeCov (halflives k) x s).PosDef) ∧
      (readmePanel halflives m tm x T).Fails solver (readmeWindow m window T) e) := by
  have hrows := h.rows
  set P := readmePanel halflives m tm x T with hP
  have hlen : P.len = T - readmeFirst m := rfl
  have hsig : (finM fun i => readmeExpert (rowDict T tm x) m (halflives i)) = .ok P.sigmas := by
    apply finM_ok
    intro i
    rw [readmeExpert_spec h.assets (h.halflives i), map_range_shift]
    unfold Panel.sigmas
    rw [hlen]
    rfl
  unfold readmePredictors at he
  rw [hsig, ok_bind] at he
  rcases solve_window_fails h.experts (fun _ _ => rfl) (P := P) (fun s t hst ht => h.labels _ _ (by omega) (by omega))
    (fun t _ k => by ext a b; exact halflifeCov_symm _ _ _ _ _)
    (fun t _ ht => lookup_map_range (fun s t h1 h2 => h.labels s t h1 h2) _ _ (by omega)) (by omega) h.window_pos h.feasible
    (show readmeWindow m window T = min window (P.len - 1) from rfl) he with ⟨h1, t, ht, k, hk⟩ | ⟨h1, h2⟩
  · exact Or.inl ⟨h1, readmeFirst m + t, by omega, by omega, k, hk⟩
  · refine Or.inr ⟨fun s h3 h4 k => ?_, h2⟩
    have := h1 (s - readmeFirst m) (by omega) k
    have e : P.cov (s - readmeFirst m) k = halflifeCov (halflives k) x (readmeFirst m + (s - readmeFirst m)) := rfl
    rw [e, show readmeFirst m + (s - readmeFirst m) = s by omega] at this
    exact this

/-- **C150.** The exceptions of the CM-IEWMA cell: `LinAlgError` if some expert is not finite and positive definite; else
that of the comprehension over the list of the results. -/
theorem C150_exceptions (label : XR × XR → L) {solvers : Solvers n} {pairs : List (ℝ × ℝ)} {mv mc window T : ℕ} {tm : ℕ → τ}
    {x : ℕ → Vec n} (h : CmSetup solvers pairs mv mc window T tm x) (lamda : ℝ) {e : Err}
    (he : cmIewma label solvers (pairs.map xr) (rowDict T tm x) mv mc lamda window = .error e) :
    (e = .linAlgError ∧ (¬ FiniteCmExperts label pairs mv mc x T ∨
      ∃ s, mv + mc - 2 ≤ s ∧ s < T ∧ ∃ i, ¬ (cmExpert label pairs mv mc lamda x s i).PosDef)) ∨
    (FiniteCmExperts label pairs mv mc x T ∧
      (∀ s, mv + mc - 2 ≤ s → s < T → ∀ i, (cmExpert label pairs mv mc lamda x s i).PosDef) ∧
      (cmPanel label pairs mv mc lamda tm x T).FailsList (solvers _) (cmWindow mv mc window T) e) := by
  obtain ⟨p0, ps, rfl⟩ := h.cons
  have hmv := h.vola
  have hmc := h.cov
  have hrows := h.rows
  rw [cm_eq_tail h.assets label solvers hmv hmc lamda window h.awake h.labels (by omega) h.halflives] at he
  have hlen : (cmPanel label (p0 :: ps) mv mc lamda tm x T).len = T - (mv + mc - 2) := rfl
  by_cases hfin : FiniteCmExperts label (p0 :: ps) mv mc x T
  · obtain ⟨S, hS1, hS2⟩ := cm_sigmas (tm := tm) label lamda hfin
    unfold cmTail at he
    rw [hS1, ok_bind] at he
    dsimp only at he
    rw [hS2] at he
    rcases solve_list_fails (expertPairs_pos label p0 ps) (fun _ _ => rfl)
      (P := cmPanel label (p0 :: ps) mv mc lamda tm x T)
      (fun s t hst ht => h.labels _ _ (by omega) (by simp only [cmPanel] at ht; omega))
      (fun t _ k => cmExpert_symm label _ mv mc lamda x _ k)
      (fun t _ ht => by
        simp only [cmPanel] at ht ⊢
        exact lookup_map_range (fun s t h1 h2 => h.labels s t h1 h2) _ _ (by omega))
      (by rw [hlen]; omega) h.window_pos (h.feasible _)
      (show cmWindow mv mc window T = min window ((cmPanel label (p0 :: ps) mv mc lamda tm x T).len - 1) from rfl) he
      with ⟨h1, t, ht, k, hk⟩ | ⟨h1, h2⟩
    · exact Or.inl ⟨h1, Or.inr ⟨mv + mc - 2 + t, by omega, by rw [hlen] at ht; omega, k, hk⟩⟩
    · refine Or.inr ⟨hfin, fun s h3 h4 k => ?_, h2⟩
      have := h1 (s - (mv + mc - 2)) (by rw [hlen]; omega) k
      have e : (cmPanel label (p0 :: ps) mv mc lamda tm x T).cov (s - (mv + mc - 2)) k
          = cmExpert label (p0 :: ps) mv mc lamda x (mv + mc - 2 + (s - (mv + mc - 2))) k := rfl
      rw [e, show mv + mc - 2 + (s - (mv + mc - 2)) = s by omega] at this
      exact this
  · refine Or.inl ⟨?_, Or.inl hfin⟩
    unfold cmTail at he
    rcases hS : finM fun i => finiteCovs (cmRows mv mc tm x T (expertPairs label ((p0 :: ps).map xr))[i].2) with e' | S
    · rw [hS] at he
      cases he
      obtain ⟨k, hk, _⟩ := finM_error _ _ hS
      unfold cmRows at hk
      rw [finiteCovs_map] at hk
      split at hk
      · cases hk
      · cases hk; rfl
    · exfalso
      apply hfin
      rw [finM_ok_iff] at hS
      intro i s h1 h2
      have := hS i
      unfold cmRows at this
      rw [finiteCovs_map] at this
      split at this
      · next hall => exact hall s (by rw [List.mem_range'_1]; omega)
      · cases this

/-- the run behind an exception -/
theorem demo_fails (label : XR × XR → L) {solver : (K : ℕ) → Solver n K} {f : Frame τ (Fin n) XR} {pairs : List (ℝ × ℝ)}
    {mv mc : Int} {clipAt : Option ℝ} {mean : Bool} {window : ℕ} {T : ℕ} {tm : ℕ → τ} (hn : 0 < n)
    (hs : ∀ K, (solver K).Feasible) (hp : PosPairs pairs) (htm : ∀ s t, s < t → t < T → tm s < tm t) {x : ℕ → Fin n → ℝ}
    (hf : Represents f true T tm x) {c : EwmaComb L τ n} (hc : callEwmas label f pairs mv mc clipAt mean = .ok c)
    {P : Panel τ n c.labels.length} (hP : P.Gives (realReturns f) c.comb) (hlen : 2 ≤ P.len) {e : Err}
    (h : weightRows (c.solve solver (some window)) = .error e) :
    (e = .linAlgError ∧ ∃ t, windowOf (some window) P.len ≤ t ∧ t < P.len ∧
        ∃ s, t - windowOf (some window) P.len < s ∧ s ≤ t ∧ MissingAt f (P.time s)) ∨
    ((∀ t, windowOf (some window) P.len ≤ t → t < P.len → ∀ s, t - windowOf (some window) P.len < s → s ≤ t →
        ¬ MissingAt f (P.time s)) ∧ P.Fails (solver _) (windowOf (some window) P.len) e) := by
  have hWe : windowOf (some window) P.len = effWindow (some window) (P.len - 1) := windowOf_eq _ _
  rw [hWe]
  set W := effWindow (some window) (P.len - 1) with hW
  have hmiss := C70_from_ewmas_missing hn label (distinct_of_lt htm) hf hp mv mc clipAt mean hc
  by_cases hm : ∃ t, W ≤ t ∧ t < P.len ∧ ∃ s, t - W < s ∧ s ≤ t ∧ P.time s ∈ c.missing
  · left
    have := C70_missing_aborts hP hlen c.missing (solver _) (some window) none _ _ .all hm
    simp only [EwmaComb.solve, this, weightRows, List.map_nil, List.mapM_nil] at h
    refine ⟨by cases h; rfl, ?_⟩
    obtain ⟨t, h1, h2, s, h3, h4, h5⟩ := hm
    exact ⟨t, h1, h2, s, h3, h4, (hmiss _).mp h5⟩
  · right
    have hclean : ∀ t, W ≤ t → t < P.len → ∀ s, t - W < s → s ≤ t → P.time s ∉ c.missing :=
      fun t h1 h2 s h3 h4 h5 => hm ⟨t, h1, h2, s, h3, h4, h5⟩
    refine ⟨fun t h1 h2 s h3 h4 h5 => hclean t h1 h2 s h3 h4 ((hmiss _).mpr h5), ?_⟩
    have heq := C70_missing_elsewhere hP hlen c.missing (solver _) (some window) none _ _ .all hclean
    have hrun := solve_run_none hP hlen (hs _) (some window)
    rw [← hW] at hrun
    simp only [EwmaComb.solve, heq, weightRows, List.mapM_map] at h
    rcases run_fails hrun (g := timeAndWeights ∘ Option.map c.labelled) rfl (fun r => ⟨_, rfl⟩)
      with ⟨h1, l, h2⟩ | ⟨e', h1, h2 | ⟨⟨l, h2⟩, h3⟩⟩
    · rw [h1, h2] at h; cases h
    · rw [h2] at h; cases h; exact h1
    · rw [h2, h3] at h; cases h; exact h1

/-- **C158.** The exceptions of the demo: that of `from_ewmas`; `LinAlgError` if a return is missing in a window; else that of
the comprehension. -/
theorem C158_exceptions (label : XR × XR → L) {solver : (K : ℕ) → Solver n K} {columns : Fin n → Fin m} {pairs : List (ℝ × ℝ)}
    {mv mc : Int} {clipAt : Option ℝ} {mean : Bool} {window : ℕ} {T : ℕ} {tm : ℕ → τ} {p : ℕ → Fin m → Option ℝ}
    (hn : 0 < n) (hs : ∀ K, (solver K).Feasible) (hp : PosPairs pairs) (hne : pairs ≠ [])
    (htm : Increasing T tm) (hpr : PositivePrices T p) {e : Err}
    (h : callDemo label solver columns pairs mv mc clipAt mean window (priceFrame T tm p) = .error e)
    (hlong : ∀ q ∈ pairs, ∀ rs, iteratedEwma (demoReturns columns (priceFrame T tm p)) (ewmasArgs mv mc clipAt mean q).toArgs
      = .ok rs → 2 ≤ rs.length) :
    callEwmas label (demoReturns columns (priceFrame T tm p)) pairs mv mc clipAt mean = .error e ∨
    ∃ (labels : List L) (P : Panel τ n labels.length),
      EwmaPanel label (demoReturns columns (priceFrame T tm p)) pairs mv mc clipAt mean labels P ∧
      ((e = .linAlgError ∧ ∃ t, windowOf (some window) P.len ≤ t ∧ t < P.len ∧
          ∃ s, t - windowOf (some window) P.len < s ∧ s ≤ t ∧
            MissingAt (demoReturns columns (priceFrame T tm p)) (P.time s)) ∨
        ((∀ t, windowOf (some window) P.len ≤ t → t < P.len → ∀ s, t - windowOf (some window) P.len < s → s ≤ t →
            ¬ MissingAt (demoReturns columns (priceFrame T tm p)) (P.time s)) ∧
          P.Fails (solver _) (windowOf (some window) P.len) e)) := by
  rw [callDemo_eq] at h
  rcases hc : callEwmas label (demoReturns columns (priceFrame T tm p)) pairs mv mc clipAt mean with e' | c
  · rw [hc] at h
    left
    cases h; rfl
  right
  rw [hc, ok_bind] at h
  obtain ⟨T', tm', x, htm', hf⟩ := demo_represents hpr htm columns
  obtain ⟨P, hE, hP⟩ := ewmaPanel_of_call hn label htm' hf hp hne mv mc clipAt mean hc
  obtain ⟨q, hq⟩ := exists_lastPair label hne
  obtain ⟨rs, hrs, _⟩ := (C41_succeeds_iff hn label (distinct_of_lt htm') hf hp mv mc clipAt mean).mp ⟨c, hc⟩ q hq.mem
  have hlen : 2 ≤ P.len := by rw [← (hE.results hq hrs).1]; exact hlong q hq.mem rs hrs
  exact ⟨c.labels, P, hE, demo_fails label hn hs hp htm' hf hc hP hlen h⟩

/-- The hypotheses of C158_exceptions are met: if the solver always fails, the demo raises `AttributeError`. -/
example [DecidableEq (XR × XR)] :
    callDemo id (fun _ _ => .solverError) DemoEx.columns E2EEx.pairs 1 2 none false 1 (DemoEx.prices 5)
      = .error .attributeError := by
  have htm : ∀ s t : ℕ, s < t → t < 4 → s + 1 < t + 1 := fun s t h _ => by omega
  have hpos : 0 < E2EEx.pairs.length := by simp [E2EEx.pairs]
  have hlong : ∀ q ∈ E2EEx.pairs, ∀ rs, iteratedEwma (demoReturns DemoEx.columns (DemoEx.prices 5))
      (ewmasArgs 1 2 none false q).toArgs = .ok rs → 2 ≤ rs.length := by
    intro q hq rs hrs
    rw [E2EEx.runs_of DemoEx.fine (by omega) (distinct_of_lt htm) (DemoEx.represents 4) q (E2EEx.pos q hq)] at hrs
    cases hrs
    rw [List.length_map, E2EEx.rowsFrom_length]; norm_num
  obtain ⟨D, hD, _⟩ := DemoEx.runs 4 (by norm_num)
  rw [callDemo_eq, bind_ok_iff _ _ _] at hD
  obtain ⟨c, hc, hw⟩ := hD
  obtain ⟨herr, l, hl, rfl⟩ := weightRows_ok.mp hw
  obtain ⟨P, _, hP, hlen, hC, hclean, _⟩ := demo_run (by norm_num) id htm (DemoEx.represents 4) E2EEx.pos
    (by simp [E2EEx.pairs]) hc hlong (fun K => exactSolver_exact.feasible) herr hl
  have hfeas : ∀ K, Solver.Feasible (n := 2) (fun _ => Outcome.solverError : Solver 2 K) := by
    intro K ps p w h; cases h
  have hWlt : windowOf (some 1) P.len < P.len := by
    unfold windowOf; omega
  rw [callDemo_eq, hc, ok_bind]
  rcases h : weightRows (c.solve (fun _ _ => .solverError) (some 1)) with e | D
  · rcases demo_fails id (by norm_num) hfeas E2EEx.pos htm (DemoEx.represents 4) hc hP hlen h with
      ⟨_, t, h1, h2, s, h3, h4, h5⟩ | ⟨_, ⟨⟨t, h1, h2, h3⟩, _⟩ | ⟨_, t, _, _, _, ⟨_, h5⟩ | h5⟩⟩
    · exact absurd h5 (hclean t h1 h2 s h3 h4)
    · exact absurd (hC.gram t h1 h2) h3
    · rw [h5]
    · cases h5
  · obtain ⟨herr', l', hl', _⟩ := weightRows_ok.mp h
    obtain ⟨P', _, _, hlen', hC', _, _⟩ := demo_run (by norm_num) id htm (DemoEx.represents 4) E2EEx.pos
      (by simp [E2EEx.pairs]) hc hlong hfeas herr' hl'
    obtain ⟨w, hw⟩ := hC'.solved _ le_rfl (by unfold windowOf; omega)
    cases hw

end CovPred
