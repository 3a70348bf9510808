import Verif.Model.CmMean
import Verif.Lemmas.RunErrors
import Verif.Props.Solve

/-
`from_sigmas` with means on the experts of a panel, followed by the tables of the results.
-/
set_option linter.unusedSectionVars false
namespace CovPred
open Matrix

variable {τ : Type} [LinearOrder τ] {n K : ℕ} {P : Panel τ n K} {returns : Dict τ (Vec n)} {solver : Solver n K} {window : ℕ}

/-- lines `from_sigmas(..., means).solve(window)` and the tables -/
noncomputable def panelTables (P : Panel τ n K) (returns : Dict τ (Vec n)) (solver : Solver n K) (window : ℕ) :
    Except Err (MeanTables τ n K) := do
  let comb ← fromSigmas P.sigmas returns (some fun k => some (P.means k))
  meanTables (comb.solve solver (some window) none)

/-- what is needed -/
structure TablesSetup (P : Panel τ n K) (returns : Dict τ (Vec n)) (solver : Solver n K) (window : ℕ) : Prop where
  experts : 0 < K
  time_lt : ∀ s t, s < t → t < P.len → P.time s < P.time t
  symm : ∀ t < P.len, ∀ k, (P.cov t k)ᵀ = P.cov t k
  covered : P.Covered returns
  rows : 2 ≤ P.len
  window_pos : 0 < window
  feasible : solver.Feasible

/-- the tables of a run that goes through -/
noncomputable def runTables (P : Panel τ n K) (solver : Solver n K) (W : ℕ) : MeanTables τ n K where
  covariances := (List.range' W (P.len - W)).map fun t => (P.time t, blendCov (P.cov t) (P.weightsAt solver W W t))
  means := (List.range' W (P.len - W)).map fun t => (P.time t, blendMean (P.cov t) (P.mean t) (P.weightsAt solver W W t))
  weights := (List.range' W (P.len - W)).map fun t => (P.time t, P.weightsAt solver W W t)

theorem run_nodup (hP : P.Ok) {A : Type} (W : ℕ) (g : ℕ → A) :
    (((List.range' W (P.len - W)).map fun t => (P.time t, g t)).map Prod.fst).Nodup := by
  rw [List.map_map]
  apply List.Nodup.map_on
  · intro s hs t ht e
    rw [List.mem_range'_1] at hs ht
    exact time_inj hP (by omega) (by omega) e
  · exact List.nodup_range'

theorem meanTables_run (hP : P.Ok) {W : ℕ} {tr : Trace (Result τ n K)} (hrun : P.Run solver W W P.len tr)
    (d : MeanTables τ n K) : meanTables tr = .ok d ↔ P.Completes solver W ∧ d = runTables P solver W := by
  rcases hrun with ⟨⟨t, h1, h2, h3⟩, htr⟩ | ⟨hg, m, hitems, hnr, hend⟩
  · rw [htr]
    constructor
    · intro h; cases h
    · rintro ⟨h, _⟩; exact absurd (h.gram t h1 h2) h3
  · rcases hend with ⟨rfl, herr⟩ | ⟨hlt, e, herr, hout⟩
    · unfold meanTables
      rw [herr, hitems]
      by_cases hsol : ∀ t, W ≤ t → t < P.len → ∃ w, P.outcome solver W W t = .weights w
      · have e1 : ((List.range' W (P.len - W)).map (P.item solver W W)).mapM theResult
            = .ok ((List.range' W (P.len - W)).map fun t => P.predict t (P.weightsAt solver W W t)) := by
          rw [List.mapM_map]
          apply mapM_ok_of
          intro t ht
          rw [List.mem_range'_1] at ht
          obtain ⟨w, hw⟩ := hsol t ht.1 (by omega)
          simp only [Function.comp, Panel.item, Panel.weightsAt, hw, theResult]
        dsimp only
        rw [e1, ok_bind]
        simp only [List.map_map]
        have e2 : ∀ {A : Type} (g : Result τ n K → A), dictOf ((List.range' W (P.len - W)).map
            ((fun r => (r.time, g r)) ∘ fun t => P.predict t (P.weightsAt solver W W t)))
            = (List.range' W (P.len - W)).map fun t => (P.time t, g (P.predict t (P.weightsAt solver W W t))) := by
          intro A g
          exact dictOf_nodup _ (run_nodup hP W fun t => g (P.predict t (P.weightsAt solver W W t)))
        rw [e2 (fun r => r.covariance), e2 (fun r => r.mean), e2 (fun r => r.weights)]
        constructor
        · intro h
          exact ⟨⟨hP, hg, hsol⟩, (Except.ok.inj h).symm⟩
        · rintro ⟨_, rfl⟩; rfl
      · constructor
        · intro h
          exfalso
          apply hsol
          intro t h1 h2
          rcases hm : ((List.range' W (P.len - W)).map (P.item solver W W)).mapM theResult with e | items
          · simp only [hm] at h; cases h
          · rw [mapM_ok_iff_forall₂] at hm
            obtain ⟨r, _, hr⟩ := forall₂_mem_left hm (List.mem_map.mpr ⟨t, by rw [List.mem_range'_1]; omega, rfl⟩)
            unfold Panel.item at hr
            rcases ho : P.outcome solver W W t with w | _ | e
            · exact ⟨w, rfl⟩
            · rw [ho] at hr; cases hr
            · rw [ho] at hr; cases hr
        · rintro ⟨h, _⟩; exact absurd h.solved hsol
    · unfold meanTables
      rw [herr]
      constructor
      · intro h; cases h
      · rintro ⟨h, _⟩
        obtain ⟨w, hw⟩ := h.solved (W + m) (by omega) (by omega)
        rw [hw] at hout; cases hout

theorem TablesSetup.run (h : TablesSetup P returns solver window) (hP : P.Ok) {W : ℕ} (hW : W = min window (P.len - 1)) :
    ∃ c, fromSigmas P.sigmas returns (some fun k => some (P.means k)) = .ok c ∧
      P.Run solver W W P.len (c.solve solver (some window) none) := by
  have hrows := h.rows
  refine ⟨_, fromSigmas_panel hP h.experts returns, ?_⟩
  have hrun := solve_run_none (c := P.comb returns) ⟨hP, h.covered, h.experts, Or.inl (fromSigmas_panel hP h.experts returns)⟩
    h.rows h.feasible (some window)
  have he : effWindow (some window) (P.len - 1) = W := by
    unfold effWindow; simp only [if_neg h.window_pos.ne']; rw [hW]
  rwa [he] at hrun

theorem tables_ok_iff (h : TablesSetup P returns solver window) {W : ℕ} (hW : W = min window (P.len - 1))
    (d : MeanTables τ n K) :
    panelTables P returns solver window = .ok d ↔ P.Completes solver W ∧ d = runTables P solver W := by
  unfold panelTables
  by_cases hok : P.Ok
  · obtain ⟨c, hc, hrun⟩ := h.run hok hW
    rw [hc, ok_bind]
    exact meanTables_run hok hrun d
  · constructor
    · intro hc'
      exfalso
      apply hok
      rcases hc : fromSigmas P.sigmas returns (some fun k => some (P.means k)) with e | c
      · rw [hc] at hc'; cases hc'
      · have hus := (C38_constructor_ok _ _ _).mp ⟨c, hc⟩
        exact ⟨h.time_lt, fun t ht i => (C38_usable_iff _ (h.symm t ht i)).mp
          (hus.2.1 i _ (List.mem_map.mpr ⟨t, List.mem_range.mpr ht, rfl⟩))⟩
    · rintro ⟨h, _⟩; exact absurd h.ok hok

theorem tables_fails (h : TablesSetup P returns solver window) {W : ℕ} (hW : W = min window (P.len - 1)) {e : Err}
    (he : panelTables P returns solver window = .error e) :
    (e = .linAlgError ∧ ∃ t < P.len, ∃ k, ¬ (P.cov t k).PosDef) ∨
    ((∀ t < P.len, ∀ k, (P.cov t k).PosDef) ∧ P.FailsList solver W e) := by
  unfold panelTables at he
  by_cases hpd : ∀ t < P.len, ∀ k, (P.cov t k).PosDef
  · right
    refine ⟨hpd, ?_⟩
    obtain ⟨c, hc, hrun⟩ := h.run ⟨h.time_lt, hpd⟩ hW
    rw [hc, ok_bind] at he
    apply list_fails hrun (g := theResult) rfl (fun r => ⟨_, rfl⟩)
    unfold meanTables at he
    rcases hc : (c.solve solver (some window) none).err with _ | e'
    · right
      rw [hc] at he
      rcases hm : (c.solve solver (some window) none).items.mapM theResult with e' | items
      · simp only [hm] at he
        cases he; exact ⟨rfl, rfl⟩
      · simp only [hm] at he
        cases he
    · rw [hc] at he
      cases he; exact Or.inl rfl
  · left
    push Not at hpd
    obtain ⟨t, ht, k, hk⟩ := hpd
    refine ⟨?_, t, ht, k, hk⟩
    have hkey : ∀ i, Dict.keys (P.means i) = Dict.keys (P.sigmas i) := fun i => by
      unfold Dict.keys Panel.means Panel.sigmas
      simp [List.map_map, Function.comp_def]
    rcases hc : fromSigmas P.sigmas returns (some fun k => some (P.means k)) with e' | c
    · rw [hc] at he
      have : e' = e := by cases he; rfl
      subst this
      rcases C38_constructor_error _ _ _ _ hc with ⟨_, _, _, h1, h2⟩ | ⟨_, _, i, _, h1, h2, h3⟩ | ⟨h1, _⟩ | ⟨_, _, h1, _⟩
      · cases h1; cases h2
      · cases h1; cases h2
        exact absurd (fun t => by rw [hkey i]) h3
      · exact h1
      · exact absurd ((C38_usable_iff _ (h.symm t ht k)).mp (h1 k _ (List.mem_map.mpr ⟨t, List.mem_range.mpr ht, rfl⟩))) hk
    · have hus := (C38_constructor_ok _ _ _).mp ⟨c, hc⟩
      exact absurd ((C38_usable_iff _ (h.symm t ht k)).mp (hus.2.1 k _ (List.mem_map.mpr ⟨t, List.mem_range.mpr ht, rfl⟩))) hk

end CovPred
