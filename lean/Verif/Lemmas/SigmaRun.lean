import Verif.Lemmas.CmIewma
import Verif.Lemmas.RunErrors
import Verif.Props.Solve

/-
`from_sigmas` without means on experts `C s k` for the rows `s = a, ..., T - 1` of returns `x 0, ..., x (T-1)`, for any `C`.
-/
set_option linter.unusedSectionVars false
namespace CovPred
open Matrix

variable {τ : Type} [LinearOrder τ] {n K : ℕ}

/-- the experts and returns of the rows `a, ..., T - 1` -/
def offPanel (C : ℕ → Fin K → Mat n) (a : ℕ) (tm : ℕ → τ) (x : ℕ → Vec n) (T : ℕ) : Panel τ n K where
  len := T - a
  time j := tm (a + j)
  cov j := C (a + j)
  mean _ _ := 0
  ret j := x (a + j)

/-- the window that is used -/
def offWindow (a window T : ℕ) : ℕ := min window (T - a - 1)

variable {C : ℕ → Fin K → Mat n} {a window T : ℕ} {tm : ℕ → τ} {x : ℕ → Vec n} {solver : Solver n K}

/-- what is needed -/
structure OffSetup (solver : Solver n K) (C : ℕ → Fin K → Mat n) (a window T : ℕ) (tm : ℕ → τ) : Prop where
  experts : 0 < K
  labels : Increasing T tm
  window_pos : 0 < window
  feasible : solver.Feasible
  rows : a + 2 ≤ T
  symm : ∀ s, a ≤ s → s < T → ∀ k i j, C s k i j = C s k j i

/-- lines `from_sigmas(...).solve(window)` and the comprehension over it -/
noncomputable def sigmaRun (solver : Solver n K) (window : ℕ) (sigmas : Fin K → Dict τ (Mat n)) (returns : Dict τ (Vec n)) :
    Except Err (Dict τ (Mat n)) := do
  let comb ← fromSigmas sigmas returns none
  listDict (comb.solve solver (some window) none)

theorem off_ok_iff (h : OffSetup solver C a window T tm) (d : Dict τ (Mat n)) :
    sigmaRun solver window (offPanel C a tm x T).sigmas (rowDict T tm x) = .ok d ↔
      (offPanel C a tm x T).Completes solver (offWindow a window T) ∧
      d = (List.range' (a + offWindow a window T) (T - (a + offWindow a window T))).map fun s =>
        (tm s, blendCov (C s) ((offPanel C a tm x T).weightsAt solver (offWindow a window T) (offWindow a window T) (s - a))) := by
  have hrows := h.rows
  set W := offWindow a window T with hW
  set P := offPanel C a tm x T with hP
  have hlen : P.len = T - a := rfl
  have hWdef : W = min window (P.len - 1) := rfl
  have hPtime : ∀ s t, s < t → t < P.len → P.time s < P.time t := by
    intro s t hst ht
    exact h.labels _ _ (by omega) (by omega)
  unfold sigmaRun
  have hd : ((List.range' (a + W) (T - (a + W))).map fun s => (tm s, blendCov (C s) (P.weightsAt solver W W (s - a))))
      = (List.range' W (P.len - W)).map fun t => (P.time t, blendCov (P.cov t) (P.weightsAt solver W W t)) := by
    rw [map_range_shift, map_range_shift, show T - (a + W) = P.len - W by rw [hlen]; omega]
    apply List.map_congr_left
    intro j _
    show _ = (tm (a + (W + j)), blendCov (C (a + (W + j))) (P.weightsAt solver W W (W + j)))
    rw [show a + (W + j) = a + W + j by omega, show a + W + j - a = W + j by omega]
  rw [hd]
  by_cases hok : P.Ok
  · apply solve_list_completes h.experts (fun _ _ => rfl) hok ?_ (by omega) h.window_pos h.feasible d hWdef
    intro t _ ht
    exact lookup_map_range (fun s t h1 h2 => h.labels s t h1 h2) _ _ (by omega)
  · constructor
    · intro hc'
      exfalso
      apply hok
      rcases hc : fromSigmas P.sigmas (rowDict T tm x) none with e | c
      · rw [hc] at hc'; cases hc'
      · have hus := (C38_constructor_ok _ _ _).mp ⟨c, hc⟩
        refine ⟨hPtime, fun t ht i => ?_⟩
        refine (C38_usable_iff _ ?_).mp (hus.2.1 i _ (List.mem_map.mpr ⟨t, List.mem_range.mpr ht, rfl⟩))
        ext p q
        exact h.symm (a + t) (by omega) (by omega) _ _ _
    · rintro ⟨h, _⟩; exact absurd h.ok hok

/-- the likelihood of the panel in terms of rows -/
theorem off_logLik (W : ℕ) {s : ℕ} (hs : a + W ≤ s) (w : Vec K) :
    (offPanel C a tm x T).logLik W (s - a) w
      = ∑ u ∈ Finset.Ioc (s - W) s, gaussLogDensity 0 (blendCov (C (u - 1)) w) (x u) := by
  unfold Panel.logLik
  apply Finset.sum_bij (fun u _ => a + u)
  · intro u hu
    rw [Finset.mem_Ioc] at hu ⊢
    omega
  · intro b _ c _ hab; omega
  · intro b hb
    rw [Finset.mem_Ioc] at hb
    exact ⟨b - a, by rw [Finset.mem_Ioc]; omega, by omega⟩
  · intro u hu
    rw [Finset.mem_Ioc] at hu
    have e : blendMean ((offPanel C a tm x T).cov (u - 1)) ((offPanel C a tm x T).mean (u - 1)) w = 0 := by
      unfold blendMean
      simp [offPanel]
    rw [e]
    show gaussLogDensity 0 (blendCov (C (a + (u - 1))) w) (x (a + u)) = _
    rw [show a + (u - 1) = a + u - 1 by omega]

theorem off_prediction (h : OffSetup solver C a window T tm) {d : Dict τ (Mat n)}
    (hd : sigmaRun solver window (offPanel C a tm x T).sigmas (rowDict T tm x) = .ok d) {s : ℕ}
    (hs : a + offWindow a window T ≤ s) (hsT : s < T) :
    ∃ S, d.lookup (tm s) = some S ∧ S.PosDef ∧ (∀ k, (C s k).PosDef) ∧
      ∃ w, Simplex w ∧ S = blendCov (C s) w ∧
        (solver.Exact → ∀ w', Simplex w' →
          ∑ u ∈ Finset.Ioc (s - offWindow a window T) s, gaussLogDensity 0 (blendCov (C (u - 1)) w') (x u)
            ≤ ∑ u ∈ Finset.Ioc (s - offWindow a window T) s, gaussLogDensity 0 (blendCov (C (u - 1)) w) (x u)) := by
  obtain ⟨hc, rfl⟩ := (off_ok_iff h d).mp hd
  set W := offWindow a window T with hW
  set P := offPanel C a tm x T with hP
  have hlen : P.len = T - a := rfl
  have hlt : s - a < P.len := by rw [hlen]; omega
  have hcov : P.cov (s - a) = C s := by
    show C (a + (s - a)) = _
    rw [show a + (s - a) = s by omega]
  have hpos : ∀ i, (C s i).PosDef := fun i => by
    have := hc.ok.posDef (s - a) hlt i
    rwa [hcov] at this
  obtain ⟨w, hout⟩ := hc.solved (s - a) (by omega) hlt
  have hwat : P.weightsAt solver W W (s - a) = w := by unfold Panel.weightsAt; rw [hout]
  have hsimp : Simplex w := by
    have := hout
    unfold Panel.outcome at this
    rw [range'_concat_params P W W _ (by omega)] at this
    exact h.feasible _ _ _ this
  refine ⟨_, ?_, ?_, hpos, w, hsimp, rfl, ?_⟩
  · rw [map_range_shift]
    have := lookup_map_range (time := fun j => tm (a + W + j)) (N := T - (a + W))
      (fun a b hab hb => h.labels _ _ (by omega) (by omega))
      (fun j => blendCov (C (a + W + j)) (P.weightsAt solver W W (a + W + j - a))) (s - (a + W)) (by omega)
    rw [show a + W + (s - (a + W)) = s by omega, hwat] at this
    exact this
  · exact blendCov_posDef hpos hsimp
  · intro hex w' hw'
    have hgr := hc.gram (s - a) (by omega) hlt
    have hbest := outcome_exact (P := P) hc.ok h.experts (a := W) (W := W) (t := s - a) (by omega) (by omega) hlt hgr
      hex hout
    have hopt := best_optimal (P := P) hc.ok h.experts (W := W) (t := s - a) (by omega) hlt hgr
    rw [← hbest] at hopt
    have := hopt.2 w' hw'
    rw [hP, off_logLik W hs, off_logLik W hs] at this
    exact this

theorem off_success (h : OffSetup solver C a window T tm) (hs : solver.Exact) (hs' : solver.Complete) :
    (∃ d, sigmaRun solver window (offPanel C a tm x T).sigmas (rowDict T tm x) = .ok d) ↔
      (∀ s, a ≤ s → s < T → ∀ k, (C s k).PosDef) ∧
      ∀ t, offWindow a window T ≤ t → t < T - a → ((offPanel C a tm x T).gram (offWindow a window T) t).PosDef := by
  have hrows := h.rows
  constructor
  · rintro ⟨d, hd⟩
    obtain ⟨h2, _⟩ := (off_ok_iff h d).mp hd
    refine ⟨fun s h3 h4 k => ?_, h2.gram⟩
    have := h2.ok.posDef (s - a) (by show _ < T - a; omega) k
    change (C (a + (s - a)) k).PosDef at this
    rwa [show a + (s - a) = s by omega] at this
  · rintro ⟨h2, h3⟩
    have hok : (offPanel C a tm x T).Ok :=
      ⟨fun s t hst ht => h.labels _ _ (by omega) (by simp only [offPanel] at ht; omega),
        fun t ht i => h2 _ (by omega) (by simp only [offPanel] at ht; omega) i⟩
    exact ⟨_, (off_ok_iff h _).mpr ⟨⟨hok, h3, fun t h4 h5 =>
      ⟨_, outcome_complete hok h.experts h4 h4 h5 (h3 t h4 h5) hs hs'⟩⟩, rfl⟩⟩

theorem off_no_lookahead {C' : ℕ → Fin K → Mat n} {T' : ℕ} {x' : ℕ → Vec n} (h : OffSetup solver C a window T tm)
    (h' : OffSetup solver C' a window T' tm) (hT : T ≤ T') (hx : ∀ u < T, x u = x' u) (hC : ∀ u, a ≤ u → u < T → C u = C' u)
    (hroom : a + window < T) {d' : Dict τ (Mat n)}
    (hd' : sigmaRun solver window (offPanel C' a tm x' T').sigmas (rowDict T' tm x') = .ok d') :
    sigmaRun solver window (offPanel C a tm x T).sigmas (rowDict T tm x) = .ok (d'.take (T - (a + window))) := by
  obtain ⟨h2, rfl⟩ := (off_ok_iff h' d').mp hd'
  have hW' : offWindow a window T' = window := by unfold offWindow; omega
  have hW : offWindow a window T = window := by unfold offWindow; omega
  rw [hW'] at h2 ⊢
  have hag : ∀ t < T - a, (offPanel C a tm x T).AgreeTo (offPanel C' a tm x' T') t := fun t ht =>
    ⟨fun s hs => rfl, fun s hs => hC _ (by omega) (by omega), fun s hs => rfl, fun s _ hs => hx _ (by omega)⟩
  have hout : ∀ t, window ≤ t → t < T - a → (offPanel C a tm x T).outcome solver window window t
      = (offPanel C' a tm x' T').outcome solver window window t := by
    intro t h3 h4
    unfold Panel.outcome
    congr 1
    apply List.map_congr_left
    intro u hu
    rw [List.mem_range'_1] at hu
    apply params_congr (by omega)
    · intro v _ hv
      exact (hag t h4).cov (v - 1) (by omega)
    · intro v _ _; rfl
    · intro v hv1 hv
      exact hx _ (by omega)
  refine (off_ok_iff h _).mpr ⟨?_, ?_⟩
  · rw [hW]
    refine ⟨⟨fun s t hst ht => h.labels _ _ (by omega) (by simp only [offPanel] at ht; omega), fun t ht i => ?_⟩,
      fun t h3 h4 => ?_, fun t h3 h4 => ?_⟩
    · have := h2.ok.posDef t (by simp only [offPanel] at ht ⊢; omega) i
      rw [(hag t ht).cov t le_rfl]
      exact this
    · rw [gram_agree (hag t h4) h3]
      exact h2.gram t h3 (by have h5 : t < T - a := h4; show t < T' - _; omega)
    · obtain ⟨w, hw⟩ := h2.solved t h3 (by have h5 : t < T - a := h4; show t < T' - _; omega)
      exact ⟨w, by rw [← hw]; exact hout t h3 h4⟩
  · rw [hW, ← List.map_take]
    have ht : (List.range' (a + window) (T' - (a + window))).take (T - (a + window))
        = List.range' (a + window) (T - (a + window)) := by
      apply List.ext_getElem
      · simp; omega
      · intro k h3 h4; simp
    rw [ht]
    apply List.map_congr_left
    intro s hs
    rw [List.mem_range'_1] at hs
    have e2 : (offPanel C' a tm x' T').weightsAt solver window window (s - a)
        = (offPanel C a tm x T).weightsAt solver window window (s - a) := by
      unfold Panel.weightsAt
      rw [hout _ (by omega) (by omega)]
    rw [← hC s (by omega) (by omega), e2]

theorem off_exceptions (h : OffSetup solver C a window T tm) {e : Err}
    (he : sigmaRun solver window (offPanel C a tm x T).sigmas (rowDict T tm x) = .error e) :
    (e = .linAlgError ∧ ∃ s, a ≤ s ∧ s < T ∧ ∃ k, ¬ (C s k).PosDef) ∨
    ((∀ s, a ≤ s → s < T → ∀ k, (C s k).PosDef) ∧ (offPanel C a tm x T).FailsList solver (offWindow a window T) e) := by
  have hrows := h.rows
  set P := offPanel C a tm x T with hP
  have hlen : P.len = T - a := rfl
  unfold sigmaRun at he
  rcases solve_list_fails h.experts (fun _ _ => rfl) (P := P) (fun s t hst ht => h.labels _ _ (by omega) (by omega))
    (fun t ht k => by ext p q; exact h.symm (a + t) (by omega) (by omega) _ _ _)
    (fun t _ ht => lookup_map_range (fun s t h1 h2 => h.labels s t h1 h2) _ _ (by omega)) (by omega) h.window_pos h.feasible
    (show offWindow a window T = min window (P.len - 1) from rfl) he with ⟨h1, t, ht, k, hk⟩ | ⟨h1, h2⟩
  · exact Or.inl ⟨h1, a + t, by omega, by omega, k, hk⟩
  · refine Or.inr ⟨fun s h3 h4 k => ?_, h2⟩
    have := h1 (s - a) (by omega) k
    have e : P.cov (s - a) k = C (a + (s - a)) k := rfl
    rw [e, show a + (s - a) = s by omega] at this
    exact this

end CovPred
