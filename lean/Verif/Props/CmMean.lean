import Verif.Lemmas.CmMean
import Verif.Props.CmIewma
import Verif.Spec.RunErrors

/-
Properties C170 and C171 of the cells of nonzero_means.ipynb that fit CM-IEWMA with means (lines 107-119 and 971-988).

The returns are the rows `x 0, ..., x (T-1)` with labels `tm`. `MeanSetup` (Verif/Spec/CmMean.lean) collects the conditions on
the arguments: increasing labels, a pair of half-lives for each expert in both lists, two rows with predictions, and a solver
that respects its constraints. `f` is the first row that enters (`FirstRow`), `warm mc f` the first row with predictions of
the experts and `meanWindow` the window, cut to the rows there are.
-/
set_option linter.unusedSectionVars false
namespace CovPred
open Matrix XR

variable {τ : Type} [LinearOrder τ] {n K : ℕ}

section
variable {solver : Solver n K} {covPairs meanPairs : List (ℝ × ℝ)} {p q : Fin K → ℝ × ℝ} {mv mc f window T : ℕ} {tm : ℕ → τ}
  {x : ℕ → Vec n}

/-! ### C170: what the cell computes -/

theorem table_row {A : Type} {T a : ℕ} {tm : ℕ → τ} (htm : Increasing T tm) (g : ℕ → A) {b : ℕ} (W : ℕ) {s : ℕ}
    (hs : a + W ≤ s) (hsT : s < T) (hb : b = T - a - W) :
    ((List.range' W b).map fun t => (tm (a + t), g t)).lookup (tm s) = some (g (s - a)) := by
  subst hb
  rw [map_range_shift]
  have := lookup_map_range (time := fun j => tm (a + (W + j))) (N := T - a - W)
    (fun i j hij hj => htm _ _ (by omega) (by omega)) (fun j => g (W + j)) (s - a - W) (by omega)
  rw [show a + (W + (s - a - W)) = s by omega, show W + (s - a - W) = s - a by omega] at this
  exact this

/-- **C170.** The dates of the three tables: every row from the first one with predictions of the experts plus the window on,
once, in order. -/
theorem C170_days (h : MeanSetup solver covPairs meanPairs p q mv mc f window T tm x) (lamda : ℝ) {d : MeanTables τ n K}
    (hd : cmMean solver covPairs meanPairs (rowDict T tm x) mv mc lamda window = .ok d) :
    d.covariances.map Prod.fst = (List.range' (warm mc f + meanWindow mc f window T)
      (T - (warm mc f + meanWindow mc f window T))).map tm ∧
    d.means.map Prod.fst = d.covariances.map Prod.fst ∧ d.weights.map Prod.fst = d.covariances.map Prod.fst := by
  obtain ⟨_, _, rfl⟩ := (cmMean_ok_iff h lamda d).mp hd
  unfold runTables
  simp only [List.map_map]
  refine ⟨?_, rfl, rfl⟩
  rw [map_range_shift, map_range_shift]
  have e : T - (warm mc f + meanWindow mc f window T) = (meanPanel p q mv mc f lamda tm x T).len - meanWindow mc f window T := by
    show _ = T - warm mc f - meanWindow mc f window T
    omega
  rw [e]
  apply List.map_congr_left
  intro j _
  show tm (warm mc f + (meanWindow mc f window T + j)) = tm (warm mc f + meanWindow mc f window T + j)
  rw [Nat.add_assoc]

theorem mean_logLik (lamda : ℝ) (N W : ℕ) {s : ℕ} (hs : warm mc f + W ≤ s) (w : Vec K) :
    (meanPanel p q mv mc f lamda tm x N).logLik W (s - warm mc f) w = meanLogLik p q mv mc f lamda x W s w := by
  unfold Panel.logLik meanLogLik
  apply Finset.sum_bij (fun u _ => warm mc f + u)
  · intro u hu
    rw [Finset.mem_Ioc] at hu ⊢
    omega
  · intro a _ b _ hab; omega
  · intro b hb
    rw [Finset.mem_Ioc] at hb
    exact ⟨b - warm mc f, by rw [Finset.mem_Ioc]; omega, by omega⟩
  · intro u hu
    rw [Finset.mem_Ioc] at hu
    show gaussLogDensity (blendMean (expertSigma p q mv mc f lamda x (warm mc f + (u - 1)))
      (expertMean p q mv mc f x (warm mc f + (u - 1))) w)
      (blendCov (expertSigma p q mv mc f lamda x (warm mc f + (u - 1))) w) (x (warm mc f + u)) = _
    rw [show warm mc f + (u - 1) = warm mc f + u - 1 by omega]

/-- **C170.** The predictions for a date: the covariances of the experts of that row are positive definite, and the tables have
the blends of the experts' covariances and means with the weights of the third table. The weights are on the simplex, so
the covariance is positive definite; with an exact solver they maximise the likelihood of the returns of the last
`window` rows under the blends of the experts of the row before each. -/
theorem C170_prediction (h : MeanSetup solver covPairs meanPairs p q mv mc f window T tm x) (lamda : ℝ) {d : MeanTables τ n K}
    (hd : cmMean solver covPairs meanPairs (rowDict T tm x) mv mc lamda window = .ok d) {s : ℕ}
    (hs : warm mc f + meanWindow mc f window T ≤ s) (hsT : s < T) :
    ∃ w, d.weights.lookup (tm s) = some w ∧ Simplex w ∧ (∀ k, (expertSigma p q mv mc f lamda x s k).PosDef) ∧
      d.covariances.lookup (tm s) = some (blendCov (expertSigma p q mv mc f lamda x s) w) ∧
      (blendCov (expertSigma p q mv mc f lamda x s) w).PosDef ∧
      d.means.lookup (tm s) = some (blendMean (expertSigma p q mv mc f lamda x s) (expertMean p q mv mc f x s) w) ∧
      (solver.Exact → ∀ w', Simplex w' →
        meanLogLik p q mv mc f lamda x (meanWindow mc f window T) s w'
          ≤ meanLogLik p q mv mc f lamda x (meanWindow mc f window T) s w) := by
  obtain ⟨_, hc, rfl⟩ := (cmMean_ok_iff h lamda d).mp hd
  set W := meanWindow mc f window T with hW
  set P := meanPanel p q mv mc f lamda tm x T with hP
  have hlen : P.len = T - warm mc f := rfl
  have hlt : s - warm mc f < P.len := by rw [hlen]; omega
  have hsw : warm mc f + (s - warm mc f) = s := by omega
  have hcov : P.cov (s - warm mc f) = expertSigma p q mv mc f lamda x s := by
    show expertSigma p q mv mc f lamda x (warm mc f + (s - warm mc f)) = _
    rw [hsw]
  have hmean : P.mean (s - warm mc f) = expertMean p q mv mc f x s := by
    show expertMean p q mv mc f x (warm mc f + (s - warm mc f)) = _
    rw [hsw]
  have hpos : ∀ k, (expertSigma p q mv mc f lamda x s k).PosDef := fun k => by
    have := hc.ok.posDef (s - warm mc f) hlt k
    rwa [hcov] at this
  obtain ⟨w, hout⟩ := hc.solved (s - warm mc f) (by omega) hlt
  have hwat : P.weightsAt solver W W (s - warm mc f) = w := by unfold Panel.weightsAt; rw [hout]
  have hsimp : Simplex w := by
    have := hout
    unfold Panel.outcome at this
    rw [range'_concat_params P W W _ (by omega)] at this
    exact h.feasible _ _ _ this
  refine ⟨w, ?_, hsimp, hpos, ?_, blendCov_posDef hpos hsimp, ?_, ?_⟩
  · have := table_row h.labels (fun t => P.weightsAt solver W W t) W hs hsT (b := P.len - W) (by rw [hlen])
    rw [hwat] at this
    exact this
  · have := table_row h.labels (fun t => blendCov (P.cov t) (P.weightsAt solver W W t)) W hs hsT (b := P.len - W) (by rw [hlen])
    rw [hwat, hcov] at this
    exact this
  · have := table_row h.labels (fun t => blendMean (P.cov t) (P.mean t) (P.weightsAt solver W W t)) W hs hsT (b := P.len - W)
      (by rw [hlen])
    rw [hwat, hcov, hmean] at this
    exact this
  · intro hex w' hw'
    have hgr := hc.gram (s - warm mc f) (by omega) hlt
    have hbest := outcome_exact (P := P) hc.ok h.experts (a := W) (W := W) (t := s - warm mc f) (by omega) (by omega) hlt hgr
      hex hout
    have hopt := best_optimal (P := P) hc.ok h.experts (W := W) (t := s - warm mc f) (by omega) hlt hgr
    rw [← hbest] at hopt
    have := hopt.2 w' hw'
    rw [hP, mean_logLik lamda T W hs, mean_logLik lamda T W hs] at this
    exact this

/-- **C170.** With a solver that finds the optimum, the cell runs through exactly if the covariances of the experts are finite
and positive definite and no window is degenerate. -/
theorem C170_success (h : MeanSetup solver covPairs meanPairs p q mv mc f window T tm x) (lamda : ℝ)
    (hs : solver.Exact ∧ solver.Complete) :
    (∃ d, cmMean solver covPairs meanPairs (rowDict T tm x) mv mc lamda window = .ok d) ↔
      FiniteSigmas p q mv mc f x T ∧
      (∀ s, warm mc f ≤ s → s < T → ∀ k, (expertSigma p q mv mc f lamda x s k).PosDef) ∧
      ∀ t, meanWindow mc f window T ≤ t → t < T - warm mc f →
        ((meanPanel p q mv mc f lamda tm x T).gram (meanWindow mc f window T) t).PosDef := by
  constructor
  · rintro ⟨d, hd⟩
    obtain ⟨h1, h2, _⟩ := (cmMean_ok_iff h lamda d).mp hd
    refine ⟨h1, fun s hs1 hs2 k => ?_, h2.gram⟩
    have := h2.ok.posDef (s - warm mc f) (by show _ < T - warm mc f; omega) k
    change (expertSigma p q mv mc f lamda x (warm mc f + (s - warm mc f)) k).PosDef at this
    rwa [show warm mc f + (s - warm mc f) = s by omega] at this
  · rintro ⟨h1, h2, h3⟩
    have hok : (meanPanel p q mv mc f lamda tm x T).Ok :=
      ⟨fun s t hst ht => h.labels _ _ (by omega) (by simp only [meanPanel] at ht; omega),
        fun t ht i => h2 _ (by omega) (by simp only [meanPanel] at ht; omega) i⟩
    exact ⟨_, (cmMean_ok_iff h lamda _).mpr ⟨h1, ⟨hok, h3, fun t h4 h5 =>
      ⟨_, outcome_complete hok h.experts h4 h4 h5 (h3 t h4 h5) hs.1 hs.2⟩⟩, rfl⟩⟩

theorem rowMeanIewma_congr {x x' : ℕ → Vec n} {s : ℕ} (hx : ∀ u ≤ s, x u = x' u) (p q : ℝ × ℝ) :
    rowMeanIewma mv mc p q f x s = rowMeanIewma mv mc p q f x' s :=
  itemAt_rows (by omega) _ (fun t ht => hx t (by omega)) _

theorem expertSigma_congr {x x' : ℕ → Vec n} {s : ℕ} (hx : ∀ u ≤ s, x u = x' u) (lamda : ℝ) :
    expertSigma p q mv mc f lamda x s = expertSigma p q mv mc f lamda x' s := by
  funext k; unfold expertSigma; rw [rowMeanIewma_congr hx]

theorem expertMean_congr {x x' : ℕ → Vec n} {s : ℕ} (hx : ∀ u ≤ s, x u = x' u) :
    expertMean p q mv mc f x s = expertMean p q mv mc f x' s := by
  funext k i; unfold expertMean; rw [rowMeanIewma_congr hx]

/-- **C170.** No look-ahead: if the cell runs on a longer history that agrees with a shorter one on the rows of the shorter,
which has room for the whole window, it also runs on the shorter one, and its tables are the first rows of those of the
longer run. -/
theorem C170_no_lookahead {T' : ℕ} {x' : ℕ → Vec n} (h : MeanSetup solver covPairs meanPairs p q mv mc f window T tm x)
    (lamda : ℝ) (h' : MeanSetup solver covPairs meanPairs p q mv mc f window T' tm x') (hT : T ≤ T') (hx : ∀ u < T, x u = x' u)
    (hroom : warm mc f + window < T) {d' : MeanTables τ n K}
    (hd' : cmMean solver covPairs meanPairs (rowDict T' tm x') mv mc lamda window = .ok d') :
    ∃ d, cmMean solver covPairs meanPairs (rowDict T tm x) mv mc lamda window = .ok d ∧
      d.covariances = d'.covariances.take (T - (warm mc f + window)) ∧
      d.means = d'.means.take (T - (warm mc f + window)) ∧
      d.weights = d'.weights.take (T - (warm mc f + window)) := by
  obtain ⟨h1, h2, rfl⟩ := (cmMean_ok_iff h' lamda d').mp hd'
  have hW' : meanWindow mc f window T' = window := by unfold meanWindow; omega
  have hW : meanWindow mc f window T = window := by unfold meanWindow; omega
  rw [hW'] at h2 ⊢
  set P := meanPanel p q mv mc f lamda tm x T with hP
  set P' := meanPanel p q mv mc f lamda tm x' T' with hP'
  have hlen : P.len = T - warm mc f := rfl
  have hlen' : P'.len = T' - warm mc f := rfl
  have hcov : ∀ t < P.len, P.cov t = P'.cov t := fun t ht =>
    expertSigma_congr (fun u hu => hx u (by rw [hlen] at ht; omega)) lamda
  have hmean : ∀ t < P.len, P.mean t = P'.mean t := fun t ht =>
    expertMean_congr fun u hu => hx u (by rw [hlen] at ht; omega)
  have hag : ∀ t < P.len, P.AgreeTo P' t := fun t ht =>
    ⟨fun s _ => rfl, fun s hs => hcov s (by omega), fun s hs => hmean s (by omega),
      fun s _ hs => hx _ (by rw [hlen] at ht; omega)⟩
  have hout : ∀ t, window ≤ t → t < P.len → P.outcome solver window window t = P'.outcome solver window window t :=
    fun t h3 h4 => (item_agree (hag t h4) solver h3).1
  refine ⟨_, (cmMean_ok_iff h lamda _).mpr ⟨?_, ?_, rfl⟩, ?_⟩
  · intro k s hs1 hs2
    rw [rowMeanIewma_congr fun u hu => hx u (by omega)]
    exact h1 k s hs1 (by omega)
  · rw [hW]
    refine ⟨⟨fun s t hst ht => h.labels _ _ (by omega) (by rw [hlen] at ht; omega), fun t ht i => ?_⟩,
      fun t h3 h4 => ?_, fun t h3 h4 => ?_⟩
    · rw [hcov t ht]
      exact h2.ok.posDef t (by rw [hlen] at ht; rw [hlen']; omega) i
    · rw [gram_agree (hag t h4) h3]
      exact h2.gram t h3 (by rw [hlen] at h4; rw [hlen']; omega)
    · rw [hout t h3 h4]
      exact h2.solved t h3 (by rw [hlen] at h4; rw [hlen']; omega)
  · rw [hW]
    have key : ∀ {A : Type} (g g' : ℕ → A) (_ : ∀ t, window ≤ t → t < P.len → g t = g' t),
        ((List.range' window (P.len - window)).map fun t => (P.time t, g t))
          = (((List.range' window (P'.len - window)).map fun t => (P'.time t, g' t)).take (T - (warm mc f + window))) := by
      intro A g g' hg
      rw [← List.map_take]
      have ht : (List.range' window (P'.len - window)).take (T - (warm mc f + window))
          = List.range' window (P.len - window) := by
        apply List.ext_getElem
        · simp [hlen, hlen']; omega
        · intro k h3 h4; simp
      rw [ht]
      apply List.map_congr_left
      intro s hs
      rw [List.mem_range'_1] at hs
      rw [hg s hs.1 (by omega)]
      rfl
    have hw : ∀ t, window ≤ t → t < P.len → P.weightsAt solver window window t = P'.weightsAt solver window window t :=
      fun t h3 h4 => by unfold Panel.weightsAt; rw [hout t h3 h4]
    unfold runTables
    dsimp only
    refine ⟨key _ _ fun t h3 h4 => ?_, key _ _ fun t h3 h4 => ?_, key _ _ hw⟩
    · rw [hcov t h4, hw t h3 h4]
    · rw [hcov t h4, hmean t h4, hw t h3 h4]

/-- **C170.** The exceptions: `LinAlgError` if a covariance of some expert is not finite or not positive definite; else that of
the tables made from the list of the results. -/
theorem C170_exceptions (h : MeanSetup solver covPairs meanPairs p q mv mc f window T tm x) (lamda : ℝ) {e : Err}
    (he : cmMean solver covPairs meanPairs (rowDict T tm x) mv mc lamda window = .error e) :
    (e = .linAlgError ∧ (¬ FiniteSigmas p q mv mc f x T ∨
      ∃ s, warm mc f ≤ s ∧ s < T ∧ ∃ k, ¬ (expertSigma p q mv mc f lamda x s k).PosDef)) ∨
    (FiniteSigmas p q mv mc f x T ∧
      (∀ s, warm mc f ≤ s → s < T → ∀ k, (expertSigma p q mv mc f lamda x s k).PosDef) ∧
      (meanPanel p q mv mc f lamda tm x T).FailsList solver (meanWindow mc f window T) e) := by
  rw [cmMean_eq h] at he
  have hlen : (meanPanel p q mv mc f lamda tm x T).len = T - warm mc f := rfl
  split at he
  · next hfin =>
    rcases tables_fails h.tables (W := meanWindow mc f window T) rfl he with ⟨h1, t, ht, k, hk⟩ | ⟨h1, h2⟩
    · exact Or.inl ⟨h1, Or.inr ⟨warm mc f + t, by omega, by rw [hlen] at ht; omega, k, hk⟩⟩
    · refine Or.inr ⟨hfin, fun s h3 h4 k => ?_, h2⟩
      have := h1 (s - warm mc f) (by rw [hlen]; omega) k
      change (expertSigma p q mv mc f lamda x (warm mc f + (s - warm mc f)) k).PosDef at this
      rwa [show warm mc f + (s - warm mc f) = s by omega] at this
  · next hfin =>
    cases he
    exact Or.inl ⟨rfl, Or.inl hfin⟩

end

/-- **C170.** A list of half-lives with fewer pairs than experts raises `IndexError`; no experts raise `KeyError` (the
diagonal of the first one is missing). -/
theorem C170_too_few {solver : Solver n K} {covPairs meanPairs : List (ℝ × ℝ)} {mv mc f T : ℕ} {tm : ℕ → τ} {x : ℕ → Vec n}
    (htm : Increasing T tm) (hc : ∀ p ∈ covPairs, 0 < p.1 ∧ 0 < p.2) (hm : ∀ q ∈ meanPairs, 0 ≤ q.1 ∧ 0 ≤ q.2)
    (hf : FirstRow mv x f) (hT : f < T) (lamda : ℝ) (window : ℕ) :
    (covPairs.length < K ∨ meanPairs.length < K →
      cmMean solver covPairs meanPairs (rowDict T tm x) mv mc lamda window = .error .indexError) ∧
    (K = 0 → cmMean solver covPairs meanPairs (rowDict T tm x) mv mc lamda window = .error .keyError) := by
  have hframe : ((rowDict T tm x).map fun p : τ × Vec n => (p.1, (Arr.ofFn fun i => XR.fin (p.2 i) : Arr (Fin n) XR)))
      = finFrame T tm x := by
    unfold rowDict finFrame finRows
    rw [List.map_map]; rfl
  constructor
  · intro hlen
    unfold cmMean
    dsimp only
    rw [hframe]
    rcases hE : finM fun i : Fin K => meanExpert covPairs meanPairs mv mc (finFrame T tm x) i with e | E
    · obtain ⟨k, hk, _⟩ := finM_error _ _ hE
      have : e = .indexError := by
        unfold meanExpert at hk
        rw [pyGet_nat, pyGet_nat] at hk
        rcases h1 : covPairs[k.1]? with _ | p
        · simp only [h1] at hk
          cases hk; rfl
        · rcases h2 : meanPairs[k.1]? with _ | q
          · simp only [h1, h2] at hk
            cases hk; rfl
          · simp only [h1, h2, ok_bind] at hk
            have hp := hc p (List.mem_of_getElem? h1)
            have hq := hm q (List.mem_of_getElem? h2)
            rw [show (
                { volaHalflife := XR.fin p.1, covHalflife := XR.fin p.2, minPeriodsVola := mv, minPeriodsCov := mc,
                  mean := true, muHalflife1 := some (XR.fin q.1), muHalflife2 := some (XR.fin q.2) } : IewmaArgs XR)
                = (meanArgs mv mc p q).toArgs from rfl, iterated_mean hp hq hf htm hT, ok_bind] at hk
            cases hk
      subst this
      rfl
    · exfalso
      have hall := (finM_ok_iff _ _).mp hE
      rcases hlen with hl | hl
      · have := hall ⟨covPairs.length, hl⟩
        unfold meanExpert at this
        rw [pyGet_nat, List.getElem?_eq_none (by simp)] at this
        cases this
      · have := hall ⟨meanPairs.length, hl⟩
        unfold meanExpert at this
        rw [pyGet_nat, pyGet_nat, List.getElem?_eq_none (l := meanPairs) (by simp)] at this
        rcases h1 : covPairs[meanPairs.length]? with _ | p <;> simp only [h1] at this <;> cases this
  · rintro rfl
    rfl

end CovPred
