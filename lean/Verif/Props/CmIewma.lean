import Verif.Lemmas.CmIewma
import Verif.Lemmas.Backtests
import Verif.Props.Generative
import Verif.Props.FactorModelExample
import Verif.Props.EndToEnd

/-
Properties C150-C153 of the CM-IEWMA cell of the experiment notebooks (`fit_cm_iewma`, generative_mode.ipynb:241-256, and
its copies) and of the sampling experiment with it (generative_mode.ipynb:265-279).

The returns are the rows `x 0, ..., x (T-1)` with labels `tm`. `CmSetup` (Verif/Spec/CmIewma.lean) collects the conditions on
the arguments: increasing labels, positive half-lives, two rows after the warm-up, returns that are not all 0 in the
first `min_periods_vola` rows, and a solver that respects its constraints. `cmWindow` is the window, cut to the rows there are.
-/
set_option linter.unusedSectionVars false
namespace CovPred
open Matrix XR

variable {τ : Type} [LinearOrder τ] {n : ℕ} {L : Type} [DecidableEq L]

section
variable (label : XR × XR → L) {solvers : Solvers n} {pairs : List (ℝ × ℝ)} {mv mc window T : ℕ} {tm : ℕ → τ}
  {x : ℕ → Vec n}

/-! ### C150: what the cell computes -/

/-- **C150.** The dates: every row from `min_periods_vola + min_periods_cov - 2 + window` on, once, in order. -/
theorem C150_days (h : CmSetup solvers pairs mv mc window T tm x) (lamda : ℝ) {d : Dict τ (Mat n)}
    (hd : cmIewma label solvers (pairs.map xr) (rowDict T tm x) mv mc lamda window = .ok d) :
    d.map Prod.fst = (List.range' (mv + mc - 2 + cmWindow mv mc window T)
      (T - (mv + mc - 2 + cmWindow mv mc window T))).map tm := by
  obtain ⟨_, _, rfl⟩ := (cmIewma_ok_iff label h lamda d).mp hd
  rw [List.map_map]; rfl

theorem cm_logLik (lamda : ℝ) (N W : ℕ) {s : ℕ} (hs : mv + mc - 2 + W ≤ s) (w : Vec _) :
    (cmPanel label pairs mv mc lamda tm x N).logLik W (s - (mv + mc - 2)) w
      = cmWindowLogLik label pairs mv mc lamda x W s w := by
  unfold Panel.logLik cmWindowLogLik
  apply Finset.sum_bij (fun u _ => mv + mc - 2 + u)
  · intro u hu
    rw [Finset.mem_Ioc] at hu ⊢
    omega
  · intro a _ b _ hab; omega
  · intro b hb
    rw [Finset.mem_Ioc] at hb
    exact ⟨b - (mv + mc - 2), by rw [Finset.mem_Ioc]; omega, by omega⟩
  · intro u hu
    rw [Finset.mem_Ioc] at hu
    have e : blendMean ((cmPanel label pairs mv mc lamda tm x N).cov (u - 1))
        ((cmPanel label pairs mv mc lamda tm x N).mean (u - 1)) w = 0 := by
      unfold blendMean
      simp [cmPanel]
    rw [e]
    show gaussLogDensity 0 (blendCov (cmExpert label pairs mv mc lamda x (mv + mc - 2 + (u - 1))) w) (x (mv + mc - 2 + u)) = _
    rw [show mv + mc - 2 + (u - 1) = mv + mc - 2 + u - 1 by omega]

/-- **C150.** The prediction for a date: the experts of that row (the iterated EWMAs of the returns up to it, the variances
of the one labelled like the first pair times `1 + lamda`) are positive definite and the prediction is their blend
with weights on the simplex, so it is positive definite; with an exact solver the weights maximise the likelihood of the
returns of the last `window` rows under the blends of the experts of the row before each. -/
theorem C150_prediction (h : CmSetup solvers pairs mv mc window T tm x) (lamda : ℝ) {d : Dict τ (Mat n)}
    (hd : cmIewma label solvers (pairs.map xr) (rowDict T tm x) mv mc lamda window = .ok d) {s : ℕ}
    (hs : mv + mc - 2 + cmWindow mv mc window T ≤ s) (hsT : s < T) :
    ∃ S, d.lookup (tm s) = some S ∧ S.PosDef ∧ (∀ i, (cmExpert label pairs mv mc lamda x s i).PosDef) ∧
      ∃ w, Simplex w ∧ S = blendCov (cmExpert label pairs mv mc lamda x s) w ∧
        ((∀ K, (solvers K).Exact) → ∀ w', Simplex w' →
          cmWindowLogLik label pairs mv mc lamda x (cmWindow mv mc window T) s w'
            ≤ cmWindowLogLik label pairs mv mc lamda x (cmWindow mv mc window T) s w) := by
  obtain ⟨_, hc, rfl⟩ := (cmIewma_ok_iff label h lamda d).mp hd
  set W := cmWindow mv mc window T with hW
  set P := cmPanel label pairs mv mc lamda tm x T with hP
  have hlen : P.len = T - (mv + mc - 2) := rfl
  have hlt : s - (mv + mc - 2) < P.len := by rw [hlen]; omega
  have hcov : P.cov (s - (mv + mc - 2)) = cmExpert label pairs mv mc lamda x s := by
    show cmExpert label pairs mv mc lamda x (mv + mc - 2 + (s - (mv + mc - 2))) = _
    rw [show mv + mc - 2 + (s - (mv + mc - 2)) = s by omega]
  have hpos : ∀ i, (cmExpert label pairs mv mc lamda x s i).PosDef := fun i => by
    have := hc.ok.posDef (s - (mv + mc - 2)) hlt i
    rwa [hcov] at this
  obtain ⟨w, hout⟩ := hc.solved (s - (mv + mc - 2)) (by omega) hlt
  have hwat : P.weightsAt (solvers _) W W (s - (mv + mc - 2)) = w := by unfold Panel.weightsAt; rw [hout]
  have hsimp : Simplex w := by
    have := hout
    unfold Panel.outcome at this
    rw [range'_concat_params P W W _ (by omega)] at this
    exact h.feasible _ _ _ _ this
  refine ⟨_, ?_, ?_, hpos, w, hsimp, rfl, ?_⟩
  · rw [map_range_shift]
    have := lookup_map_range (time := fun j => tm (mv + mc - 2 + W + j)) (N := T - (mv + mc - 2 + W))
      (fun a b hab hb => h.labels _ _ (by omega) (by omega))
      (fun j => blendCov (cmExpert label pairs mv mc lamda x (mv + mc - 2 + W + j))
        (P.weightsAt (solvers _) W W (mv + mc - 2 + W + j - (mv + mc - 2)))) (s - (mv + mc - 2 + W)) (by omega)
    rw [show mv + mc - 2 + W + (s - (mv + mc - 2 + W)) = s by omega, hwat] at this
    exact this
  · exact blendCov_posDef hpos hsimp
  · intro hex w' hw'
    obtain ⟨p0, ps, hps⟩ := h.cons
    have hK : 0 < nExperts label pairs := by rw [hps]; exact expertPairs_pos label p0 ps
    have hgr := hc.gram (s - (mv + mc - 2)) (by omega) hlt
    have hbest := outcome_exact (P := P) hc.ok hK (a := W) (W := W) (t := s - (mv + mc - 2)) (by omega) (by omega) hlt hgr
      (hex _) hout
    have hopt := best_optimal (P := P) hc.ok hK (W := W) (t := s - (mv + mc - 2)) (by omega) hlt hgr
    rw [← hbest] at hopt
    have := hopt.2 w' hw'
    rw [hP, cm_logLik label lamda T W hs, cm_logLik label lamda T W hs] at this
    exact this

/-- **C150.** With a solver that finds the optimum, the cell runs through exactly if all experts are finite and positive
definite after the warm-up and no window is degenerate. -/
theorem C150_success (h : CmSetup solvers pairs mv mc window T tm x) (lamda : ℝ)
    (hs : ∀ K, (solvers K).Exact ∧ (solvers K).Complete) :
    (∃ d, cmIewma label solvers (pairs.map xr) (rowDict T tm x) mv mc lamda window = .ok d) ↔
      FiniteCmExperts label pairs mv mc x T ∧
      (∀ s, mv + mc - 2 ≤ s → s < T → ∀ i, (cmExpert label pairs mv mc lamda x s i).PosDef) ∧
      ∀ t, cmWindow mv mc window T ≤ t → t < T - (mv + mc - 2) →
        ((cmPanel label pairs mv mc lamda tm x T).gram (cmWindow mv mc window T) t).PosDef := by
  obtain ⟨p0, ps, hps⟩ := h.cons
  have hK : 0 < nExperts label pairs := by rw [hps]; exact expertPairs_pos label p0 ps
  constructor
  · rintro ⟨d, hd⟩
    obtain ⟨h1, h2, _⟩ := (cmIewma_ok_iff label h lamda d).mp hd
    refine ⟨h1, fun s hs1 hs2 i => ?_, h2.gram⟩
    have := h2.ok.posDef (s - (mv + mc - 2)) (by show _ < T - (mv + mc - 2); omega) i
    change (cmExpert label pairs mv mc lamda x (mv + mc - 2 + (s - (mv + mc - 2))) i).PosDef at this
    rwa [show mv + mc - 2 + (s - (mv + mc - 2)) = s by omega] at this
  · rintro ⟨h1, h2, h3⟩
    have hok : (cmPanel label pairs mv mc lamda tm x T).Ok :=
      ⟨fun s t hst ht => h.labels _ _ (by omega) (by simp only [cmPanel] at ht; omega),
        fun t ht i => h2 _ (by omega) (by simp only [cmPanel] at ht; omega) i⟩
    exact ⟨_, (cmIewma_ok_iff label h lamda _).mpr ⟨h1, ⟨hok, h3, fun t h4 h5 =>
      ⟨_, outcome_complete hok hK h4 h4 h5 (h3 t h4 h5) (hs _).1 (hs _).2⟩⟩, rfl⟩⟩

/-! ### C151: no look-ahead -/

/-- **C151.** If the cell runs on a longer history that agrees with a shorter one on the rows of the shorter, which has room for
the whole window, it also runs on the shorter one, and its predictions are the first predictions of the longer run. -/
theorem C151_no_lookahead {T' : ℕ} {x' : ℕ → Vec n} (h : CmSetup solvers pairs mv mc window T tm x) (lamda : ℝ)
    (h' : CmSetup solvers pairs mv mc window T' tm x') (hT : T ≤ T') (hx : ∀ u < T, x u = x' u)
    (hroom : mv + mc - 2 + window < T) {d' : Dict τ (Mat n)}
    (hd' : cmIewma label solvers (pairs.map xr) (rowDict T' tm x') mv mc lamda window = .ok d') :
    ∃ d, cmIewma label solvers (pairs.map xr) (rowDict T tm x) mv mc lamda window = .ok d ∧
      d = d'.take (T - (mv + mc - 2 + window)) := by
  obtain ⟨h1, h2, rfl⟩ := (cmIewma_ok_iff label h' lamda d').mp hd'
  have hW' : cmWindow mv mc window T' = window := by unfold cmWindow; omega
  have hW : cmWindow mv mc window T = window := by unfold cmWindow; omega
  rw [hW'] at h2 ⊢
  refine ⟨_, (cmIewma_ok_iff label h lamda _).mpr ⟨?_, ?_, rfl⟩, ?_⟩
  · intro i s hs1 hs2
    have := h1 i s hs1 (by omega)
    rw [← itemAt_data rfl (by omega) _ fun t ht => hx t (by omega)] at this
    exact this
  · rw [hW]
    have hcov : ∀ t < T - (mv + mc - 2), (cmPanel label pairs mv mc lamda tm x T).cov t
        = (cmPanel label pairs mv mc lamda tm x' T').cov t := fun t ht =>
      cmExpert_congr label pairs mv mc lamda fun u hu => hx u (by omega)
    have hret : ∀ t < T - (mv + mc - 2), (cmPanel label pairs mv mc lamda tm x T).ret t
        = (cmPanel label pairs mv mc lamda tm x' T').ret t := fun t ht => hx _ (by omega)
    have hag : ∀ t < T - (mv + mc - 2), (cmPanel label pairs mv mc lamda tm x T).AgreeTo
        (cmPanel label pairs mv mc lamda tm x' T') t := fun t ht => by
      refine ⟨fun s hs => rfl, fun s hs => hcov s (by omega), fun s hs => rfl, fun s _ hs => hret s (by omega)⟩
    refine ⟨⟨fun s t hst ht => h.labels _ _ (by omega) (by simp only [cmPanel] at ht; omega), fun t ht i => ?_⟩,
      fun t h3 h4 => ?_, fun t h3 h4 => ?_⟩
    · have := h2.ok.posDef t (by simp only [cmPanel] at ht ⊢; omega) i
      rw [hcov t (by simp only [cmPanel] at ht; omega)]
      exact this
    · have h4' : t < T - (mv + mc - 2) := h4
      rw [gram_agree (hag t h4') h3]
      exact h2.gram t h3 (by show t < T' - _; omega)
    · have h4' : t < T - (mv + mc - 2) := h4
      obtain ⟨w, hw⟩ := h2.solved t h3 (by show t < T' - _; omega)
      refine ⟨w, ?_⟩
      rw [← hw]
      unfold Panel.outcome
      congr 1
      apply List.map_congr_left
      intro u hu
      rw [List.mem_range'_1] at hu
      apply params_congr (by omega)
      · intro v _ hv
        exact hcov (v - 1) (by omega)
      · intro v _ _; rfl
      · intro v _ hv
        exact hret v (by omega)
  · rw [hW, ← List.map_take]
    have ht : (List.range' (mv + mc - 2 + window) (T' - (mv + mc - 2 + window))).take (T - (mv + mc - 2 + window))
        = List.range' (mv + mc - 2 + window) (T - (mv + mc - 2 + window)) := by
      apply List.ext_getElem
      · simp; omega
      · intro k h3 h4; simp
    rw [ht]
    apply List.map_congr_left
    intro s hs
    rw [List.mem_range'_1] at hs
    rw [cmExpert_congr label pairs mv mc lamda fun u hu => hx u (by omega),
      cm_weights_congr (N' := T') (tm' := tm) label pairs mv mc lamda solvers (fun u hu => hx u (by omega)) hs.1]

/-! ### C152: the sampling experiment -/

/-- The fit as last prediction. -/
theorem fit_is_last (h : CmSetup solvers pairs 63 63 10 T tm x) {S : Mat n}
    (hS : fitCmIewma label solvers (pairs.map xr) (rowDict T tm x) = .ok S) :
    ∃ D, cmIewma label solvers (pairs.map xr) (rowDict T tm x) 63 63 0.05 10 = .ok D ∧ D.lookup (tm (T - 1)) = some S := by
  unfold fitCmIewma at hS
  rw [bind_ok_iff _ _ _] at hS
  obtain ⟨d, hd, hl⟩ := hS
  have hrows := h.rows
  have hW : cmWindow 63 63 10 T = min 10 (T - 125) := by unfold cmWindow; omega
  refine ⟨d, hd, ?_⟩
  obtain ⟨S', h1, _⟩ := C150_prediction label h 0.05 hd (s := T - 1) (by omega) (by omega)
  obtain ⟨_, _, hd'⟩ := (cmIewma_ok_iff label h 0.05 d).mp hd
  have hsplit : T - (63 + 63 - 2 + cmWindow 63 63 10 T) = (T - (63 + 63 - 2 + cmWindow 63 63 10 T) - 1) + 1 := by omega
  rw [hsplit, List.range'_concat, List.map_append] at hd'
  have hk : 63 + 63 - 2 + cmWindow 63 63 10 T + 1 * (T - (63 + 63 - 2 + cmWindow 63 63 10 T) - 1) = T - 1 := by omega
  rw [hk] at hd'
  have hnod : (d.map Prod.fst).Nodup := by
    rw [C150_days label h 0.05 hd]
    apply List.Nodup.map_on
    · intro a ha b hb hab
      rw [List.mem_range'_1] at ha hb
      exact distinct_of_increasing h.labels a b (by omega) (by omega) hab
    · exact List.nodup_range'
  unfold lastValue at hl
  rw [hd'] at hl hnod ⊢
  simp only [List.map_cons, List.map_nil, List.getLast?_append_cons] at hl
  rw [← Except.ok.inj hl, List.lookup_append]
  have hnone : ∀ (l : Dict τ (Mat n)) (k : τ) (v : Mat n), ((l ++ [(k, v)]).map Prod.fst).Nodup → l.lookup k = none := by
    intro l k v hn
    rw [List.lookup_eq_none_iff]
    intro p hp
    rw [List.map_append, List.nodup_append] at hn
    have := hn.2.2 p.1 (List.mem_map.mpr ⟨p, hp, rfl⟩) k (by simp)
    simpa using fun h : k = p.1 => this h.symm
  rw [hnone _ _ _ hnod]
  simp

/-- **C152.** `fit_cm_iewma` predicts, from all the rows, the covariance after the last one: positive definite, the blend of the
experts of the last row with weights on the simplex that (with an exact solver) maximise the likelihood of the last ten
returns (fewer if there are fewer after the warm-up). -/
theorem C152_fit (h : CmSetup solvers pairs 63 63 10 T tm x) {S : Mat n}
    (hS : fitCmIewma label solvers (pairs.map xr) (rowDict T tm x) = .ok S) :
    S.PosDef ∧ ∃ w, Simplex w ∧ S = blendCov (cmExpert label pairs 63 63 0.05 x (T - 1)) w ∧
      ((∀ K, (solvers K).Exact) → ∀ w', Simplex w' →
        cmWindowLogLik label pairs 63 63 0.05 x (min 10 (T - 125)) (T - 1) w'
          ≤ cmWindowLogLik label pairs 63 63 0.05 x (min 10 (T - 125)) (T - 1) w) := by
  have hrows := h.rows
  have hW : cmWindow 63 63 10 T = min 10 (T - 125) := by unfold cmWindow; omega
  obtain ⟨d, hd, hl⟩ := fit_is_last label h hS
  obtain ⟨S', h1, h2, _, w, h3, h4, h5⟩ := C150_prediction label h 0.05 hd (s := T - 1) (by omega) (by omega)
  rw [hl] at h1
  cases h1
  rw [← hW]
  exact ⟨h2, w, h3, h4, h5⟩

/-- the table with the samples -/
theorem sampled_table {T num : ℕ} {tm : ℕ → τ} {x z : ℕ → Vec n} {test : List τ} {rows : List (Arr (Fin n) XR)}
    (htest : ∀ i < num, test[i]? = some (tm (T + i))) (hlen : rows.length = num) (hz : ∀ s < T, z s = x s)
    (hrow : ∀ i (hi : i < rows.length), rows[i] = finRow (z (T + i))) {i : ℕ} (hi : i ≤ num) :
    finFrame T tm x ++ List.zip (test.take i) (rows.take i) = finFrame (T + i) tm z := by
  have hl : num ≤ test.length := by
    rcases Nat.eq_zero_or_pos num with h | h
    · omega
    · have := htest (num - 1) (by omega)
      rw [List.getElem?_eq_some_iff] at this
      obtain ⟨h1, _⟩ := this
      omega
  unfold finFrame finRows
  rw [List.range_add, List.map_append]
  congr 1
  · apply List.map_congr_left
    intro s hs
    rw [hz s (List.mem_range.mp hs)]
  · apply List.ext_getElem
    · simp; omega
    · intro k h1 h2
      simp only [List.length_map, List.length_range] at h2
      have := htest k (by omega)
      rw [List.getElem?_eq_some_iff] at this
      obtain ⟨_, h3⟩ := this
      simp [hrow k (by omega), h3]

theorem table_real (N : ℕ) (tm : ℕ → τ) (z : ℕ → Vec n) :
    (finFrame N tm z).map (fun p => (p.1, fun i => (p.2 i).toReal)) = rowDict N tm z := by
  unfold finFrame finRows rowDict
  rw [List.map_map]
  apply List.map_congr_left
  intro s _
  simp only [Function.comp, finRow, Arr.get_ofFn]
  rfl

/-- **C152.** The sampling experiment with CM-IEWMA, on a training table of at least 135 rows: the result is the training table
and the samples; sample `i` is drawn from a positive definite covariance `S i`, which is what `fit_cm_iewma` returns for the
table before the sample; and the cell run on the table with any number of samples predicts, for the row before each of them,
exactly the covariance that sample was drawn from. -/
theorem C152_sampling {sample : ℕ → Arr (Fin n × Fin n) XR → Except Err (Arr (Fin n) XR)} {draw} (hdraw : Draws sample draw)
    (h : CmSetup solvers pairs 63 63 10 T tm x) (hT : 135 ≤ T) {num : ℕ} (hinc : Increasing (T + num) tm) {test : List τ}
    (htest : ∀ i < num, test[i]? = some (tm (T + i))) {F : Frame τ (Fin n) XR}
    (hF : runSamplingExperiment (fitTable label solvers (pairs.map xr)) sample (finFrame T tm x) test num = .ok F) :
    ∃ (z : ℕ → Vec n) (S : ℕ → Mat n), (∀ s < T, z s = x s) ∧ F = finFrame (T + num) tm z ∧
      ∀ i < num, z (T + i) = draw i (fun p => S i p.1 p.2) ∧ (S i).PosDef ∧
        fitCmIewma label solvers (pairs.map xr) (rowDict (T + i) tm z) = .ok (S i) ∧
        ∃ D, cmIewma label solvers (pairs.map xr) (rowDict (T + i) tm z) 63 63 0.05 10 = .ok D ∧
          ∀ j ≤ i, D.lookup (tm (T + j - 1)) = some (S j) := by
  obtain ⟨_, rows, hlen, hF, hstep⟩ := (C139_experiment _ _ _ _ _ _).mp hF
  have hS : ∀ i, ∃ S : Mat n, ∀ hi : i < rows.length,
      fitCmIewma label solvers (pairs.map xr) ((finFrame T tm x ++ List.zip (test.take i) (rows.take i)).map
        fun p => (p.1, fun i => (p.2 i).toReal)) = .ok S ∧ rows[i] = finRow (draw i fun p => S p.1 p.2) := by
    intro i
    by_cases hi : i < rows.length
    · obtain ⟨cov, h1, h2⟩ := hstep i hi
      unfold fitTable at h1
      rw [bind_ok_iff _ _ _] at h1
      obtain ⟨S, h3, h4⟩ := h1
      refine ⟨S, fun _ => ⟨h3, ?_⟩⟩
      have h5 := hdraw i fun p => S p.1 p.2
      have h6 : cov = finRow fun p => S p.1 p.2 := (Except.ok.inj h4).symm
      rw [h6, h5] at h2
      exact (Except.ok.inj h2).symm
    · exact ⟨0, fun h => absurd h hi⟩
  choose S hS using hS
  let z : ℕ → Vec n := fun s => if s < T then x s else draw (s - T) fun p => S (s - T) p.1 p.2
  have hz : ∀ s < T, z s = x s := fun s hs => if_pos hs
  have hz2 : ∀ i, z (T + i) = draw i fun p => S i p.1 p.2 := fun i => by
    show (if T + i < T then _ else _) = _
    rw [if_neg (by omega), show T + i - T = i by omega]
  have hrow : ∀ i (hi : i < rows.length), rows[i] = finRow (z (T + i)) := fun i hi => by
    rw [(hS i hi).2, hz2]
  have htab := @sampled_table τ _ n T num tm x z test rows htest hlen hz hrow
  have hfit : ∀ i < num, fitCmIewma label solvers (pairs.map xr) (rowDict (T + i) tm z) = .ok (S i) := fun i hi => by
    have := (hS i (by omega)).1
    rwa [htab (by omega), table_real] at this
  have hset : ∀ i ≤ num, CmSetup solvers pairs 63 63 10 (T + i) tm z := fun i hi =>
    { h with
      labels := fun a b hab hb => hinc a b hab (by omega)
      awake := by
        obtain ⟨s, h1, h2⟩ := h.awake
        exact ⟨s, h1, by rw [hz s (by omega)]; exact h2⟩
      rows := by omega }
  refine ⟨z, S, hz, ?_, fun i hi => ⟨hz2 i, (C152_fit label (hset i hi.le) (hfit i hi)).1, hfit i hi, ?_⟩⟩
  · rw [hF]
    have := htab le_rfl
    rwa [List.take_of_length_le (l := rows) hlen.le] at this
  · obtain ⟨D, hD, hl⟩ := fit_is_last label (hset i hi.le) (hfit i hi)
    refine ⟨D, hD, fun j hj => ?_⟩
    obtain ⟨Dj, hDj, hlj⟩ := fit_is_last label (hset j (by omega)) (hfit j (by omega))
    obtain ⟨D', hD', htake⟩ := C151_no_lookahead label (hset j (by omega)) 0.05 (hset i hi.le) (by omega) (fun _ _ => rfl) (by omega) hD
    rw [hDj] at hD'
    cases hD'
    rw [htake] at hlj
    have hmem : ∀ (l : Dict τ (Mat n)) (m : ℕ) (k : τ) (v : Mat n), (l.take m).lookup k = some v → l.lookup k = some v := by
      intro l m k v hv
      rw [← List.take_append_drop m l, List.lookup_append, hv]; rfl
    exact hmem _ _ _ _ hlj

/-! ### C153: units -/

/-- the expert's result for returns in other units -/
theorem item_scale {p : ℝ × ℝ} (hn : 0 < n) (hmv : 0 < mv) (hmc : 0 < mc) (hp : 0 < p.1 ∧ 0 < p.2) (hx : ∃ s < mv, x s ≠ 0)
    (d : Vec n) (hd : ∀ i, d i ≠ 0) {s : ℕ} (hs : mv + mc - 2 ≤ s) :
    ∃ m v, itemAt (cmArgs mv mc p) (s + 1) (fun t : ℕ => t) (fun t i => d i * x t i) (s + 1 - mv)
      = { time := (itemAt (cmArgs mv mc p) (s + 1) (fun t : ℕ => t) x (s + 1 - mv)).time
          mean := m
          covariance := Arr.ofFn fun q =>
            fin (d q.1 * d q.2) * (itemAt (cmArgs mv mc p) (s + 1) (fun t : ℕ => t) x (s + 1 - mv)).covariance q
          volatility := v } := by
  have hx' : ∃ s < mv, (fun i => d i * x s i) ≠ 0 := by
    obtain ⟨s, h1, h2⟩ := hx
    obtain ⟨i, hi⟩ := Function.ne_iff.mp h2
    exact ⟨s, h1, fun h => hi (by have := congrFun h i; simpa [hd i] using this)⟩
  have htm : Increasing (s + 1) (fun t : ℕ => t) := fun a b h _ => h
  have e := iterated_cm hn hmv hmc hp hx' htm (by omega)
  have e0 := iterated_cm hn hmv hmc hp hx htm (by omega)
  have hfr : finFrame (s + 1) (fun t : ℕ => t) (fun t i => d i * x t i)
      = (finFrame (s + 1) (fun t : ℕ => t) x).map fun q => (q.1, Arr.ofFn fun i => fin (d i) * q.2 i) := by
    unfold finFrame finRows
    rw [List.map_map]
    apply List.map_congr_left
    intro t _
    simp only [Function.comp, finRow, Arr.get_ofFn]
    rfl
  rw [hfr, C08_scale _ _ d hd, e0] at e
  have e2 := Except.ok.inj e
  have e3 := congrArg (fun l => l[s - (mv + mc - 2)]?) e2
  simp only [List.map_map, List.getElem?_map] at e3
  have hr : (List.range' (mv + mc - 2) (s + 1 - (mv + mc - 2)))[s - (mv + mc - 2)]? = some s := by
    rw [List.getElem?_range' (by omega)]
    congr 1; omega
  rw [hr] at e3
  simp only [Option.map_some, Option.some.injEq, Function.comp] at e3
  exact ⟨_, _, e3.symm⟩

theorem expertPair_mem (i : Fin (nExperts label pairs)) : expertPair label pairs i ∈ pairs := by
  have hm : (expertPairs label (pairs.map xr))[i] ∈ expertPairs label (pairs.map xr) := List.getElem_mem _
  obtain ⟨pre, post, e, _⟩ := dictOf_last _ _ _ hm
  have hm2 : ((expertPairs label (pairs.map xr))[i].1, (expertPairs label (pairs.map xr))[i].2)
      ∈ (pairs.map xr).map fun p => (label p, p) := by rw [e]; simp
  obtain ⟨q, hq, e2⟩ := List.mem_map.mp hm2
  obtain ⟨p, hp, rfl⟩ := List.mem_map.mp hq
  have e3 : (expertPairs label (pairs.map xr))[i].2 = xr p := (congrArg Prod.snd e2).symm
  have : expertPair label pairs i = p := by
    unfold expertPair
    show ((expertPairs label (pairs.map xr))[i].2.1.toReal, (expertPairs label (pairs.map xr))[i].2.2.toReal) = p
    rw [e3]; rfl
  rw [this]; exact hp

theorem expert_scale (h : CmSetup solvers pairs mv mc window T tm x) (lamda : ℝ) (hfin : FiniteCmExperts label pairs mv mc x T)
    (d : Vec n) (hd : ∀ i, d i ≠ 0) {s : ℕ} (hs : mv + mc - 2 ≤ s) (hsT : s < T) (i) :
    cmExpert label pairs mv mc lamda (fun t i => d i * x t i) s i
      = Matrix.of fun a b => d a * cmExpert label pairs mv mc lamda x s i a b * d b := by
  have hp := h.halflives _ (expertPair_mem label i)
  obtain ⟨m, v, e⟩ := item_scale h.assets h.vola h.cov hp h.awake d hd hs
  have er : rowIewma mv mc (expertPair label pairs i) (fun t i => d i * x t i) s
      = Matrix.of fun a b => d a * rowIewma mv mc (expertPair label pairs i) x s a b * d b := by
    unfold rowIewma
    rw [e, realCov_scale d _ (hfin i s hs hsT)]
  unfold cmExpert
  simp only [er]
  split
  · ext a b
    simp only [Matrix.of_apply]
    split <;> ring
  · rfl

theorem CmSetup.scale (h : CmSetup solvers pairs mv mc window T tm x) (d : Vec n) (hd : ∀ i, d i ≠ 0) {solvers' : Solvers n}
    (hs' : ∀ K, (solvers' K).Feasible) : CmSetup solvers' pairs mv mc window T tm fun t i => d i * x t i :=
  { h with
    feasible := hs'
    awake := by
      obtain ⟨s, h1, h2⟩ := h.awake
      obtain ⟨i, hi⟩ := Function.ne_iff.mp h2
      exact ⟨s, h1, fun h => hi (by have := congrFun h i; simpa [hd i] using this)⟩ }

/-- **C153.** Units do not matter: if the returns of asset `i` are multiplied by `d i ≠ 0`, the cell (with solvers that find
the optimum) predicts for the same dates, and the covariances are multiplied by `d i * d j`. -/
theorem C153_units (h : CmSetup solvers pairs mv mc window T tm x) (lamda : ℝ) (d : Vec n) (hd : ∀ i, d i ≠ 0)
    (hs : ∀ K, (solvers K).Exact ∧ (solvers K).Complete) {solvers' : Solvers n}
    (hs' : ∀ K, (solvers' K).Exact ∧ (solvers' K).Complete) {D : Dict τ (Mat n)}
    (hD : cmIewma label solvers (pairs.map xr) (rowDict T tm x) mv mc lamda window = .ok D) :
    cmIewma label solvers' (pairs.map xr) (rowDict T tm fun t i => d i * x t i) mv mc lamda window
      = .ok (D.map fun p => (p.1, Matrix.of fun i j => d i * p.2 i j * d j)) := by
  have h' := h.scale d hd (solvers' := solvers') fun K => (hs' K).1.feasible
  obtain ⟨p0, ps, hps⟩ := h.cons
  have hK : 0 < nExperts label pairs := by rw [hps]; exact expertPairs_pos label p0 ps
  obtain ⟨h1, h2, rfl⟩ := (cmIewma_ok_iff label h lamda D).mp hD
  have hrows := h.rows
  set W := cmWindow mv mc window T with hW
  set P := cmPanel label pairs mv mc lamda tm x T with hP
  set P' := cmPanel label pairs mv mc lamda tm (fun t i => d i * x t i) T with hP'
  have hlen : P.len = T - (mv + mc - 2) := rfl
  have hlen' : P'.len = P.len := rfl
  have hlenr : (P.rescale d).len = P.len := rfl
  have hag : ∀ t < P.len, P'.AgreeTo (P.rescale d) t := fun t ht => by
    refine ⟨fun s _ => rfl, fun s hst => ?_, fun s _ => ?_, fun s _ _ => rfl⟩
    · funext i
      exact expert_scale label h lamda h1 d hd (by omega) (by omega) i
    · funext i a
      show (0 : ℝ) = d a * 0
      ring
  have hrok := rescale_ok h2.ok d hd
  have hok : P'.Ok := ⟨h2.ok.time_lt, fun t ht i => by
    rw [(hag t ht).cov t le_rfl]; exact hrok.posDef t ht i⟩
  have hgr : ∀ t, W ≤ t → t < P.len → P'.gram W t = P.gram W t := fun t h3 h4 => by
    rw [gram_agree (hag t h4) h3, gram_rescale h2.ok d hd h3 h4]
  have hll : ∀ t, W ≤ t → t < P.len → ∀ w, P'.logLik W t w = (P.rescale d).logLik W t w := fun t h3 h4 w => by
    unfold Panel.logLik
    apply Finset.sum_congr rfl
    intro s hs
    rw [Finset.mem_Ioc] at hs
    rw [(hag t h4).cov (s - 1) (by omega), (hag t h4).mean (s - 1) (by omega), (hag t h4).ret s (by omega) hs.2]
  have hbest : ∀ t, W ≤ t → t < P.len → P'.best W t = P.best W t := fun t h3 h4 => by
    have hg' : (P'.gram W t).PosDef := by rw [hgr t h3 h4]; exact h2.gram t h3 h4
    have hb := best_optimal h2.ok hK h3 h4 (h2.gram t h3 h4)
    refine optimal_unique hok h3 h4 hg' (best_optimal hok hK h3 h4 hg') ⟨hb.1, fun w' hw' => ?_⟩
    rw [hll t h3 h4, hll t h3 h4, logLik_rescale h2.ok d hd h3 h4 hw', logLik_rescale h2.ok d hd h3 h4 hb.1]
    have := hb.2 w' hw'
    linarith
  have hout' : ∀ t, W ≤ t → t < P.len → P'.outcome (solvers' _) W W t = .weights (P.best W t) := fun t h3 h4 => by
    rw [outcome_complete hok hK h3 h3 h4 (by rw [hgr t h3 h4]; exact h2.gram t h3 h4) (hs' _).1 (hs' _).2, hbest t h3 h4]
  have hout : ∀ t, W ≤ t → t < P.len → P.outcome (solvers _) W W t = .weights (P.best W t) := fun t h3 h4 =>
    outcome_complete h2.ok hK h3 h3 h4 (h2.gram t h3 h4) (hs _).1 (hs _).2
  refine (cmIewma_ok_iff label h' lamda _).mpr ⟨?_, ⟨hok, fun t h3 h4 => ?_, fun t h3 h4 => ⟨_, hout' t h3 h4⟩⟩, ?_⟩
  · intro i s hs1 hs2 q
    obtain ⟨m, v, e⟩ := item_scale h.assets h.vola h.cov (h.halflives _ (expertPair_mem label i)) h.awake d hd hs1
    rw [e]
    obtain ⟨r, hr⟩ := h1 i s hs1 hs2 q
    refine ⟨d q.1 * d q.2 * r, ?_⟩
    show (Arr.ofFn fun q => fin (d q.1 * d q.2) * _) q = _
    rw [Arr.get_ofFn, hr]; rfl
  · rw [hgr t h3 h4]; exact h2.gram t h3 h4
  · rw [List.map_map]
    apply List.map_congr_left
    intro s hs
    rw [List.mem_range'_1] at hs
    simp only [Function.comp]
    have h4 : s - (mv + mc - 2) < P.len := by rw [hlen]; omega
    have hw : P.weightsAt (solvers _) W W (s - (mv + mc - 2)) = P.best W (s - (mv + mc - 2)) := by
      unfold Panel.weightsAt; rw [hout _ (by omega) h4]
    have hw' : P'.weightsAt (solvers' _) W W (s - (mv + mc - 2)) = P.best W (s - (mv + mc - 2)) := by
      unfold Panel.weightsAt; rw [hout' _ (by omega) h4]
    rw [hw, hw']
    have hpos : ∀ i, (cmExpert label pairs mv mc lamda x s i).PosDef := fun i => by
      have := h2.ok.posDef (s - (mv + mc - 2)) h4 i
      change (cmExpert label pairs mv mc lamda x (mv + mc - 2 + (s - (mv + mc - 2))) i).PosDef at this
      rwa [show mv + mc - 2 + (s - (mv + mc - 2)) = s by omega] at this
    have hex : cmExpert label pairs mv mc lamda (fun t i => d i * x t i) s
        = fun i => Matrix.diagonal d * cmExpert label pairs mv mc lamda x s i * Matrix.diagonal d := by
      funext i
      rw [expert_scale label h lamda h1 d hd (by omega) (by omega) i, rescale_eq]
    rw [hex, blendCov_rescale hpos d hd, rescale_eq]

/-- **C153.** Units do not decide whether the cell succeeds. -/
theorem C153_succeeds (h : CmSetup solvers pairs mv mc window T tm x) (lamda : ℝ) (d : Vec n) (hd : ∀ i, d i ≠ 0)
    (hs : ∀ K, (solvers K).Exact ∧ (solvers K).Complete) :
    (∃ D, cmIewma label solvers (pairs.map xr) (rowDict T tm fun t i => d i * x t i) mv mc lamda window = .ok D) ↔
      ∃ D, cmIewma label solvers (pairs.map xr) (rowDict T tm x) mv mc lamda window = .ok D := by
  constructor
  · rintro ⟨D, hD⟩
    have h' := h.scale d hd (solvers' := solvers) fun K => (hs K).1.feasible
    have := C153_units label h' lamda (fun i => (d i)⁻¹) (fun i => inv_ne_zero (hd i)) hs hs hD
    have e : (fun t i => (d i)⁻¹ * (d i * x t i)) = x := by
      funext t i
      exact inv_mul_cancel_left₀ (hd i) _
    rw [e] at this
    exact ⟨_, this⟩
  · rintro ⟨D, hD⟩
    exact ⟨_, C153_units label h lamda d hd hs hs hD⟩

end

/-! ### A concrete run -/

namespace CmEx

/-- one asset: the returns are 1 and -2 in turn -/
def x (s : ℕ) : Vec 1 := if s % 2 = 0 then ![1] else ![-2]
noncomputable def solvers : Solvers 1 := fun K => exactSolver 1 K
def pairs : List (ℝ × ℝ) := [(1, 2)]
def label : XR × XR → Unit := fun _ => ()

theorem x_ne (s : ℕ) : x s 0 ≠ 0 := by
  unfold x
  by_cases h : s % 2 = 0 <;> simp [h]

theorem awake {mv : ℕ} (h : 0 < mv) : ∃ s < mv, x s ≠ 0 := ⟨0, h, fun h => x_ne 0 (by rw [h]; rfl)⟩

/-- The conditions of the theorems are met, for instance with the arguments of the notebook (63, 63, 10). -/
theorem setup {mv mc window T : ℕ} (h1 : 0 < mv) (h2 : 0 < mc) (h3 : 0 < window) (h4 : mv + mc ≤ T) :
    CmSetup solvers pairs mv mc window T (id : ℕ → ℕ) x where
  assets := by norm_num
  labels := fun s t h _ => h
  pairs_ne := by simp [pairs]
  halflives := FmEx.pos
  vola := h1
  cov := h2
  window_pos := h3
  feasible := fun K => exactSolver_exact.feasible
  awake := awake h1
  rows := h4

theorem pair_eq (i : Fin (nExperts label pairs)) : expertPair label pairs i = (1, 2) := FmEx.pair_eq i

theorem good {mv mc : ℕ} (hmv : 0 < mv) {s : ℕ} (hs : mv ≤ s + 1) :
    GoodCov (itemAt (cmArgs mv mc (1, 2)) (s + 1) (fun t : ℕ => t) x (s + 1 - mv)) := by
  have hp : (0 : ℝ) < ((1, 2) : ℝ × ℝ).1 ∧ (0 : ℝ) < ((1, 2) : ℝ × ℝ).2 := by norm_num
  have hv := cmArgs_valid (mv := mv) (mc := mc) hp
  have hc : ∀ t i, cRet (cmArgs mv mc (1, 2)) x t i = x t i := fun t i => by
    simp [cRet, muOf, cmArgs]
  have hvol : ∀ t i, vol (cmArgs mv mc (1, 2)) x t i ≠ 0 := by
    intro t i h0
    have := (volSq_zero_iff hv x t i).mp h0 0 (by omega) (Or.inl rfl)
    rw [hc, Subsingleton.elim i 0] at this
    exact x_ne 0 this
  rw [goodCov_iff]
  refine ⟨fun i => hvol _ i, fun u hu => ?_⟩
  have h0 := hu 0 (by omega)
  have hz : zAt (cmArgs mv mc (1, 2)) (s + 1) x 0 0
      = x (mv - 1) 0 / vol (cmArgs mv mc (1, 2)) x (mv - 1) 0 := by
    unfold zAt adjAt adjReal
    rw [live_cm_getD hp (awake hmv) (by omega)]
    simp only [Nat.add_zero, hc]
    simp [cmArgs, muOf, RealArgs.clip]
  rw [Fin.sum_univ_one, hz] at h0
  funext i
  rw [Subsingleton.elim i 0]
  rcases mul_eq_zero.mp h0 with h | h
  · exact h
  · exact absurd h (div_ne_zero (x_ne _) (hvol _ 0))

theorem cov_posDef {mv mc : ℕ} (hmv : 0 < mv) {lamda : ℝ} (hl : 0 ≤ lamda) {s : ℕ} (hs : mv ≤ s + 1) (i) :
    (cmExpert label pairs mv mc lamda x s i).PosDef := by
  have h : (rowIewma mv mc (expertPair label pairs i) x s).PosDef := by
    rw [pair_eq]; exact (good hmv hs).posDef
  have h00 := h.diag_pos (i := 0)
  have hd : ∀ M : Mat 1, 0 < M 0 0 → M.PosDef := by
    intro M hM
    have : M = Matrix.diagonal fun _ => M 0 0 := by
      ext a b
      rw [Subsingleton.elim a 0, Subsingleton.elim b 0]; simp
    rw [this]
    exact Matrix.PosDef.diagonal fun _ => hM
  apply hd
  have hor : ∀ (c : Prop) [Decidable c] (S : Mat 1), 0 < S 0 0 →
      0 < (if c then (Matrix.of fun a b => if a = b then (1 + lamda) * S a b else S a b : Mat 1) else S) 0 0 := by
    intro c _ S hS
    split
    · simp only [Matrix.of_apply, if_true]
      exact mul_pos (by linarith) hS
    · exact hS
  exact @hor _ (_) _ h00

theorem panel_gram {mv mc : ℕ} (hmv : 0 < mv) {lamda : ℝ} (hl : 0 ≤ lamda) (T W t : ℕ) (hW : 0 < W)
    (ht : W ≤ t) (hmc : 0 < mc) : ((cmPanel label pairs mv mc lamda (id : ℕ → ℕ) x T).gram W t).PosDef := by
  apply gram_posDef_of
  intro w hw
  have h := congrFun (hw t (by omega) le_rfl) 0
  funext i
  have hi : ∀ j : Fin (nExperts label pairs), j = i := fun j => by
    apply Fin.ext
    have h1 := lt_of_lt_of_eq j.2 FmEx.experts
    have h2 := lt_of_lt_of_eq i.2 FmEx.experts
    omega
  have e : ((cmPanel label pairs mv mc lamda (id : ℕ → ℕ) x T).scores t *ᵥ w) 0
      = precFactor (cmExpert label pairs mv mc lamda x (mv + mc - 2 + (t - 1)) i) 0 0 * x (mv + mc - 2 + t) 0 * w i := by
    rw [Matrix.mulVec, dotProduct]
    rw [Finset.sum_eq_single i (fun j _ hj => absurd (hi j) hj) (by simp)]
    simp [Panel.scores, cmPanel, Matrix.mulVec, dotProduct]
  rw [e] at h
  have hp := (precFactor_isChol (cov_posDef (mc := mc) hmv hl (s := mv + mc - 2 + (t - 1)) (by omega) i)).pos 0
  rcases mul_eq_zero.mp h with h | h
  · rcases mul_eq_zero.mp h with h | h
    · exact absurd h hp.ne'
    · exact absurd h (x_ne _)
  · exact h

/-- The cell runs through, so the hypotheses of C150 to C153 are met. -/
theorem run {mv mc window T : ℕ} (h1 : 0 < mv) (h2 : 0 < mc) (h3 : 0 < window) (h4 : mv + mc ≤ T) {lamda : ℝ} (hl : 0 ≤ lamda) :
    ∃ D, cmIewma label solvers (pairs.map xr) (rowDict T (id : ℕ → ℕ) x) mv mc lamda window = .ok D := by
  refine (C150_success label (setup h1 h2 h3 h4) lamda fun K => ⟨exactSolver_exact, exactSolver_complete⟩).mpr ⟨?_, ?_, ?_⟩
  · intro i s hs _
    rw [pair_eq]
    exact fun p => (good h1 (by omega)).finite p
  · exact fun s hs _ i => cov_posDef h1 hl (by omega) i
  · intro t ht _
    exact panel_gram h1 hl _ _ _ (by unfold cmWindow; omega) ht h2

/-- `fit_cm_iewma` succeeds (C152_fit). -/
theorem fit {T : ℕ} (hT : 126 ≤ T) : ∃ S, fitCmIewma label solvers (pairs.map xr) (rowDict T (id : ℕ → ℕ) x) = .ok S := by
  have hs := setup (mv := 63) (mc := 63) (window := 10) (T := T) (by norm_num) (by norm_num) (by norm_num) (by omega)
  obtain ⟨D, hD⟩ := run (mv := 63) (mc := 63) (window := 10) (T := T) (lamda := 0.05) (by norm_num) (by norm_num) (by norm_num)
    (by omega) (by norm_num)
  have hdays := congrArg List.length (C150_days label hs 0.05 hD)
  simp only [List.length_map, List.length_range', cmWindow] at hdays
  unfold fitCmIewma
  rw [hD, ok_bind]
  unfold lastValue
  rcases hl : D.getLast? with _ | q
  · rw [List.getLast?_eq_none_iff] at hl
    rw [hl, List.length_nil] at hdays; omega
  · exact ⟨q.2, rfl⟩

/-- The experiment with draws that continue the returns (C152_sampling). -/
example : runSamplingExperiment (fitTable label solvers (pairs.map xr)) (fun j _ => .ok (finRow (x (140 + j))))
    (finFrame 140 (id : ℕ → ℕ) x) (List.range' 140 120) = .ok (finFrame 240 (id : ℕ → ℕ) x) := by
  have key : ∀ j ≤ 100, finFrame 140 (id : ℕ → ℕ) x
      ++ List.zip ((List.range' 140 120).take j) (((List.range 100).map fun j => finRow (x (140 + j))).take j)
        = finFrame (140 + j) (id : ℕ → ℕ) x := fun j hj =>
    sampled_table (num := 100) (fun i hi => by rw [List.getElem?_range' (by omega)]; simp) (by simp) (fun _ _ => rfl)
      (fun i hi => by simp) hj
  rw [C139_experiment]
  refine ⟨by simp, (List.range 100).map fun j => finRow (x (140 + j)), by simp, ?_, ?_⟩
  · have := key 100 le_rfl
    rw [List.take_of_length_le (l := (List.range 100).map fun j => finRow (x (140 + j))) (by simp)] at this
    exact this.symm
  · intro j hj
    rw [List.length_map, List.length_range] at hj
    obtain ⟨S, hS⟩ := fit (T := 140 + j) (by omega)
    refine ⟨Arr.ofFn fun q => XR.fin (S q.1 q.2), ?_, by simp⟩
    unfold fitTable
    rw [key j (by omega), table_real, hS]
    rfl

/-- A history of 140 rows and one of 150 that agree on the first 140 rows (C151), in other units (C153). -/
example : ∃ D', cmIewma label solvers (pairs.map xr) (rowDict 150 (id : ℕ → ℕ) x) 63 63 0.05 10 = .ok D' ∧
    (cmIewma label solvers (pairs.map xr) (rowDict 140 (id : ℕ → ℕ) x) 63 63 0.05 10 = .ok (D'.take 6)) ∧
    cmIewma label solvers (pairs.map xr) (rowDict 150 (id : ℕ → ℕ) fun t i => -3 * x t i) 63 63 0.05 10
      = .ok (D'.map fun p => (p.1, Matrix.of fun i j => -3 * p.2 i j * -3)) := by
  obtain ⟨D, hD⟩ := run (mv := 63) (mc := 63) (window := 10) (T := 150) (lamda := 0.05) (by norm_num) (by norm_num) (by norm_num)
    (by norm_num) (by norm_num)
  have h1 := setup (mv := 63) (mc := 63) (window := 10) (T := 140) (by norm_num) (by norm_num) (by norm_num) (by norm_num)
  have h2 := setup (mv := 63) (mc := 63) (window := 10) (T := 150) (by norm_num) (by norm_num) (by norm_num) (by norm_num)
  obtain ⟨d, h3, h4⟩ := C151_no_lookahead label h1 0.05 h2 (by norm_num) (fun _ _ => rfl) (by norm_num) hD
  exact ⟨D, hD, by rw [h3, h4], C153_units label h2 0.05 (fun _ => -3) (fun _ => by norm_num)
    (fun K => ⟨exactSolver_exact, exactSolver_complete⟩) (fun K => ⟨exactSolver_exact, exactSolver_complete⟩) hD⟩

end CmEx

end CovPred
