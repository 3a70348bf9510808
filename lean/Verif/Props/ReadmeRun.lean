import Verif.Props.Readme
import Verif.Props.CmIewma

/-
Properties C155 and C156 of the second README example (`/repo/README.md:112-138`): experts from pandas' exponentially weighted
covariances, combined by `from_sigmas`.

The returns are the rows `x 0, ..., x (T-1)` with labels `tm`. `ReadmeSetup` (Verif/Spec/Readme.lean) collects the conditions on
the arguments; `readmeWindow` is the window, cut to the rows there are.
-/
set_option linter.unusedSectionVars false
namespace CovPred
open Matrix

section
variable {τ : Type} [LinearOrder τ] {n K : ℕ} {solver : Solver n K} {halflives : Fin K → ℝ} {m window T : ℕ} {tm : ℕ → τ}
  {x : ℕ → Vec n}

/-! ### C155: what the example computes -/

/-- **C155.** The dates: every row from the first expert plus the window on, once, in order. -/
theorem C155_days (h : ReadmeSetup solver halflives m window T tm) {d : Dict τ (Mat n)}
    (hd : readmePredictors solver halflives m window (rowDict T tm x) = .ok d) :
    d.map Prod.fst = (List.range' (readmeFirst m + readmeWindow m window T)
      (T - (readmeFirst m + readmeWindow m window T))).map tm := by
  obtain ⟨_, rfl⟩ := (readme_ok_iff h x d).mp hd
  rw [List.map_map]; rfl

theorem readme_logLik (N W : ℕ) {s : ℕ} (hs : readmeFirst m + W ≤ s) (w : Vec K) :
    (readmePanel halflives m tm x N).logLik W (s - readmeFirst m) w = covWindowLogLik halflives x W s w := by
  unfold Panel.logLik covWindowLogLik
  apply Finset.sum_bij (fun u _ => readmeFirst m + u)
  · intro u hu
    rw [Finset.mem_Ioc] at hu ⊢
    omega
  · intro a _ b _ hab; omega
  · intro b hb
    rw [Finset.mem_Ioc] at hb
    exact ⟨b - readmeFirst m, by rw [Finset.mem_Ioc]; omega, by omega⟩
  · intro u hu
    rw [Finset.mem_Ioc] at hu
    have e : blendMean ((readmePanel halflives m tm x N).cov (u - 1))
        ((readmePanel halflives m tm x N).mean (u - 1)) w = 0 := by
      unfold blendMean
      simp [readmePanel]
    rw [e]
    show gaussLogDensity 0 (blendCov (fun k => halflifeCov (halflives k) x (readmeFirst m + (u - 1))) w) (x (readmeFirst m + u)) = _
    rw [show readmeFirst m + (u - 1) = readmeFirst m + u - 1 by omega]

/-- **C155.** The prediction for a date: the exponentially weighted covariances of the returns up to it are positive definite and
the prediction is their blend with weights on the simplex, so it is positive definite; with an exact solver the weights
maximise the likelihood of the returns of the last `window` rows under the blends of the covariances of the row before
each. -/
theorem C155_prediction (h : ReadmeSetup solver halflives m window T tm) {d : Dict τ (Mat n)}
    (hd : readmePredictors solver halflives m window (rowDict T tm x) = .ok d) {s : ℕ}
    (hs : readmeFirst m + readmeWindow m window T ≤ s) (hsT : s < T) :
    ∃ S, d.lookup (tm s) = some S ∧ S.PosDef ∧ (∀ k, (halflifeCov (halflives k) x s).PosDef) ∧
      ∃ w, Simplex w ∧ S = blendCov (fun k => halflifeCov (halflives k) x s) w ∧
        (solver.Exact → ∀ w', Simplex w' →
          covWindowLogLik halflives x (readmeWindow m window T) s w'
            ≤ covWindowLogLik halflives x (readmeWindow m window T) s w) := by
  obtain ⟨hc, rfl⟩ := (readme_ok_iff h x d).mp hd
  set W := readmeWindow m window T with hW
  set P := readmePanel halflives m tm x T with hP
  set a := readmeFirst m with ha
  have hlen : P.len = T - a := rfl
  have hlt : s - a < P.len := by rw [hlen]; omega
  have hcov : P.cov (s - a) = fun k => halflifeCov (halflives k) x s := by
    show (fun k => halflifeCov (halflives k) x (a + (s - a))) = _
    rw [show a + (s - a) = s by omega]
  have hpos : ∀ i, (halflifeCov (halflives i) x s).PosDef := fun i => by
    have := hc.ok.posDef (s - a) hlt i
    rwa [hcov] at this
  obtain ⟨w, hout⟩ := hc.solved (s - a) (by omega) hlt
  have hwat : P.weightsAt solver W W (s - a) = w := by unfold Panel.weightsAt; rw [hout]
  have hsimp : Simplex w := by
    have := hout
    unfold Panel.outcome at this
    rw [range'_concat_params P W W _ (by omega)] at this
    exact h.feasible _ _ _ this
  refine ⟨_, ?_, ?_, hpos, w, hsimp, rfl, ?_⟩
  · rw [map_range_shift]
    have := lookup_map_range (time := fun j => tm (a + W + j)) (N := T - (a + W))
      (fun a b hab hb => h.labels _ _ (by omega) (by omega))
      (fun j => blendCov (fun k => halflifeCov (halflives k) x (a + W + j))
        (P.weightsAt solver W W (a + W + j - a))) (s - (a + W)) (by omega)
    rw [show a + W + (s - (a + W)) = s by omega, hwat] at this
    exact this
  · exact blendCov_posDef hpos hsimp
  · intro hex w' hw'
    have hgr := hc.gram (s - a) (by omega) hlt
    have hbest := outcome_exact (P := P) hc.ok h.experts (a := W) (W := W) (t := s - a) (by omega) (by omega) hlt hgr
      hex hout
    have hopt := best_optimal (P := P) hc.ok h.experts (W := W) (t := s - a) (by omega) hlt hgr
    rw [← hbest] at hopt
    have := hopt.2 w' hw'
    rw [hP, readme_logLik T W hs, readme_logLik T W hs] at this
    exact this

/-- **C155.** With a solver that finds the optimum, the example runs through exactly if on no row from the first expert on the
past returns of a non-empty portfolio are constant, and no window is degenerate. -/
theorem C155_success (h : ReadmeSetup solver halflives m window T tm) (hs : solver.Exact) (hs' : solver.Complete) :
    (∃ d, readmePredictors solver halflives m window (rowDict T tm x) = .ok d) ↔
      (∀ w : Vec n, (∀ u ≤ readmeFirst m, w ⬝ᵥ x u = w ⬝ᵥ x 0) → w = 0) ∧
      ∀ t, readmeWindow m window T ≤ t → t < T - readmeFirst m →
        ((readmePanel halflives m tm x T).gram (readmeWindow m window T) t).PosDef := by
  have hrows := h.rows
  have ha : 1 ≤ readmeFirst m := by unfold readmeFirst; omega
  constructor
  · rintro ⟨d, hd⟩
    obtain ⟨h2, _⟩ := (readme_ok_iff h x d).mp hd
    refine ⟨?_, h2.gram⟩
    have := h2.ok.posDef 0 (by show _ < T - readmeFirst m; omega) ⟨0, h.experts⟩
    exact (C154_psd _ x ha).2.mp this
  · rintro ⟨h2, h3⟩
    have hok : (readmePanel halflives m tm x T).Ok :=
      ⟨fun s t hst ht => h.labels _ _ (by omega) (by simp only [readmePanel] at ht; omega),
        fun t ht i => (C154_psd _ x (by omega)).2.mpr fun w hw => h2 w fun u hu => hw u (by omega)⟩
    exact ⟨_, (readme_ok_iff h x _).mpr ⟨⟨hok, h3, fun t h4 h5 =>
      ⟨_, outcome_complete hok h.experts h4 h4 h5 (h3 t h4 h5) hs hs'⟩⟩, rfl⟩⟩

theorem readme_hag {T' : ℕ} {x' : ℕ → Vec n} (hT : T ≤ T') (hx : ∀ u < T, x u = x' u) :
    ∀ t < T - readmeFirst m, (readmePanel halflives m tm x T).AgreeTo (readmePanel halflives m tm x' T') t := fun t ht => by
  refine ⟨fun s hs => rfl, fun s hs => ?_, fun s hs => rfl, fun s _ hs => hx _ (by omega)⟩
  funext k
  exact hcov_congr _ fun u hu => hx u (by omega)

/-- **C155.** No look-ahead: if the example runs on a longer history that agrees with a shorter one on the rows of the shorter,
which has room for the whole window, it also runs on the shorter one, and its predictions are the first predictions of the
longer run. -/
theorem C155_no_lookahead {T' : ℕ} {x' : ℕ → Vec n} (h : ReadmeSetup solver halflives m window T tm)
    (h' : ReadmeSetup solver halflives m window T' tm) (hT : T ≤ T') (hx : ∀ u < T, x u = x' u)
    (hroom : readmeFirst m + window < T) {d' : Dict τ (Mat n)}
    (hd' : readmePredictors solver halflives m window (rowDict T' tm x') = .ok d') :
    readmePredictors solver halflives m window (rowDict T tm x) = .ok (d'.take (T - (readmeFirst m + window))) := by
  obtain ⟨h2, rfl⟩ := (readme_ok_iff h' x' d').mp hd'
  have hW' : readmeWindow m window T' = window := by unfold readmeWindow; omega
  have hW : readmeWindow m window T = window := by unfold readmeWindow; omega
  rw [hW'] at h2 ⊢
  have hag := readme_hag (halflives := halflives) (m := m) (tm := tm) hT hx
  have hout : ∀ t, window ≤ t → t < T - readmeFirst m → (readmePanel halflives m tm x T).outcome solver window window t
      = (readmePanel halflives m tm x' T').outcome solver window window t := by
    intro t h3 h4
    unfold Panel.outcome
    congr 1
    apply List.map_congr_left
    intro u hu
    rw [List.mem_range'_1] at hu
    apply params_congr (by omega)
    · intro v _ hv
      exact (hag t h4).cov (v - 1) (by omega)
    · intro v _ _; rfl
    · intro v hv1 hv
      exact hx _ (by omega)
  refine (readme_ok_iff h x _).mpr ⟨?_, ?_⟩
  · rw [hW]
    refine ⟨⟨fun s t hst ht => h.labels _ _ (by omega) (by simp only [readmePanel] at ht; omega), fun t ht i => ?_⟩,
      fun t h3 h4 => ?_, fun t h3 h4 => ?_⟩
    · have := h2.ok.posDef t (by simp only [readmePanel] at ht ⊢; omega) i
      rw [(hag t ht).cov t le_rfl]
      exact this
    · rw [gram_agree (hag t h4) h3]
      exact h2.gram t h3 (by have h5 : t < T - readmeFirst m := h4; show t < T' - _; omega)
    · obtain ⟨w, hw⟩ := h2.solved t h3 (by have h5 : t < T - readmeFirst m := h4; show t < T' - _; omega)
      exact ⟨w, by rw [← hw]; exact hout t h3 h4⟩
  · rw [hW, ← List.map_take]
    have ht : (List.range' (readmeFirst m + window) (T' - (readmeFirst m + window))).take (T - (readmeFirst m + window))
        = List.range' (readmeFirst m + window) (T - (readmeFirst m + window)) := by
      apply List.ext_getElem
      · simp; omega
      · intro k h3 h4; simp
    rw [ht]
    apply List.map_congr_left
    intro s hs
    rw [List.mem_range'_1] at hs
    have e1 : (fun k => halflifeCov (halflives k) x' s) = fun k => halflifeCov (halflives k) x s := by
      funext k
      exact hcov_congr _ fun u hu => (hx u (by omega)).symm
    have e2 : (readmePanel halflives m tm x' T').weightsAt solver window window (s - readmeFirst m)
        = (readmePanel halflives m tm x T).weightsAt solver window window (s - readmeFirst m) := by
      unfold Panel.weightsAt
      rw [hout _ (by omega) (by omega)]
    rw [e1, e2]

/-! ### C156: units -/

/-- **C156.** Units do not matter: if the returns of asset `i` are multiplied by `d i ≠ 0`, the example (with a solver that finds
the optimum) predicts for the same dates, and the covariances are multiplied by `d i * d j`. -/
theorem C156_units (h : ReadmeSetup solver halflives m window T tm) (d : Vec n) (hd : ∀ i, d i ≠ 0)
    (hs : solver.Exact) (hsc : solver.Complete) {solver' : Solver n K} (hs' : solver'.Exact) (hsc' : solver'.Complete)
    {D : Dict τ (Mat n)} (hD : readmePredictors solver halflives m window (rowDict T tm x) = .ok D) :
    readmePredictors solver' halflives m window (rowDict T tm fun t i => d i * x t i)
      = .ok (D.map fun p => (p.1, Matrix.of fun i j => d i * p.2 i j * d j)) := by
  have h' : ReadmeSetup solver' halflives m window T tm := { h with feasible := hs'.feasible }
  obtain ⟨h2, rfl⟩ := (readme_ok_iff h x D).mp hD
  have hrows := h.rows
  have hK := h.experts
  set W := readmeWindow m window T with hW
  set P := readmePanel halflives m tm x T with hP
  set P' := readmePanel halflives m tm (fun t i => d i * x t i) T with hP'
  set a := readmeFirst m with ha
  have hlen : P.len = T - a := rfl
  have hsc0 : ∀ k s, halflifeCov (halflives k) (fun t i => d i * x t i) s
      = Matrix.of fun i j => d i * halflifeCov (halflives k) x s i j * d j := fun k s => by
    have := C154_affine (halflives k) x 0 d s
    simpa using this
  have hag : ∀ t < P.len, P'.AgreeTo (P.rescale d) t := fun t ht => by
    refine ⟨fun s _ => rfl, fun s hst => ?_, fun s _ => ?_, fun s _ _ => rfl⟩
    · funext i
      exact hsc0 i _
    · funext i a
      show (0 : ℝ) = d a * 0
      ring
  have hrok := rescale_ok h2.ok d hd
  have hok : P'.Ok := ⟨h2.ok.time_lt, fun t ht i => by
    rw [(hag t ht).cov t le_rfl]; exact hrok.posDef t ht i⟩
  have hgr : ∀ t, W ≤ t → t < P.len → P'.gram W t = P.gram W t := fun t h3 h4 => by
    rw [gram_agree (hag t h4) h3, gram_rescale h2.ok d hd h3 h4]
  have hll : ∀ t, W ≤ t → t < P.len → ∀ w, P'.logLik W t w = (P.rescale d).logLik W t w := fun t h3 h4 w => by
    unfold Panel.logLik
    apply Finset.sum_congr rfl
    intro s hs
    rw [Finset.mem_Ioc] at hs
    rw [(hag t h4).cov (s - 1) (by omega), (hag t h4).mean (s - 1) (by omega), (hag t h4).ret s (by omega) hs.2]
  have hbest : ∀ t, W ≤ t → t < P.len → P'.best W t = P.best W t := fun t h3 h4 => by
    have hg' : (P'.gram W t).PosDef := by rw [hgr t h3 h4]; exact h2.gram t h3 h4
    have hb := best_optimal h2.ok hK h3 h4 (h2.gram t h3 h4)
    refine optimal_unique hok h3 h4 hg' (best_optimal hok hK h3 h4 hg') ⟨hb.1, fun w' hw' => ?_⟩
    rw [hll t h3 h4, hll t h3 h4, logLik_rescale h2.ok d hd h3 h4 hw', logLik_rescale h2.ok d hd h3 h4 hb.1]
    have := hb.2 w' hw'
    linarith
  have hout' : ∀ t, W ≤ t → t < P.len → P'.outcome solver' W W t = .weights (P.best W t) := fun t h3 h4 => by
    rw [outcome_complete hok hK h3 h3 h4 (by rw [hgr t h3 h4]; exact h2.gram t h3 h4) hs' hsc', hbest t h3 h4]
  have hout : ∀ t, W ≤ t → t < P.len → P.outcome solver W W t = .weights (P.best W t) := fun t h3 h4 =>
    outcome_complete h2.ok hK h3 h3 h4 (h2.gram t h3 h4) hs hsc
  refine (readme_ok_iff h' _ _).mpr ⟨⟨hok, fun t h3 h4 => ?_, fun t h3 h4 => ⟨_, hout' t h3 h4⟩⟩, ?_⟩
  · have := h2.gram t h3 h4
    rw [← hgr t h3 h4] at this
    exact this
  · rw [List.map_map]
    apply List.map_congr_left
    intro s hs
    rw [List.mem_range'_1] at hs
    simp only [Function.comp]
    have h4 : s - a < P.len := by rw [hlen]; omega
    have hw : P.weightsAt solver W W (s - a) = P.best W (s - a) := by
      unfold Panel.weightsAt; rw [hout _ (by omega) h4]
    have hw' : P'.weightsAt solver' W W (s - a) = P.best W (s - a) := by
      unfold Panel.weightsAt; rw [hout' _ (by omega) h4]
    rw [hw, hw']
    have hpos : ∀ i, (halflifeCov (halflives i) x s).PosDef := fun i => by
      have := h2.ok.posDef (s - a) h4 i
      change (halflifeCov (halflives i) x (a + (s - a))).PosDef at this
      rwa [show a + (s - a) = s by omega] at this
    have hex : (fun k => halflifeCov (halflives k) (fun t i => d i * x t i) s)
        = fun i => Matrix.diagonal d * halflifeCov (halflives i) x s * Matrix.diagonal d := by
      funext i
      rw [hsc0 i s, rescale_eq]
    rw [hex, blendCov_rescale hpos d hd, rescale_eq]

end

/-! ### A concrete run -/

namespace ReadmeEx

/-- the returns of two assets: `(1,0), (0,1), (-1,0), (0,1), ...` -/
def x (s : ℕ) : Vec 2 := if s % 2 = 1 then ![0, 1] else if s % 4 = 0 then ![1, 0] else ![-1, 0]

noncomputable def solver : Solver 2 1 := exactSolver 2 1

theorem x_ne (s : ℕ) : x s ≠ 0 := by
  unfold x
  intro h
  have h0 := congrFun h 0
  have h1 := congrFun h 1
  split_ifs at h0 h1 <;> simp at h0 h1

theorem setup {m window T : ℕ} (h3 : 0 < window) (h4 : readmeFirst m + 2 ≤ T) :
    ReadmeSetup solver ![21] m window T (id : ℕ → ℕ) where
  assets := by norm_num
  experts := by norm_num
  labels := fun s t h _ => h
  halflives := by intro k; fin_cases k; norm_num
  window_pos := h3
  feasible := exactSolver_exact.feasible
  rows := h4

theorem spans {a : ℕ} (ha : 2 ≤ a) (w : Vec 2) (hw : ∀ u ≤ a, w ⬝ᵥ x u = w ⬝ᵥ x 0) : w = 0 := by
  have h1 := hw 1 (by omega)
  have h2 := hw 2 (by omega)
  simp [x, dotProduct, Fin.sum_univ_two] at h1 h2
  funext i
  fin_cases i
  · show w 0 = 0
    linarith
  · show w 1 = 0
    linarith

theorem gram_ok {m window T : ℕ} (hm : 3 ≤ m) {t : ℕ} (hw : 0 < window) (ht : window ≤ t) :
    ((readmePanel ![21] m (id : ℕ → ℕ) x T).gram window t).PosDef := by
  apply gram_posDef_of
  intro w hw'
  have h := hw' t (by omega) le_rfl
  have hpd : (halflifeCov 21 x (readmeFirst m + (t - 1))).PosDef :=
    (C154_psd 21 x (by unfold readmeFirst; omega)).2.mpr (spans (by unfold readmeFirst; omega))
  have hch := precFactor_isChol hpd
  have e : (readmePanel ![21] m (id : ℕ → ℕ) x T).scores t *ᵥ w
      = w 0 • ((precFactor (halflifeCov 21 x (readmeFirst m + (t - 1))))ᵀ *ᵥ x (readmeFirst m + t)) := by
    funext i
    simp [Panel.scores, readmePanel, Matrix.mulVec, dotProduct, _root_.mul_comm]
  rw [e] at h
  rcases smul_eq_zero.mp h with h | h
  · funext i; fin_cases i; exact h
  · exfalso
    apply x_ne (readmeFirst m + t)
    set L := precFactor (halflifeCov 21 x (readmeFirst m + (t - 1))) with hL
    have hdet : Lᵀ.det ≠ 0 := by
      rw [Matrix.det_transpose]
      exact hch.det_pos.ne'
    exact (Matrix.mulVec_injective_iff_isUnit.mpr ((Matrix.isUnit_iff_isUnit_det _).mpr (isUnit_iff_ne_zero.mpr hdet)))
      (by rw [h, Matrix.mulVec_zero])

/-- The example with half-life 21, `min_periods = 10` and window 10 runs through for every history of at least 12 rows. -/
theorem run {T : ℕ} (hT : 12 ≤ T) : ∃ D, readmePredictors solver ![21] 10 10 (rowDict T (id : ℕ → ℕ) x) = .ok D := by
  have h9 : readmeFirst 10 = 9 := rfl
  refine (C155_success (setup (by norm_num) (by omega)) exactSolver_exact exactSolver_complete).mpr
    ⟨spans (by omega), fun t ht _ => gram_ok (by norm_num) (by unfold readmeWindow; omega) ht⟩

/-- No look-ahead and units on the example (C155, C156). -/
example : ∃ D', readmePredictors solver ![21] 10 10 (rowDict 50 (id : ℕ → ℕ) x) = .ok D' ∧
    readmePredictors solver ![21] 10 10 (rowDict 40 (id : ℕ → ℕ) x) = .ok (D'.take 21) ∧
    readmePredictors solver ![21] 10 10 (rowDict 50 (id : ℕ → ℕ) fun t i => ![-3, 100] i * x t i)
      = .ok (D'.map fun p => (p.1, Matrix.of fun i j => ![-3, 100] i * p.2 i j * ![-3, 100] j)) := by
  have h9 : readmeFirst 10 = 9 := rfl
  obtain ⟨D, hD⟩ := run (T := 50) (by norm_num)
  exact ⟨D, hD, C155_no_lookahead (setup (by norm_num) (by omega)) (setup (by norm_num) (by omega)) (by norm_num)
    (fun _ _ => rfl) (by omega) hD,
    C156_units (setup (by norm_num) (by omega)) ![-3, 100] (by intro i; fin_cases i <;> norm_num) exactSolver_exact
      exactSolver_complete exactSolver_exact exactSolver_complete hD⟩

/-- the returns of one asset: 1, -1, -1, 1 -/
def y (s : ℕ) : Vec 1 := if s % 3 = 0 then ![1] else ![-1]

theorem y_ne (s : ℕ) : y s 0 ≠ 0 := by
  unfold y
  by_cases h : s % 3 = 0 <;> simp [h]

theorem y_pd (h : ℝ) {t : ℕ} (ht : 1 ≤ t) : (halflifeCov h y t).PosDef := by
  rw [(C154_psd h y ht).2]
  intro w hw
  have := hw 1 ht
  simp [y, dotProduct] at this
  funext i
  rw [Subsingleton.elim i 0]
  show w 0 = 0
  linarith

theorem y_var (h : ℝ) : halflifeCov h y 2 0 0 * (betaOf h ^ 2 + betaOf h + 1) = 2 * (betaOf h ^ 2 + betaOf h) := by
  have hb := betaOf_pos h
  rw [halflifeCov_eq]
  have h1 := bcov_mul hb (fun s => y s 0) (fun s => y s 0) 2
  have h2 := emaAvg_wt hb (fun s => y s 0) 2
  have hw : wt (betaOf h) 2 = betaOf h ^ 2 + betaOf h + 1 := by simp [wt, Finset.sum_range_succ]
  have hw2 : wt2 (betaOf h) 2 = betaOf h ^ 4 + betaOf h ^ 2 + 1 := by simp [wt2, Finset.sum_range_succ]; ring
  have y0 : y 0 0 = 1 := by simp [y]
  have y1 : y 1 0 = -1 := by simp [y]
  have y2 : y 2 0 = -1 := by simp [y]
  simp [y0, y1, y2, Finset.sum_range_succ] at h1 h2
  unfold ucov
  rw [hw] at h1 h2
  rw [hw, hw2]
  generalize betaOf h = b at *
  generalize bcov b (fun s => y s 0) (fun s => y s 0) 2 = c at *
  have hm : emaAvg b (fun s => y s 0) 2 = (b ^ 2 + -b + -1) / (b ^ 2 + b + 1) := by
    rw [eq_div_iff (by positivity)]
    exact h2
  have hc : c = (4 * (b ^ 3 + b ^ 2)) / (b ^ 2 + b + 1) ^ 2 := by
    rw [eq_div_iff (by positivity)]
    rw [hm] at h1
    field_simp at h1
    nlinarith
  rw [hc]
  have hd : (b ^ 2 + b + 1) * (b ^ 2 + b + 1) - (b ^ 4 + b ^ 2 + 1) = 2 * b * (b ^ 2 + b + 1) := by ring
  rw [hd]
  field_simp
  ring

theorem y_gram : ((readmePanel ![21, 63] 2 (id : ℕ → ℕ) y 4).gram 2 2).PosDef := by
  apply gram_posDef_of
  intro w hw
  have hf : readmeFirst 2 = 1 := rfl
  have e : ∀ t, 1 ≤ t → ((readmePanel ![21, 63] 2 (id : ℕ → ℕ) y 4).scores t *ᵥ w) 0
      = y (1 + t) 0 * (precFactor (halflifeCov 21 y t) 0 0 * w 0 + precFactor (halflifeCov 63 y t) 0 0 * w 1) := by
    intro t ht
    simp [Panel.scores, readmePanel, Matrix.mulVec, dotProduct, hf, Fin.sum_univ_two, show 1 + (t - 1) = t by omega]
    ring
  have h1 := congrFun (hw 1 (by norm_num) (by norm_num)) 0
  have h2 := congrFun (hw 2 (by norm_num) (by norm_num)) 0
  rw [e 1 le_rfl] at h1
  rw [e 2 (by norm_num)] at h2
  have h1' := (mul_eq_zero.mp h1).resolve_left (y_ne _)
  have h2' := (mul_eq_zero.mp h2).resolve_left (y_ne _)
  have hsame : halflifeCov 21 y 1 = halflifeCov 63 y 1 := by
    ext i j
    rw [C154_two_rows, C154_two_rows]
  rw [hsame, ← mul_add] at h1'
  have hw01 : w 0 + w 1 = 0 := by
    refine (mul_eq_zero.mp h1').resolve_left ?_
    exact ((precFactor_isChol (y_pd 63 le_rfl)).pos 0).ne'
  have hw1 : w 1 = - w 0 := by linarith
  have hw0 : w 0 = 0 := by
    rw [hw1] at h2'
    have h3 : (precFactor (halflifeCov 21 y 2) 0 0 - precFactor (halflifeCov 63 y 2) 0 0) * w 0 = 0 := by linarith
    refine (mul_eq_zero.mp h3).resolve_left fun h4 => ?_
    have hP : precFactor (halflifeCov 21 y 2) = precFactor (halflifeCov 63 y 2) := by
      ext i j
      rw [Subsingleton.elim i 0, Subsingleton.elim j 0]
      linarith
    have hI : (halflifeCov 21 y 2)⁻¹ = (halflifeCov 63 y 2)⁻¹ := by
      rw [← (precFactor_isChol (y_pd 21 (t := 2) (by norm_num))).eq, hP,
        (precFactor_isChol (y_pd 63 (t := 2) (by norm_num))).eq]
    have hS : halflifeCov 21 y 2 = halflifeCov 63 y 2 := by
      have u1 : IsUnit (halflifeCov 21 y 2).det := (y_pd 21 (t := 2) (by norm_num)).det_pos.ne'.isUnit
      have u2 : IsUnit (halflifeCov 63 y 2).det := (y_pd 63 (t := 2) (by norm_num)).det_pos.ne'.isUnit
      rw [← Matrix.nonsing_inv_nonsing_inv _ u1, hI, Matrix.nonsing_inv_nonsing_inv _ u2]
    have v1 := y_var 21
    have v2 := y_var 63
    rw [hS] at v1
    have hb : betaOf 21 < betaOf 63 := by
      unfold betaOf
      apply Real.exp_lt_exp.mpr
      have := Real.log_pos (by norm_num : (1 : ℝ) < 2)
      rw [div_lt_div_iff₀ (by norm_num) (by norm_num)]
      nlinarith
    have p1 := betaOf_pos 21
    have p2 := betaOf_pos 63
    generalize halflifeCov 63 y 2 0 0 = v at *
    generalize betaOf 21 = a at *
    generalize betaOf 63 = b at *
    have hv : (2 - v) * (a ^ 2 + a + 1) = (2 - v) * (b ^ 2 + b + 1) := by linarith
    have hv2 : (2 - v) * ((b - a) * (b + a + 1)) = 0 := by linarith
    have hne : (b - a) * (b + a + 1) ≠ 0 := by
      apply mul_ne_zero
      · linarith
      · positivity
    have := (mul_eq_zero.mp hv2).resolve_right hne
    have hv3 : v = 2 := by linarith
    rw [hv3] at v1
    linarith
  funext i
  fin_cases i
  · exact hw0
  · show w 1 = 0
    rw [hw1, hw0]; ring

/-- The two half-lives of the README, 21 and 63, with `min_periods = 2` and window 2 on four rows. -/
theorem run2 : ∃ D, readmePredictors (exactSolver 1 2) ![21, 63] 2 2 (rowDict 4 (id : ℕ → ℕ) y) = .ok D := by
  have hf : readmeFirst 2 = 1 := rfl
  have hW : readmeWindow 2 2 4 = 2 := rfl
  have hs : ReadmeSetup (exactSolver 1 2) ![21, 63] 2 2 4 (id : ℕ → ℕ) :=
    { assets := by norm_num
      experts := by norm_num
      labels := fun s t h _ => h
      halflives := by intro k; fin_cases k <;> norm_num
      window_pos := by norm_num
      feasible := exactSolver_exact.feasible
      rows := by omega }
  refine (C155_success hs exactSolver_exact exactSolver_complete).mpr ⟨?_, fun t ht ht' => ?_⟩
  · exact (C154_psd 21 y le_rfl).2.mp (y_pd 21 le_rfl)
  · rw [hW] at ht ⊢
    rw [hf] at ht'
    obtain rfl : t = 2 := by omega
    exact y_gram

end ReadmeEx

end CovPred
