import Verif.Props.Tolerance
import Mathlib.Probability.Moments.Variance

/-
Property C199: how fast the combination learns the best blend (combination.py:203-286).
-/
set_option linter.unusedSectionVars false
namespace CovPred
open Matrix MeasureTheory ProbabilityTheory Filter

variable {τ : Type} [LinearOrder τ] {n K : ℕ} {Ω : Type} [MeasurableSpace Ω] {P : Measure Ω} [IsProbabilityMeasure P]

/-- the window log-likelihood of fixed experts, for a window of length `W` that ends at `t` -/
theorem fixed_logLik_window {time : ℕ → τ} {S : Fin K → Mat n} (hS : ∀ k, (S k).PosDef) (mu : Fin K → Vec n) (r : ℕ → Vec n) {N W t : ℕ}
    (hW : 0 < W) (hWt : W ≤ t) {w : Vec K} (hw : Simplex w) :
    (fixedExperts time S mu r N).logLik W t w = W * (gramScore S ((W : ℝ)⁻¹ • (fixedExperts time S mu r N).gram W t) w
      - n / 2 * Real.log (2 * Real.pi)) := by
  have hW' : (W : ℝ) ≠ 0 := by exact_mod_cast hW.ne'
  unfold Panel.logLik Panel.gram gramScore
  simp only [fixed_scores]
  change ∑ s ∈ Finset.Ioc (t - W) t, gaussLogDensity (blendMean S mu w) (blendCov S w) (r s) = _
  rw [Finset.sum_congr rfl fun s _ => density_standardised hS mu hw (r s)]
  rw [Finset.sum_sub_distrib, Finset.sum_const, Nat.card_Ioc, ← Finset.mul_sum, ← dotProduct_sum, ← Matrix.sum_mulVec, Matrix.smul_mulVec,
    dotProduct_smul, nsmul_eq_mul, smul_eq_mul, show t - (t - W) = W by omega]
  field_simp
  ring

theorem fixed_optimal_window {time : ℕ → τ} {S : Fin K → Mat n} (hS : ∀ k, (S k).PosDef) (mu : Fin K → Vec n) (r : ℕ → Vec n) {N W t : ℕ}
    (hW : 0 < W) (hWt : W ≤ t) {w : Vec K} (h : (fixedExperts time S mu r N).Optimal W t w) :
    GramBest S ((W : ℝ)⁻¹ • (fixedExperts time S mu r N).gram W t) w := by
  refine ⟨h.1, fun w' hw' => ?_⟩
  have := h.2 w' hw'
  rw [fixed_logLik_window hS mu r hW hWt hw', fixed_logLik_window hS mu r hW hWt h.1] at this
  have hW' : (0 : ℝ) < W := by exact_mod_cast hW
  have := le_of_mul_le_mul_left this hW'
  linarith

private theorem memLp4_standardised {R : Ω → Vec n} (hR : ∀ i, MemLp (fun ω => R ω i) 4 P) (S : Fin K → Mat n) (mu : Fin K → Vec n) (i : Fin n)
    (k : Fin K) : MemLp (fun ω => standardised S mu (R ω) i k) 4 P := by
  simp only [standardised, Matrix.of_apply, Matrix.mulVec, dotProduct]
  refine memLp_finsetSum _ fun j _ => ?_
  exact ((hR j).sub (memLp_const (mu k j))).const_mul _

private theorem memLp_gram {R : Ω → Vec n} (hR : ∀ i, MemLp (fun ω => R ω i) 4 P) (S : Fin K → Mat n) (mu : Fin K → Vec n) (k l : Fin K) :
    MemLp (fun ω => ((standardised S mu (R ω))ᵀ * standardised S mu (R ω)) k l) 2 P := by
  haveI : ENNReal.HolderTriple 4 4 2 := ⟨by
    rw [← ENNReal.toReal_eq_toReal_iff' (by simp) (by simp), ENNReal.toReal_add (by simp) (by simp)]
    norm_num⟩
  simp only [Matrix.mul_apply, Matrix.transpose_apply]
  exact memLp_finsetSum _ fun i _ => (memLp4_standardised hR S mu i l).mul' (memLp4_standardised hR S mu i k)

private theorem measurable_gram' (S : Fin K → Mat n) (mu : Fin K → Vec n) (k l : Fin K) :
    Measurable fun x : Vec n => ((standardised S mu x)ᵀ * standardised S mu x) k l := by
  simp only [Matrix.mul_apply, Matrix.transpose_apply, standardised, Matrix.of_apply, Matrix.mulVec, dotProduct, Pi.sub_apply]
  fun_prop

/-- the variance of one entry of the Gram matrix of one return -/
noncomputable def gramVar (P : Measure Ω) (R : Ω → Vec n) (S : Fin K → Mat n) (mu : Fin K → Vec n) (k l : Fin K) : ℝ :=
  ProbabilityTheory.variance (fun ω => ((standardised S mu (R ω))ᵀ * standardised S mu (R ω)) k l) P

/-- Chebyshev's inequality for the average Gram matrix of a window -/
theorem gram_chebyshev {R : ℕ → Ω → Vec n} (hR : IID P R) (h4 : ∀ i, MemLp (fun ω => R 0 ω i) 4 P) (time : ℕ → τ) (S : Fin K → Mat n)
    (mu : Fin K → Vec n) {N W t : ℕ} (hW : 0 < W) (hWt : W ≤ t) {η : ℝ} (hη : 0 < η) (k l : Fin K) :
    P {ω | η ≤ |((W : ℝ)⁻¹ • (fixedExperts time S mu (fun s => R s ω) N).gram W t) k l - expectedGram P (R 0) S mu k l|}
      ≤ ENNReal.ofReal (gramVar P (R 0) S mu k l / (W * η ^ 2)) := by
  have hW' : (0 : ℝ) < W := by exact_mod_cast hW
  have hm := measurable_gram' S mu k l
  set Z : ℕ → Ω → ℝ := fun s ω => ((standardised S mu (R s ω))ᵀ * standardised S mu (R s ω)) k l with hZ
  have hi : ∀ s, IdentDistrib (Z s) (Z 0) P P := fun s => (hR.ident s).comp hm
  have h0 : MemLp (Z 0) 2 P := memLp_gram h4 S mu k l
  have hL : ∀ s, MemLp (Z s) 2 P := fun s => (hi s).memLp_iff.2 h0
  set X : Ω → ℝ := ∑ s ∈ Finset.Ioc (t - W) t, Z s with hX
  have hXL : MemLp X 2 P := memLp_finsetSum' _ fun s _ => hL s
  have hXE : ∫ ω, X ω ∂P = W * expectedGram P (R 0) S mu k l := by
    rw [hX]
    simp only [Finset.sum_apply]
    rw [integral_finsetSum _ fun s _ => (hL s).integrable (by norm_num)]
    rw [Finset.sum_congr rfl fun s _ => (hi s).integral_eq, Finset.sum_const, Nat.card_Ioc, show t - (t - W) = W by omega, nsmul_eq_mul]
    rfl
  have hXV : ProbabilityTheory.variance X P = W * gramVar P (R 0) S mu k l := by
    rw [hX, IndepFun.variance_sum (fun s _ => hL s) fun s _ u _ hsu => (hR.indep s u hsu).comp hm hm]
    rw [Finset.sum_congr rfl fun s _ => (hi s).variance_eq, Finset.sum_const, Nat.card_Ioc, show t - (t - W) = W by omega, nsmul_eq_mul]
    rfl
  have hch := meas_ge_le_variance_div_sq hXL (c := W * η) (by positivity)
  rw [hXV, hXE] at hch
  have e1 : (W : ℝ) * gramVar P (R 0) S mu k l / (W * η) ^ 2 = gramVar P (R 0) S mu k l / (W * η ^ 2) := by field_simp
  rw [e1] at hch
  refine le_trans (measure_mono fun ω hω => ?_) hch
  have e2 : ((W : ℝ)⁻¹ • (fixedExperts time S mu (fun s => R s ω) N).gram W t) k l = (W : ℝ)⁻¹ * X ω := by
    rw [Matrix.smul_apply, smul_eq_mul, hX]
    unfold Panel.gram
    rw [Matrix.sum_apply, Finset.sum_apply]
    rfl
  show (W : ℝ) * η ≤ |X ω - W * expectedGram P (R 0) S mu k l|
  have hω' : η ≤ |((W : ℝ)⁻¹ • (fixedExperts time S mu (fun s => R s ω) N).gram W t) k l - expectedGram P (R 0) S mu k l| := hω
  rw [e2] at hω'
  have e3 : X ω - W * expectedGram P (R 0) S mu k l = W * ((W : ℝ)⁻¹ * X ω - expectedGram P (R 0) S mu k l) := by field_simp
  rw [e3, abs_mul, abs_of_pos hW']
  exact mul_le_mul_of_nonneg_left hω' hW'.le

/-- some entry is far off with small probability only -/
theorem gram_union {R : ℕ → Ω → Vec n} (hR : IID P R) (h4 : ∀ i, MemLp (fun ω => R 0 ω i) 4 P) (time : ℕ → τ) (S : Fin K → Mat n)
    (mu : Fin K → Vec n) {N W t : ℕ} (hW : 0 < W) (hWt : W ≤ t) {η : ℝ} (hη : 0 < η) :
    P {ω | ∃ k l, η ≤ |((W : ℝ)⁻¹ • (fixedExperts time S mu (fun s => R s ω) N).gram W t) k l - expectedGram P (R 0) S mu k l|}
      ≤ ENNReal.ofReal ((∑ k, ∑ l, gramVar P (R 0) S mu k l) / (W * η ^ 2)) := by
  have hnn : ∀ k l, 0 ≤ gramVar P (R 0) S mu k l / (W * η ^ 2) := fun k l => div_nonneg (ProbabilityTheory.variance_nonneg _ _) (by positivity)
  have e : {ω | ∃ k l, η ≤ |((W : ℝ)⁻¹ • (fixedExperts time S mu (fun s => R s ω) N).gram W t) k l - expectedGram P (R 0) S mu k l|}
      = ⋃ k, ⋃ l, {ω | η ≤ |((W : ℝ)⁻¹ • (fixedExperts time S mu (fun s => R s ω) N).gram W t) k l - expectedGram P (R 0) S mu k l|} := by
    ext ω
    simp
  rw [e, Finset.sum_div, ENNReal.ofReal_sum_of_nonneg fun k _ => by rw [Finset.sum_div]; exact Finset.sum_nonneg fun l _ => hnn k l]
  refine (measure_iUnion_fintype_le _ _).trans (Finset.sum_le_sum fun k _ => ?_)
  rw [Finset.sum_div, ENNReal.ofReal_sum_of_nonneg fun l _ => hnn k l]
  refine (measure_iUnion_fintype_le _ _).trans (Finset.sum_le_sum fun l _ => ?_)
  exact gram_chebyshev hR h4 time S mu hW hWt hη k l

/-- **C199.** The rate. Experts and returns as in C196, fourth moments finite. There is a constant `C` (that depends on the experts and the distribution of
the returns only) such that, whatever the window length `W`, the number of returns `N` and the time `t`: the probability that `solve(window=W)` with an
exact solver yields a result for time `t` whose weights are `e` or more (in total) away from the best ones is at most `C / (W e²)`. -/
theorem C199_rate (hK : 0 < K) {time : ℕ → τ} (ht : StrictMono time) {S : Fin K → Mat n} (hS : ∀ k, (S k).PosDef) (mu : Fin K → Vec n)
    {R : ℕ → Ω → Vec n} (hR : IID P R) (h4 : ∀ i, MemLp (fun ω => R 0 ω i) 4 P) (hd : Distinguishable P (R 0) S mu) :
    ∃ w, BestInExpectation P (R 0) S mu w ∧ ∃ C : ℝ, 0 ≤ C ∧ ∀ W N t : ℕ, 0 < W → W ≤ N → t ≤ N → ∀ e : ℝ, 0 < e →
      P {ω | ∃ (returns : Dict τ (Vec n)) (c : Comb τ n K) (solver : Solver n K) (times : Option (List τ)) (a b : ℕ) (r : Result τ n K),
        (fixedExperts time S mu (fun s => R s ω) N).Gives returns c ∧ solver.Exact ∧
        (fixedExperts time S mu (fun s => R s ω) N).Request W times a b ∧ some r ∈ (c.solve solver (some W) times).items ∧ r.time = time t ∧
        e ≤ ∑ k, |r.weights k - w k|} ≤ ENNReal.ofReal (C / (W * e ^ 2)) := by
  have hG := expectedGram_posDef hR.square hd
  obtain ⟨w, hw⟩ := gramBest_exists hS hG hK
  refine ⟨w, (best_iff hR.square hS mu w).2 hw, ?_⟩
  set B := (∑ k, Real.sqrt ((expectedGram P (R 0) S mu)⁻¹ k k)) ^ 2 with hB
  have hB0 : 0 ≤ B := sq_nonneg _
  set V := ∑ k, ∑ l, gramVar P (R 0) S mu k l with hV
  have hV0 : 0 ≤ V := Finset.sum_nonneg fun k _ => Finset.sum_nonneg fun l _ => ProbabilityTheory.variance_nonneg _ _
  refine ⟨V * (4 * (B + 1)) ^ 2, by positivity, fun W N t hW hWN htN e he => ?_⟩
  by_cases hWt : W ≤ t
  swap
  · -- no result that early
    refine le_trans (measure_mono (t := ∅) ?_) (by rw [measure_empty]; exact bot_le)
    rintro ω ⟨returns, c, solver, times, a, b, r, hc, hs, hreq, hr, hrt, _⟩
    have hlen : 2 ≤ (fixedExperts time S mu (fun s => R s ω) N).len := by show 2 ≤ N + 1; omega
    have hwin : effWindow (some W) ((fixedExperts time S mu (fun s => R s ω) N).len - 1) = W := by
      show (if W = 0 then N else min W N) = W
      rw [if_neg hW.ne', min_eq_left hWN]
    obtain ⟨t', h1, h2, h3, h5, hg, hopt, hrr⟩ := exact_result hc hlen hs (some W) (by rw [hwin]; exact hreq) hr
    have : t' = t := ht.injective (by rw [← hrt, hrr]; rfl)
    rw [hwin] at h5
    exact absurd h5 (by omega)
  have hη : 0 < e / (4 * (B + 1)) := by positivity
  have hu := gram_union hR h4 time S mu hW hWt (N := N) hη
  have e1 : V / (W * (e / (4 * (B + 1))) ^ 2) = V * (4 * (B + 1)) ^ 2 / (W * e ^ 2) := by
    have : (W : ℝ) ≠ 0 := by exact_mod_cast hW.ne'
    field_simp
  rw [e1] at hu
  refine le_trans (measure_mono ?_) hu
  rintro ω ⟨returns, c, solver, times, a, b, r, hc, hs, hreq, hr, hrt, hfar⟩
  have hlen : 2 ≤ (fixedExperts time S mu (fun s => R s ω) N).len := by show 2 ≤ N + 1; omega
  have hwin : effWindow (some W) ((fixedExperts time S mu (fun s => R s ω) N).len - 1) = W := by
    show (if W = 0 then N else min W N) = W
    rw [if_neg hW.ne', min_eq_left hWN]
  obtain ⟨t', h1, h2, h3, h5, hg, hopt, hrr⟩ := exact_result hc hlen hs (some W) (by rw [hwin]; exact hreq) hr
  have e2 : t' = t := ht.injective (by rw [← hrt, hrr]; rfl)
  rw [hwin, e2] at hopt
  have hb := fixed_optimal_window hS mu (fun s => R s ω) hW hWt hopt
  by_contra hno
  simp only [Set.mem_ofPred_eq, not_exists, not_le] at hno
  have hmv := gramBest_moves hS hG hw hb hη.le fun k l => (hno k l).le
  have : 4 * (e / (4 * (B + 1))) * B < e := by
    have : 4 * (e / (4 * (B + 1))) * B = e * B / (B + 1) := by field_simp
    rw [this, div_lt_iff₀ (by linarith)]
    nlinarith
  linarith

/-- **C199.** With high probability there is a result and it is good: for every `e > 0` there is a constant `C` such that, whatever `W ≤ t ≤ N`, the
probability that `solve(window=W, times=[t])` with an exact and complete solver does not yield exactly one result with weights, covariance and mean
within `e` of those of the best blend is at most `C / W`. -/
theorem C199_request (hK : 0 < K) {time : ℕ → τ} (ht : StrictMono time) {S : Fin K → Mat n} (hS : ∀ k, (S k).PosDef) (mu : Fin K → Vec n)
    {R : ℕ → Ω → Vec n} (hR : IID P R) (h4 : ∀ i, MemLp (fun ω => R 0 ω i) 4 P) (hd : Distinguishable P (R 0) S mu) :
    ∃ w, BestInExpectation P (R 0) S mu w ∧ ∀ e : ℝ, 0 < e → ∃ C : ℝ, 0 ≤ C ∧ ∀ W N t : ℕ, 0 < W → W ≤ t → t ≤ N →
      P {ω | ¬ ∀ (returns : Dict τ (Vec n)) (c : Comb τ n K) (solver : Solver n K), (fixedExperts time S mu (fun s => R s ω) N).Gives returns c →
        solver.Exact → solver.Complete → ∃ r, c.solve solver (some W) (some [time t]) = ⟨[some r], none⟩ ∧ r.time = time t ∧
          (∀ k, |r.weights k - w k| < e) ∧ (∀ i j, |r.covariance i j - blendCov S w i j| < e) ∧ ∀ i, |r.mean i - blendMean S mu w i| < e}
        ≤ ENNReal.ofReal (C / W) := by
  have hG := expectedGram_posDef hR.square hd
  obtain ⟨w, hw⟩ := gramBest_exists hS hG hK
  refine ⟨w, (best_iff hR.square hS mu w).2 hw, fun e he => ?_⟩
  obtain ⟨ρ, hρ, hclose⟩ := blend_close hS mu hw.1 he
  set V := ∑ k, ∑ l, gramVar P (R 0) S mu k l with hV
  have hV0 : 0 ≤ V := Finset.sum_nonneg fun k _ => Finset.sum_nonneg fun l _ => ProbabilityTheory.variance_nonneg _ _
  set B := ∑ k, (expectedGram P (R 0) S mu)⁻¹ k k with hB
  have hBk : ∀ k, 0 < (expectedGram P (R 0) S mu)⁻¹ k k := fun k => hG.inv.diag_pos
  have hB0 : 0 ≤ B := Finset.sum_nonneg fun k _ => (hBk k).le
  set η := min (ρ / (4 * (B + 1))) (1 / (2 * (K * (1 + B)))) with hηd
  have hK' : (0 : ℝ) < K := by exact_mod_cast hK
  have hη : 0 < η := lt_min (by positivity) (by positivity)
  refine ⟨V / η ^ 2, by positivity, fun W N t hW hWt htN => ?_⟩
  have hW' : (0 : ℝ) < W := by exact_mod_cast hW
  have hu := gram_union hR h4 time S mu hW hWt (N := N) hη
  have e1 : V / (W * η ^ 2) = V / η ^ 2 / W := by field_simp
  rw [e1] at hu
  refine le_trans (measure_mono fun ω hbad => ?_) hu
  by_contra hno
  simp only [Set.mem_ofPred_eq, not_exists, not_le] at hno
  refine hbad fun returns c solver hc hs hsc => ?_
  set Q := fixedExperts time S mu (fun s => R s ω) N with hQ
  have hok : Q.Ok := hc.ok
  have hlen : 2 ≤ Q.len := by show 2 ≤ N + 1; omega
  have hwin : effWindow (some W) (Q.len - 1) = W := by
    show (if W = 0 then N else min W N) = W
    rw [if_neg hW.ne', min_eq_left (hWt.trans htN)]
  have hsymm : ((W : ℝ)⁻¹ • Q.gram W t)ᵀ = (W : ℝ)⁻¹ • Q.gram W t := by
    rw [Matrix.transpose_smul]
    congr 1
    unfold Panel.gram
    rw [Matrix.transpose_sum]
    exact Finset.sum_congr rfl fun s _ => by rw [Matrix.transpose_mul, Matrix.transpose_transpose]
  have hpd : ((W : ℝ)⁻¹ • Q.gram W t).PosDef := by
    refine posDef_of_close hG hsymm (d := η) ?_ hη.le fun k l => (hno k l).le
    have h1 : η ≤ 1 / (2 * (K * (1 + B))) := min_le_right _ _
    rw [le_div_iff₀ (by positivity)] at h1
    have : η * K * (1 + B) ≤ 1 / 2 := by linarith
    linarith
  have hgram : (Q.gram W t).PosDef := by
    have h3 := Matrix.PosDef.smul hpd hW'
    rwa [smul_smul, mul_inv_cancel₀ hW'.ne', one_smul] at h3
  have hrun := solve_run_some hc hs.feasible (some W) t 1 (by omega) one_pos (by show t + 1 ≤ N + 1; omega)
  rw [hwin] at hrun
  have hfr : firstResult W t = t := by unfold firstResult; rw [if_pos hWt]
  rw [hfr] at hrun
  have hres := run_complete hok hK hs hsc hWt (by show t + 1 ≤ N + 1; omega) hrun fun s h1 h2 => by
    have : s = t := by omega
    rw [this]; exact hgram
  rw [show t + 1 - t = 1 by omega] at hres
  have hbest := fixed_optimal_window hS mu (fun s => R s ω) hW hWt (best_optimal hok hK hWt (by show t < N + 1; omega) hgram)
  have hfin := hclose (Q.best W t) fun k => by
    refine (gramBest_near hS hG hw hbest.1 (δ := 0) (fun v hv => by rw [add_zero]; exact hbest.2 v hv) (fun k l => (hno k l).le) k).trans ?_
    have h6 : (expectedGram P (R 0) S mu)⁻¹ k k ≤ B :=
      Finset.single_le_sum (f := fun k => (expectedGram P (R 0) S mu)⁻¹ k k) (fun k _ => (hBk k).le) (Finset.mem_univ k)
    have h7 : η ≤ ρ / (4 * (B + 1)) := min_le_left _ _
    rw [le_div_iff₀ (by positivity)] at h7
    have h8 : (expectedGram P (R 0) S mu)⁻¹ k k * (4 * 0 + 4 * η) ≤ B * (4 * η) := by
      rw [mul_zero, zero_add]
      exact mul_le_mul_of_nonneg_right h6 (by positivity)
    nlinarith
  refine ⟨Q.predict t (Q.best W t), ?_, rfl, hfin.1, hfin.2.1, hfin.2.2⟩
  exact hres

namespace FiniteSampleEx
open ConsistencyEx ToleranceEx

/-- The hypotheses are met by the returns 1 or -1 of `ConsistencyEx`; the combination can be built from them (`ToleranceEx.gives`), so the events of
`C199_request` are about actual runs. -/
example : ∃ (Ω : Type) (_ : MeasurableSpace Ω) (P : Measure Ω) (_ : IsProbabilityMeasure P) (R : ℕ → Ω → Vec 1),
    IID P R ∧ (∀ i, MemLp (fun ω => R 0 ω i) 4 P) ∧ Distinguishable P (R 0) S mu ∧
    ∀ ω N, (fixedExperts id S mu (fun s => R s ω) N).Gives (returns (fun s => R s ω) N)
      ((fixedExperts id S mu (fun s => R s ω) N).comb (returns (fun s => R s ω) N)) := by
  obtain ⟨Ω, mΩ, P, hP, R, h1, h2, h3, _⟩ := setting
  exact ⟨Ω, mΩ, P, hP, R, h1, h2, h3, fun ω N => gives _ N⟩

end FiniteSampleEx

end CovPred
