import Verif.Lemmas.Consistency
import Verif.Props.RandomScores
import Verif.Props.CombEquiv
import Mathlib.Probability.HasLawExists

/-
Property C196: the combination learns the best blend (combination.py:203-286).
-/
set_option linter.unusedSectionVars false
namespace CovPred
open Matrix MeasureTheory ProbabilityTheory Filter

variable {τ : Type} [LinearOrder τ] {n K : ℕ} {Ω : Type} [MeasurableSpace Ω] {P : Measure Ω} [IsProbabilityMeasure P]

/-- With probability one, `solve()` on the first `N` returns (all of them in the window) yields, for all large `N`, exactly one result, made at the
last time; its weights, covariance and mean are within any `e > 0` of `w` and of the blend with the weights `w`. -/
def LearnsWeights (P : Measure Ω) (time : ℕ → τ) (S : Fin K → Mat n) (mu : Fin K → Vec n) (R : ℕ → Ω → Vec n) (w : Vec K) : Prop :=
  ∀ᵐ ω ∂P, ∀ e : ℝ, 0 < e → ∃ N0, ∀ N ≥ N0, ∀ (returns : Dict τ (Vec n)) (c : Comb τ n K),
    (fixedExperts time S mu (fun s => R s ω) N).Gives returns c → ∀ solver : Solver n K, solver.Exact → solver.Complete →
    ∃ r, c.solve solver none none = ⟨[some r], none⟩ ∧ r.time = time N ∧ (∀ k, |r.weights k - w k| < e) ∧
      (∀ i j, |r.covariance i j - blendCov S w i j| < e) ∧ ∀ i, |r.mean i - blendMean S mu w i| < e

private theorem eventually_close {f : ℕ → ℝ} {a : ℝ} (h : Tendsto f atTop (nhds a)) {e : ℝ} (he : 0 < e) : ∀ᶠ N in atTop, |f N - a| < e := by
  have := Metric.tendsto_nhds.1 h e he
  simpa only [Real.dist_eq] using this

/-- **C196.** Consistency. Let the experts never change their predictions and let the returns be independent and identically distributed, with any
distribution with finite second moments that tells the experts apart. Then there is exactly one vector of weights that maximises the expected
log-likelihood, and with probability one the weights, the covariance and the mean that `solve()` computes from the first `N` returns tend to it. -/
theorem C196_limit (hK : 0 < K) {time : ℕ → τ} (ht : StrictMono time) {S : Fin K → Mat n} (hS : ∀ k, (S k).PosDef) (mu : Fin K → Vec n)
    {R : ℕ → Ω → Vec n} (hR : IID P R) (hd : Distinguishable P (R 0) S mu) :
    ∃ w, BestInExpectation P (R 0) S mu w ∧ (∀ w', BestInExpectation P (R 0) S mu w' → w' = w) ∧ LearnsWeights P time S mu R w := by
  have hG := expectedGram_posDef hR.square hd
  obtain ⟨w, hw⟩ := gramBest_exists hS hG hK
  refine ⟨w, (best_iff hR.square hS mu w).2 hw, fun w' hw' => gramBest_unique hS hG hw ((best_iff hR.square hS mu w').1 hw'), ?_⟩
  filter_upwards [average_gram_tendsto hR time S mu] with ω hω e he
  set Q := fixedExperts time S mu fun s => R s ω with hQ
  have hsymm : ∀ N : ℕ, ((N : ℝ)⁻¹ • (Q N).gram N N)ᵀ = (N : ℝ)⁻¹ • (Q N).gram N N := fun N => by
    rw [Matrix.transpose_smul]
    congr 1
    unfold Panel.gram
    rw [Matrix.transpose_sum]
    exact Finset.sum_congr rfl fun s _ => by rw [Matrix.transpose_mul, Matrix.transpose_transpose]
  have hpos := posDef_eventually hsymm hω hG
  have hgram : ∀ᶠ N : ℕ in atTop, 0 < N ∧ ((Q N).gram N N).PosDef := by
    filter_upwards [hpos, eventually_gt_atTop 0] with N h1 h2
    have hN : (0 : ℝ) < N := by exact_mod_cast h2
    have h3 := Matrix.PosDef.smul h1 hN
    rw [smul_smul, mul_inv_cancel₀ hN.ne', one_smul] at h3
    exact ⟨h2, h3⟩
  have hok : ∀ N, (Q N).Ok := fun N => fixed_ok ht hS mu _ N
  have hbest : ∀ᶠ N : ℕ in atTop, GramBest S ((N : ℝ)⁻¹ • (Q N).gram N N) ((Q N).best N N) := by
    filter_upwards [hgram] with N h
    exact fixed_optimal hS mu _ h.1 (best_optimal (hok N) hK le_rfl (Nat.lt_succ_self N) h.2)
  -- the weights
  have hwk : Tendsto (fun N => (Q N).best N N) atTop (nhds w) := by
    rw [tendsto_pi_nhds]
    intro k
    have hη : Tendsto (fun N : ℕ => 4 * (∑ k, ∑ l, |((N : ℝ)⁻¹ • (Q N).gram N N) k l - expectedGram P (R 0) S mu k l|)
        * (∑ k, Real.sqrt ((expectedGram P (R 0) S mu)⁻¹ k k)) ^ 2) atTop (nhds 0) := by
      have h1 : Tendsto (fun N : ℕ => ∑ k, ∑ l, |((N : ℝ)⁻¹ • (Q N).gram N N) k l - expectedGram P (R 0) S mu k l|) atTop (nhds 0) := by
        have : Tendsto (fun N : ℕ => ∑ k, ∑ l, |((N : ℝ)⁻¹ • (Q N).gram N N) k l - expectedGram P (R 0) S mu k l|) atTop
            (nhds (∑ k : Fin K, ∑ l : Fin K, 0)) := by
          refine tendsto_finsetSum _ fun k _ => tendsto_finsetSum _ fun l _ => ?_
          have h := ((tendsto_matrix_iff.1 hω) k l).sub_const (expectedGram P (R 0) S mu k l)
          rw [sub_self] at h
          simpa using h.abs
        simpa using this
      simpa using (h1.const_mul 4).mul_const ((∑ k, Real.sqrt ((expectedGram P (R 0) S mu)⁻¹ k k)) ^ 2)
    rw [tendsto_iff_norm_sub_tendsto_zero]
    refine squeeze_zero' (Eventually.of_forall fun _ => norm_nonneg _) ?_ hη
    filter_upwards [hbest] with N h
    rw [Real.norm_eq_abs]
    refine le_trans ?_ (gramBest_moves hS hG hw h (η := ∑ k, ∑ l, |((N : ℝ)⁻¹ • (Q N).gram N N) k l - expectedGram P (R 0) S mu k l|)
      (Finset.sum_nonneg fun _ _ => Finset.sum_nonneg fun _ _ => abs_nonneg _) fun k l => ?_)
    · exact Finset.single_le_sum (f := fun k => |(Q N).best N N k - w k|) (fun _ _ => abs_nonneg _) (Finset.mem_univ k)
    · refine le_trans ?_ (Finset.single_le_sum (f := fun k => ∑ l, |((N : ℝ)⁻¹ • (Q N).gram N N) k l - expectedGram P (R 0) S mu k l|)
        (fun _ _ => Finset.sum_nonneg fun _ _ => abs_nonneg _) (Finset.mem_univ k))
      exact Finset.single_le_sum (f := fun l => |((N : ℝ)⁻¹ • (Q N).gram N N) k l - expectedGram P (R 0) S mu k l|)
        (fun _ _ => abs_nonneg _) (Finset.mem_univ l)
  have hcov : Tendsto (fun N => blendCov S ((Q N).best N N)) atTop (nhds (blendCov S w)) :=
    blendCov_tendsto (S := fun _ => S) (fun _ => hS) hS (fun _ => tendsto_const_nhds) hwk hw.1
  have hmean : Tendsto (fun N => blendMean S mu ((Q N).best N N)) atTop (nhds (blendMean S mu w)) :=
    blendMean_tendsto (S := fun _ => S) (mu := fun _ => mu) (fun _ => hS) hS (fun _ => tendsto_const_nhds) (fun _ => tendsto_const_nhds) hwk hw.1
  have c1 : ∀ᶠ N in atTop, ∀ k, |(Q N).best N N k - w k| < e :=
    eventually_all.2 fun k => eventually_close (tendsto_pi_nhds.1 hwk k) he
  have c2 : ∀ᶠ N in atTop, ∀ i j, |blendCov S ((Q N).best N N) i j - blendCov S w i j| < e :=
    eventually_all.2 fun i => eventually_all.2 fun j => eventually_close ((tendsto_matrix_iff.1 hcov) i j) he
  have c3 : ∀ᶠ N in atTop, ∀ i, |blendMean S mu ((Q N).best N N) i - blendMean S mu w i| < e :=
    eventually_all.2 fun i => eventually_close (tendsto_pi_nhds.1 hmean i) he
  obtain ⟨N0, hN0⟩ := eventually_atTop.1 (hgram.and (c1.and (c2.and c3)))
  refine ⟨N0, fun N hN returns c hc solver hs hsc => ?_⟩
  obtain ⟨⟨hpos, hg⟩, h1, h2, h3⟩ := hN0 N hN
  refine ⟨(Q N).predict N ((Q N).best N N), ?_, rfl, h1, h2, h3⟩
  have hrun := solve_run_none hc (by show 2 ≤ N + 1; omega) hs.feasible none
  have hwin : effWindow none ((fixedExperts time S mu (fun s => R s ω) N).len - 1) = N := rfl
  rw [hwin] at hrun
  rw [run_complete (hok N) hK hs hsc le_rfl le_rfl hrun fun t h1 h2 => by
    have h2' : t < N + 1 := h2
    have : t = N := by omega
    rw [this]; exact hg]
  have : (fixedExperts time S mu (fun s => R s ω) N).len - N = 1 := by show N + 1 - N = 1; omega
  rw [this]
  rfl

/-- the value of `log_likelihood` for one return, as needed to apply C176 -/
private theorem one_return {S : Mat n} (hS : S.PosDef) (m : Vec n) (R : Ω → Vec n) (ω : Ω) :
    logLikelihood [(R ω, S)] (some [m]) 1 = .ok [gaussLogDensity m S (R ω)] := by
  have := C73_log_likelihood 1 (fun _ => R ω) (fun _ => m) (fun _ => S) (fun _ _ => hS) one_pos
  simpa using this

/-- **C196.** The truth is found if it can be expressed: if the blend of the experts with weights `w` has the true mean and the true covariance of
the returns, then with probability one `solve()` tends to those weights (and to the true mean and covariance). In particular, if one expert is
right, its weight tends to one (`C196_right_expert`). The returns need not be normally distributed. -/
theorem C196_truth (hK : 0 < K) {time : ℕ → τ} (ht : StrictMono time) {S : Fin K → Mat n} (hS : ∀ k, (S k).PosDef) (mu : Fin K → Vec n)
    {R : ℕ → Ω → Vec n} (hR : IID P R) (hd : Distinguishable P (R 0) S mu) (w : Vec K) (hw : Simplex w)
    (hmean : blendMean S mu w = expectedReturn P (R 0)) (hcov : blendCov S w = momentsAbout P (R 0) (expectedReturn P (R 0))) :
    LearnsWeights P time S mu R w := by
  obtain ⟨v, _, hv2, hv3⟩ := C196_limit hK ht hS mu hR hd
  have hb : BestInExpectation P (R 0) S mu w := by
    refine ⟨hw, fun w' hw' => ?_⟩
    unfold expectedLogLik
    rw [hmean, hcov]
    have hM : (momentsAbout P (R 0) (expectedReturn P (R 0))).PosDef := by rw [← hcov]; exact blendCov_posDef hS hw
    exact (C176_mean_covariance hR.square hM (blendCov_posDef hS hw') one_pos (one_return (blendCov_posDef hS hw') _ _)
      (one_return hM _ _)).1
  rw [hv2 w hb]
  exact hv3

private theorem blendMean_same {S : Fin K → Mat n} (hS : ∀ k, (S k).PosDef) (m : Vec n) {w : Vec K} (hw : Simplex w) :
    blendMean S (fun _ => m) w = m := by
  unfold blendMean
  have : ∑ k, w k • ((precFactor (S k))ᵀ *ᵥ m) = (blendFactor S w)ᵀ *ᵥ m := by
    unfold blendFactor
    rw [Matrix.transpose_sum, Matrix.sum_mulVec]
    exact Finset.sum_congr rfl fun k _ => by rw [Matrix.transpose_smul, Matrix.smul_mulVec]
  rw [this, Matrix.mulVec_mulVec, Matrix.nonsing_inv_mul _ (by rw [Matrix.det_transpose]; exact isUnit_iff_ne_zero.mpr (blendFactor_det hS hw)),
    Matrix.one_mulVec]

/-- **C196.** The same for experts that share one mean `m` (without means: `m = 0`), right or wrong: if some blend is the matrix of the true second
moments about `m`, `solve()` tends to its weights. -/
theorem C196_truth_without_mean (hK : 0 < K) {time : ℕ → τ} (ht : StrictMono time) {S : Fin K → Mat n} (hS : ∀ k, (S k).PosDef) (m : Vec n)
    {R : ℕ → Ω → Vec n} (hR : IID P R) (hd : Distinguishable P (R 0) S fun _ => m) (w : Vec K) (hw : Simplex w)
    (hcov : blendCov S w = momentsAbout P (R 0) m) : LearnsWeights P time S (fun _ => m) R w := by
  obtain ⟨v, _, hv2, hv3⟩ := C196_limit hK ht hS (fun _ => m) hR hd
  have hb : BestInExpectation P (R 0) S (fun _ => m) w := by
    refine ⟨hw, fun w' hw' => ?_⟩
    unfold expectedLogLik
    rw [blendMean_same hS m hw, blendMean_same hS m hw', hcov]
    have hM : (momentsAbout P (R 0) m).PosDef := by rw [← hcov]; exact blendCov_posDef hS hw
    exact (C176_covariance hR.square hM (blendCov_posDef hS hw') one_pos (one_return (blendCov_posDef hS hw') _ _) (one_return hM _ _)).1
  rw [hv2 w hb]
  exact hv3

/-- **C196.** If one expert predicts the true mean and covariance, its weight tends to one, and all others to zero. -/
theorem C196_right_expert {time : ℕ → τ} (ht : StrictMono time) {S : Fin K → Mat n} (hS : ∀ k, (S k).PosDef) (mu : Fin K → Vec n)
    {R : ℕ → Ω → Vec n} (hR : IID P R) (hd : Distinguishable P (R 0) S mu) (k : Fin K) (hmean : mu k = expectedReturn P (R 0))
    (hcov : S k = momentsAbout P (R 0) (expectedReturn P (R 0))) : LearnsWeights P time S mu R (Pi.single k 1) :=
  C196_truth (Nat.lt_of_le_of_lt (Nat.zero_le _) k.2) ht hS mu hR hd _ (simplex_single k) ((blend_single hS mu k).2.trans hmean)
    ((blend_single hS mu k).1.trans hcov)

namespace ConsistencyEx

/-- one of two vectors of returns, with equal probabilities -/
noncomputable def toss (a b : Vec n) : Measure (Vec n) := (1 / 2 : ENNReal) • Measure.dirac a + (1 / 2 : ENNReal) • Measure.dirac b

instance (a b : Vec n) : IsProbabilityMeasure (toss a b) where
  measure_univ := by
    unfold toss
    simp only [Measure.add_apply, Measure.smul_apply, measure_univ, smul_eq_mul, mul_one]
    exact ENNReal.add_halves 1

theorem integral_toss (a b : Vec n) (g : Vec n → ℝ) : Integrable g (toss a b) ∧ ∫ x, g x ∂(toss a b) = (g a + g b) / 2 := by
  have h : ∀ a : Vec n, Integrable g ((1 / 2 : ENNReal) • Measure.dirac a) := fun a =>
    (integrable_dirac (by simp)).smul_measure (by simp)
  refine ⟨(h _).add_measure (h _), ?_⟩
  unfold toss
  rw [integral_add_measure (h _) (h _), integral_smul_measure, integral_smul_measure, integral_dirac, integral_dirac]
  simp
  ring

/-- independent returns of this kind, expectations with respect to them, and what holds almost surely -/
theorem tosses (a b : Vec n) : ∃ (Ω : Type) (_ : MeasurableSpace Ω) (P : Measure Ω) (_ : IsProbabilityMeasure P) (R : ℕ → Ω → Vec n),
    IID P R ∧ (∀ g : Vec n → ℝ, Measurable g → ∫ ω, g (R 0 ω) ∂P = (g a + g b) / 2) ∧
      ∀ p : Vec n → Prop, MeasurableSet {x | p x} → ((∀ᵐ ω ∂P, p (R 0 ω)) ↔ p a ∧ p b) := by
  obtain ⟨Ω, mΩ, P, R, hm, hl, hi, hP⟩ := exists_iid ℕ (toss a b)
  refine ⟨Ω, mΩ, P, hP, R, ⟨fun s t hst => hi.indepFun hst, fun s => (hl s).identDistrib (hl 0), fun i => ?_⟩, fun g hg => ?_, fun p hp => ?_⟩
  · have hmi : Measurable fun x : Vec n => x i := measurable_pi_apply i
    refine (memLp_two_iff_integrable_sq (hmi.comp (hm 0)).aestronglyMeasurable).2 ?_
    have := (integral_toss a b (fun x => x i ^ 2)).1
    rw [← (hl 0).map_eq, integrable_map_measure (hmi.pow_const 2).aestronglyMeasurable (hm 0).aemeasurable] at this
    exact this
  · rw [← (integral_toss a b g).2, ← (hl 0).map_eq, integral_map (hm 0).aemeasurable hg.aestronglyMeasurable]
  · have h1 : (∀ᵐ ω ∂P, p (R 0 ω)) ↔ ∀ᵐ x ∂(toss a b), p x := by
      rw [← (hl 0).map_eq, ae_map_iff (hm 0).aemeasurable hp]
    rw [h1]
    unfold toss
    rw [ae_add_measure_iff, Measure.ae_ennreal_smul_measure_iff (by simp), ae_dirac_iff hp, Measure.ae_ennreal_smul_measure_iff (by simp),
      ae_dirac_iff hp]

theorem measurable_experts (S : Fin K → Mat n) (mu : Fin K → Vec n) (v : Vec K) :
    MeasurableSet {x : Vec n | ∑ k, v k • ((precFactor (S k))ᵀ *ᵥ (x - mu k)) = 0} := by
  refine measurableSet_eq_fun ?_ measurable_const
  refine measurable_pi_lambda _ fun i => ?_
  simp only [Finset.sum_apply, Pi.smul_apply, Matrix.mulVec, dotProduct, Pi.sub_apply]
  fun_prop

/-- the first expert is right; the second predicts the mean 1 and the variance 4 -/
noncomputable def S : Fin 2 → Mat 1 := ![1, (4 : ℝ) • 1]

/-- the predicted means -/
noncomputable def mu : Fin 2 → Vec 1 := ![0, fun _ => 1]

theorem S_posDef (k : Fin 2) : (S k).PosDef := by
  fin_cases k
  · exact Matrix.PosDef.one
  · exact Matrix.PosDef.smul Matrix.PosDef.one (by norm_num)

theorem factor_0 : precFactor (S 0) = 1 := by
  apply precFactor_eq
  show IsChol 1 (1 : Mat 1)⁻¹
  rw [inv_one]; exact Demo.isChol_one

theorem factor_1 : precFactor (S 1) = (1 / 2 : ℝ) • 1 := by
  apply precFactor_eq
  have : (S 1)⁻¹ = (1 / 4 : ℝ) • (1 : Mat 1) := by
    apply Matrix.inv_eq_right_inv
    show ((4 : ℝ) • (1 : Mat 1)) * ((1 / 4 : ℝ) • 1) = 1
    rw [Matrix.smul_mul, Matrix.mul_smul, smul_smul, one_mul]
    norm_num
  rw [this]
  refine ⟨fun i j hij => ?_, fun i => ?_, ?_⟩
  · fin_cases i; fin_cases j; simp at hij
  · fin_cases i; simp
  · rw [Matrix.transpose_smul, Matrix.transpose_one, Matrix.smul_mul, Matrix.mul_smul, smul_smul, one_mul]
    norm_num

/-- The hypotheses are met by independent returns 1 or -1: the first expert is right, and its weight tends to one. -/
theorem setting : ∃ (Ω : Type) (_ : MeasurableSpace Ω) (P : Measure Ω) (_ : IsProbabilityMeasure P) (R : ℕ → Ω → Vec 1),
    IID P R ∧ (∀ i, MemLp (fun ω => R 0 ω i) 4 P) ∧ Distinguishable P (R 0) S mu ∧ LearnsWeights P (id : ℕ → ℕ) S mu R (Pi.single 0 1) := by
  obtain ⟨Ω, mΩ, P, hP, R, hiid, hint, hae⟩ := tosses (n := 1) (fun _ => 1) (fun _ => -1)
  have hdist : Distinguishable P (R 0) S mu := by
    intro v hv
    obtain ⟨h1, h2⟩ := (hae _ (measurable_experts S mu v)).1 hv
    have e1 := congrFun h1 0
    have e2 := congrFun h2 0
    simp only [Fin.sum_univ_two, factor_0, factor_1] at e1 e2
    simp [mu, Matrix.smul_mulVec] at e1 e2
    funext k
    fin_cases k
    · exact e1
    · show v 1 = 0
      rw [e1] at e2
      linarith
  have hbd : ∀ i, MemLp (fun ω => R 0 ω i) 4 P := fun i => by
    refine MemLp.of_bound (hiid.square i).1 1 ((hae (fun x => ‖x i‖ ≤ 1) ?_).2 ⟨by simp, by simp⟩)
    exact measurableSet_le (measurable_pi_apply i).norm measurable_const
  refine ⟨Ω, mΩ, P, hP, R, hiid, hbd, hdist, ?_⟩
  have hmu : expectedReturn P (R 0) = 0 := by
    funext i
    show ∫ ω, R 0 ω i ∂P = 0
    rw [hint (fun x => x i) (measurable_pi_apply i)]
    norm_num
  refine C196_right_expert strictMono_id S_posDef mu hiid hdist 0 (by rw [hmu]; rfl) ?_
  rw [hmu]
  ext i j
  show (1 : Mat 1) i j = ∫ ω, (R 0 ω i - 0) * (R 0 ω j - 0) ∂P
  rw [hint (fun x => (x i - 0) * (x j - 0)) (by fun_prop)]
  fin_cases i; fin_cases j
  norm_num

/-- two experts for two assets, both wrong about the second: variances 1 and 4 -/
noncomputable def S2 : Fin 2 → Mat 2 := ![1, Matrix.diagonal ![1, 4]]

theorem factor2_0 : precFactor (S2 0) = 1 := by
  apply precFactor_eq
  show IsChol 1 (1 : Mat 2)⁻¹
  rw [inv_one]; exact Demo.isChol_one

theorem S2_posDef (k : Fin 2) : (S2 k).PosDef := by
  fin_cases k
  · exact Matrix.PosDef.one
  · refine Matrix.PosDef.diagonal fun i => ?_
    fin_cases i <;> simp

theorem factor2_1 : precFactor (S2 1) = Matrix.diagonal ![1, 1 / 2] := by
  apply precFactor_eq
  have : (S2 1)⁻¹ = Matrix.diagonal ![1, 1 / 4] := by
    apply Matrix.inv_eq_right_inv
    show (Matrix.diagonal ![1, 4] : Mat 2) * Matrix.diagonal ![1, 1 / 4] = 1
    rw [Matrix.diagonal_mul_diagonal, ← Matrix.diagonal_one]
    congr 1
    funext i
    fin_cases i <;> simp
  rw [this]
  refine ⟨fun i j hij => Matrix.diagonal_apply_ne _ hij.ne, fun i => ?_, ?_⟩
  · rw [Matrix.diagonal_apply_eq]
    fin_cases i <;> simp
  · rw [Matrix.diagonal_transpose, Matrix.diagonal_mul_diagonal]
    congr 1
    funext i
    fin_cases i <;> norm_num

/-- The hypotheses of `C196_truth_without_mean` are met although the mean is wrong: returns (1, 4/3) or (1, -4/3), mean 0 assumed. The two experts are
both wrong, the blend with weights 1/2 is right, and it is found. -/
example : ∃ (Ω : Type) (_ : MeasurableSpace Ω) (P : Measure Ω) (_ : IsProbabilityMeasure P) (R : ℕ → Ω → Vec 2),
    IID P R ∧ Distinguishable P (R 0) S2 (fun _ => 0) ∧ expectedReturn P (R 0) ≠ 0 ∧
      LearnsWeights P (id : ℕ → ℕ) S2 (fun _ => 0) R (fun _ => 1 / 2) := by
  obtain ⟨Ω, mΩ, P, hP, R, hiid, hint, hae⟩ := tosses (n := 2) ![1, 4 / 3] ![1, -(4 / 3)]
  have hdist : Distinguishable P (R 0) S2 fun _ => 0 := by
    intro v hv
    obtain ⟨h1, _⟩ := (hae _ (measurable_experts S2 (fun _ => 0) v)).1 hv
    have e1 := congrFun h1 0
    have e2 := congrFun h1 1
    simp only [Fin.sum_univ_two, factor2_0, factor2_1] at e1 e2
    simp [Matrix.mulVec_diagonal] at e1 e2
    funext k
    fin_cases k
    · show v 0 = 0
      linarith
    · show v 1 = 0
      linarith
  refine ⟨Ω, mΩ, P, hP, R, hiid, hdist, fun h => ?_, ?_⟩
  · have h0 : ∫ ω, R 0 ω 0 ∂P = 0 := congrFun h 0
    rw [hint (fun x => x 0) (measurable_pi_apply 0)] at h0
    norm_num at h0
  · refine C196_truth_without_mean (by norm_num) strictMono_id S2_posDef 0 hiid hdist _
      ⟨fun _ => by norm_num, by rw [Fin.sum_univ_two]; norm_num⟩ ?_
    have hM : momentsAbout P (R 0) 0 = Matrix.diagonal ![1, 16 / 9] := by
      ext i j
      show ∫ ω, (R 0 ω i - 0) * (R 0 ω j - 0) ∂P = _
      rw [hint (fun x => (x i - 0) * (x j - 0)) (by fun_prop)]
      fin_cases i <;> fin_cases j <;> norm_num [Matrix.diagonal]
    have hB : blendFactor S2 (fun _ => 1 / 2) = Matrix.diagonal ![1, 3 / 4] := by
      unfold blendFactor
      rw [Fin.sum_univ_two, factor2_0, factor2_1]
      ext i j
      fin_cases i <;> fin_cases j <;> norm_num [Matrix.diagonal]
    rw [hM]
    unfold blendCov
    rw [hB, Matrix.diagonal_transpose, Matrix.diagonal_mul_diagonal]
    apply Matrix.inv_eq_right_inv
    rw [Matrix.diagonal_mul_diagonal, ← Matrix.diagonal_one]
    congr 1
    funext i
    fin_cases i <;> norm_num

end ConsistencyEx

end CovPred
