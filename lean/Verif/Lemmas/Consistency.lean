import Verif.Spec.Consistency
import Verif.Props.Influence
import Verif.Props.Continuity
import Mathlib.Probability.StrongLaw

/-
The combination of fixed experts: the window problem depends on the returns through the average Gram matrix only, and its optimum moves by at
most a multiple of the change of that matrix; the strong law of large numbers does the rest.
-/
set_option linter.unusedSectionVars false
namespace CovPred
open Matrix MeasureTheory ProbabilityTheory Filter

variable {τ : Type} [LinearOrder τ] {n K : ℕ}

/-- the log-likelihood per observation, up to a constant, as a function of the average Gram matrix -/
noncomputable def gramScore (S : Fin K → Mat n) (G : Mat K) (w : Vec K) : ℝ :=
  ∑ i, Real.log (blendFactor S w i i) - 1 / 2 * (w ⬝ᵥ (G *ᵥ w))

def GramBest (S : Fin K → Mat n) (G : Mat K) (w : Vec K) : Prop := Simplex w ∧ ∀ w', Simplex w' → gramScore S G w' ≤ gramScore S G w

private theorem quad_sum' (A : Mat K) (x y : Vec K) : x ⬝ᵥ (A *ᵥ y) = ∑ i, ∑ j, A i j * (x i * y j) := by
  simp only [dotProduct, Matrix.mulVec, Finset.mul_sum]
  refine Finset.sum_congr rfl fun i _ => Finset.sum_congr rfl fun j _ => by ring

private theorem simplex_mid {w u : Vec K} (hw : Simplex w) (hu : Simplex u) : Simplex ((1 / 2 : ℝ) • (w + u)) where
  nonneg k := by
    have h1 := hw.nonneg k
    have h2 := hu.nonneg k
    simp only [Pi.smul_apply, Pi.add_apply, smul_eq_mul]
    linarith
  sum_one := by
    simp only [Pi.smul_apply, Pi.add_apply, smul_eq_mul]
    rw [← Finset.mul_sum, Finset.sum_add_distrib, hw.sum_one, hu.sum_one]
    norm_num

theorem gramScore_mid {S : Fin K → Mat n} (hS : ∀ k, (S k).PosDef) (G : Mat K) {w u : Vec K} (hw : Simplex w) (hu : Simplex u) :
    (gramScore S G w + gramScore S G u) / 2 + 1 / 8 * ((u - w) ⬝ᵥ (G *ᵥ (u - w))) ≤ gramScore S G ((1 / 2 : ℝ) • (w + u)) := by
  unfold gramScore
  have hlog : (∑ i, Real.log (blendFactor S w i i) + ∑ i, Real.log (blendFactor S u i i)) / 2
      ≤ ∑ i, Real.log (blendFactor S ((1 / 2 : ℝ) • (w + u)) i i) := by
    rw [← Finset.sum_add_distrib, Finset.sum_div]
    refine Finset.sum_le_sum fun i _ => ?_
    have e : blendFactor S ((1 / 2 : ℝ) • (w + u)) i i = 1 / 2 * (blendFactor S w i i + blendFactor S u i i) := by
      unfold blendFactor
      simp only [Matrix.sum_apply, Matrix.smul_apply, Pi.smul_apply, Pi.add_apply, smul_eq_mul]
      rw [← Finset.sum_add_distrib, Finset.mul_sum]
      exact Finset.sum_congr rfl fun k _ => by ring
    rw [e, show 1 / 2 * (blendFactor S w i i + blendFactor S u i i) = (blendFactor S w i i + blendFactor S u i i) / 2 by ring]
    exact log_mid (blendFactor_pos hS hw i) (blendFactor_pos hS hu i)
  have hq : ((1 / 2 : ℝ) • (w + u)) ⬝ᵥ (G *ᵥ ((1 / 2 : ℝ) • (w + u)))
      = (w ⬝ᵥ (G *ᵥ w) + u ⬝ᵥ (G *ᵥ u)) / 2 - 1 / 4 * ((u - w) ⬝ᵥ (G *ᵥ (u - w))) := by
    rw [Matrix.mulVec_smul, dotProduct_smul, smul_dotProduct]
    simp only [Matrix.mulVec_add, Matrix.mulVec_sub, dotProduct_add, add_dotProduct, dotProduct_sub, sub_dotProduct, smul_eq_mul]
    ring
  rw [hq]
  linarith

/-- the optimum moves by at most a multiple of the change of the Gram matrix -/
theorem gramBest_moves {S : Fin K → Mat n} (hS : ∀ k, (S k).PosDef) {G G' : Mat K} (hG : G.PosDef) {w w' : Vec K} (hw : GramBest S G w)
    (hw' : GramBest S G' w') {η : ℝ} (hη0 : 0 ≤ η) (hη : ∀ k l, |G' k l - G k l| ≤ η) :
    ∑ k, |w' k - w k| ≤ 4 * η * (∑ k, Real.sqrt (G⁻¹ k k)) ^ 2 := by
  have h1 := gramScore_mid hS G hw.1 hw'.1
  have h2 := hw.2 _ (simplex_mid hw.1 hw'.1)
  have h3 := hw'.2 _ hw.1
  have h4 : w' ⬝ᵥ (G *ᵥ w') - w' ⬝ᵥ (G' *ᵥ w') - (w ⬝ᵥ (G *ᵥ w) - w ⬝ᵥ (G' *ᵥ w)) ≤ 2 * η * ∑ k, |w' k - w k| := by
    simp only [quad_sum']
    rw [← Finset.sum_sub_distrib, ← Finset.sum_sub_distrib, ← Finset.sum_sub_distrib]
    simp only [← Finset.sum_sub_distrib]
    calc ∑ k, ∑ l, (G k l * (w' k * w' l) - G' k l * (w' k * w' l) - (G k l * (w k * w l) - G' k l * (w k * w l)))
        ≤ ∑ k, ∑ l, (η * (|w' k - w k| * w' l) + η * (w k * |w' l - w l|)) := by
          refine Finset.sum_le_sum fun k _ => Finset.sum_le_sum fun l _ => ?_
          have e : G k l * (w' k * w' l) - G' k l * (w' k * w' l) - (G k l * (w k * w l) - G' k l * (w k * w l))
              = (G k l - G' k l) * ((w' k - w k) * w' l + w k * (w' l - w l)) := by ring
          rw [e]
          calc _ ≤ |(G k l - G' k l) * ((w' k - w k) * w' l + w k * (w' l - w l))| := le_abs_self _
            _ = |G' k l - G k l| * |(w' k - w k) * w' l + w k * (w' l - w l)| := by rw [abs_mul, abs_sub_comm]
            _ ≤ η * (|w' k - w k| * w' l + w k * |w' l - w l|) := by
                refine mul_le_mul (hη k l) ?_ (abs_nonneg _) hη0
                refine (abs_add_le _ _).trans ?_
                rw [abs_mul, abs_mul, abs_of_nonneg (hw'.1.nonneg l), abs_of_nonneg (hw.1.nonneg k)]
            _ = _ := by ring
      _ = 2 * η * ∑ k, |w' k - w k| := by
          simp only [Finset.sum_add_distrib, ← Finset.mul_sum]
          rw [hw'.1.sum_one]
          have : ∑ k, w k * ∑ l, |w' l - w l| = ∑ l, |w' l - w l| := by rw [← Finset.sum_mul, hw.1.sum_one, one_mul]
          rw [this]
          simp only [mul_one]
          ring
  refine sum_sqrt_bound (v := w' - w) (η := 4 * η) hG ?_ (by linarith)
  simp only [Pi.sub_apply]
  unfold gramScore at h1 h2 h3
  linarith

theorem gramBest_unique {S : Fin K → Mat n} (hS : ∀ k, (S k).PosDef) {G : Mat K} (hG : G.PosDef) {w w' : Vec K} (hw : GramBest S G w)
    (hw' : GramBest S G w') : w' = w := by
  have := gramBest_moves hS hG hw hw' le_rfl fun k l => by rw [sub_self, abs_zero]
  funext k
  have h2 : |w' k - w k| ≤ ∑ k, |w' k - w k| := Finset.single_le_sum (f := fun k => |w' k - w k|) (fun _ _ => abs_nonneg _) (Finset.mem_univ k)
  have h3 : |w' k - w k| ≤ 0 := by linarith
  linarith [abs_le.1 h3]

theorem gramBest_exists {S : Fin K → Mat n} (hS : ∀ k, (S k).PosDef) {G : Mat K} (hG : G.PosDef) (hK : 0 < K) : ∃ w, GramBest S G w := by
  have hC := cholFactor_isChol hG
  have hdiag : ∀ (w : Vec K) (i : Fin n), ((Matrix.of fun (i : Fin n) (k : Fin K) => precFactor (S k) i i) *ᵥ w) i = blendFactor S w i i := by
    intro w i
    unfold blendFactor
    rw [Matrix.sum_apply]
    simp only [Matrix.mulVec, dotProduct, Matrix.of_apply, Matrix.smul_apply, smul_eq_mul]
    exact Finset.sum_congr rfl fun k _ => mul_comm _ _
  let p : Params n K := { A := [Matrix.of fun i k => precFactor (S k) i i], C := cholFactor G }
  have hobj : ∀ w, objective p w = gramScore S G w := fun w => by
    unfold objective gramScore
    show _ - 1 / 2 * (((cholFactor G)ᵀ *ᵥ w) ⬝ᵥ ((cholFactor G)ᵀ *ᵥ w)) = _
    rw [quad_chol hC]
    simp only [p, List.map_cons, List.map_nil, List.sum_cons, List.sum_nil, add_zero, hdiag]
  have hf : ∀ w, Simplex w → Feasible p w := fun w hw => ⟨hw, fun M hM i => by
    have : M = Matrix.of fun i k => precFactor (S k) i i := by simpa [p] using hM
    rw [this, hdiag]
    exact blendFactor_pos hS hw i⟩
  obtain ⟨w, h1, h2⟩ := exists_isOptimal hK hf
  exact ⟨w, h1.simplex, fun w' hw' => by rw [← hobj, ← hobj]; exact h2 w' (hf w' hw')⟩

/-- column `k`: the return `x` standardised by expert `k` -/
noncomputable def standardised (S : Fin K → Mat n) (mu : Fin K → Vec n) (x : Vec n) : Matrix (Fin n) (Fin K) ℝ :=
  Matrix.of fun i k => ((precFactor (S k))ᵀ *ᵥ (x - mu k)) i

theorem fixed_scores (time : ℕ → τ) (S : Fin K → Mat n) (mu : Fin K → Vec n) (r : ℕ → Vec n) (N s : ℕ) :
    (fixedExperts time S mu r N).scores s = standardised S mu (r s) := rfl

theorem fixed_ok {time : ℕ → τ} (ht : StrictMono time) {S : Fin K → Mat n} (hS : ∀ k, (S k).PosDef) (mu : Fin K → Vec n) (r : ℕ → Vec n) (N : ℕ) :
    (fixedExperts time S mu r N).Ok where
  time_lt _ _ h _ := ht h
  posDef _ _ k := hS k

theorem density_standardised {S : Fin K → Mat n} (hS : ∀ k, (S k).PosDef) (mu : Fin K → Vec n) {w : Vec K} (hw : Simplex w) (x : Vec n) :
    gaussLogDensity (blendMean S mu w) (blendCov S w) x
      = -(n / 2 * Real.log (2 * Real.pi)) + ∑ i, Real.log (blendFactor S w i i)
        - 1 / 2 * (w ⬝ᵥ (((standardised S mu x)ᵀ * standardised S mu x) *ᵥ w)) := by
  rw [density_blend (blendFactor_lower hS w) (blendFactor_pos hS hw)]
  have hd := blendFactor_det hS hw
  have := scores_mulVec (P := fixedExperts (id : ℕ → ℕ) S mu (fun _ => x) 1) (s := 1) (w := w) hd
  rw [fixed_scores] at this
  change standardised S mu x *ᵥ w = (blendFactor S w)ᵀ *ᵥ (x - blendMean S mu w) at this
  rw [← this, ← Matrix.mulVec_mulVec, Matrix.dotProduct_mulVec w, Matrix.vecMul_transpose]

/-- the window log-likelihood of fixed experts -/
theorem fixed_logLik {time : ℕ → τ} {S : Fin K → Mat n} (hS : ∀ k, (S k).PosDef) (mu : Fin K → Vec n) (r : ℕ → Vec n) {N : ℕ} (hN : 0 < N)
    {w : Vec K} (hw : Simplex w) :
    (fixedExperts time S mu r N).logLik N N w = N * (gramScore S ((N : ℝ)⁻¹ • (fixedExperts time S mu r N).gram N N) w
      - n / 2 * Real.log (2 * Real.pi)) := by
  have hN' : (N : ℝ) ≠ 0 := by exact_mod_cast hN.ne'
  unfold Panel.logLik Panel.gram gramScore
  simp only [fixed_scores]
  change ∑ s ∈ Finset.Ioc (N - N) N, gaussLogDensity (blendMean S mu w) (blendCov S w) (r s) = _
  rw [Finset.sum_congr rfl fun s _ => density_standardised hS mu hw (r s)]
  rw [Finset.sum_sub_distrib, Finset.sum_const, Nat.card_Ioc, ← Finset.mul_sum, ← dotProduct_sum, ← Matrix.sum_mulVec, Matrix.smul_mulVec,
    dotProduct_smul, nsmul_eq_mul, smul_eq_mul, Nat.sub_self, Nat.sub_zero]
  field_simp
  ring

theorem fixed_optimal {time : ℕ → τ} {S : Fin K → Mat n} (hS : ∀ k, (S k).PosDef) (mu : Fin K → Vec n) (r : ℕ → Vec n) {N : ℕ} (hN : 0 < N)
    {w : Vec K} (h : (fixedExperts time S mu r N).Optimal N N w) :
    GramBest S ((N : ℝ)⁻¹ • (fixedExperts time S mu r N).gram N N) w := by
  refine ⟨h.1, fun w' hw' => ?_⟩
  have := h.2 w' hw'
  rw [fixed_logLik hS mu r hN hw', fixed_logLik hS mu r hN h.1] at this
  have hN' : (0 : ℝ) < N := by exact_mod_cast hN
  have := le_of_mul_le_mul_left this hN'
  linarith

variable {Ω : Type} [MeasurableSpace Ω] {P : Measure Ω} [IsProbabilityMeasure P]

/-- the expected Gram matrix of the standardised returns -/
noncomputable def expectedGram (P : Measure Ω) (R : Ω → Vec n) (S : Fin K → Mat n) (mu : Fin K → Vec n) : Mat K :=
  Matrix.of fun k l => ∫ ω, ((standardised S mu (R ω))ᵀ * standardised S mu (R ω)) k l ∂P

private theorem memLp_standardised {R : Ω → Vec n} (hR : ∀ i, MemLp (fun ω => R ω i) 2 P) (S : Fin K → Mat n) (mu : Fin K → Vec n) (i : Fin n)
    (k : Fin K) : MemLp (fun ω => standardised S mu (R ω) i k) 2 P := by
  simp only [standardised, Matrix.of_apply, Matrix.mulVec, dotProduct]
  refine memLp_finsetSum _ fun j _ => ?_
  exact ((hR j).sub (memLp_const (mu k j))).const_mul _

theorem integrable_gram {R : Ω → Vec n} (hR : ∀ i, MemLp (fun ω => R ω i) 2 P) (S : Fin K → Mat n) (mu : Fin K → Vec n) (k l : Fin K) :
    Integrable (fun ω => ((standardised S mu (R ω))ᵀ * standardised S mu (R ω)) k l) P := by
  simp only [Matrix.mul_apply, Matrix.transpose_apply]
  exact integrable_finsetSum _ fun i _ => (memLp_standardised hR S mu i k).integrable_mul (memLp_standardised hR S mu i l)

theorem integral_quad_gram {R : Ω → Vec n} (hR : ∀ i, MemLp (fun ω => R ω i) 2 P) (S : Fin K → Mat n) (mu : Fin K → Vec n) (w : Vec K) :
    Integrable (fun ω => w ⬝ᵥ (((standardised S mu (R ω))ᵀ * standardised S mu (R ω)) *ᵥ w)) P ∧
    ∫ ω, w ⬝ᵥ (((standardised S mu (R ω))ᵀ * standardised S mu (R ω)) *ᵥ w) ∂P = w ⬝ᵥ (expectedGram P R S mu *ᵥ w) := by
  simp only [quad_sum']
  have h1 : ∀ k l, Integrable (fun ω => ((standardised S mu (R ω))ᵀ * standardised S mu (R ω)) k l * (w k * w l)) P := fun k l =>
    (integrable_gram hR S mu k l).mul_const _
  refine ⟨integrable_finsetSum _ fun k _ => integrable_finsetSum _ fun l _ => h1 k l, ?_⟩
  rw [integral_finsetSum _ fun k _ => integrable_finsetSum _ fun l _ => h1 k l]
  refine Finset.sum_congr rfl fun k _ => ?_
  rw [integral_finsetSum _ fun l _ => h1 k l]
  refine Finset.sum_congr rfl fun l _ => ?_
  rw [integral_mul_const]
  rfl

theorem expectedLogLik_eq {R : Ω → Vec n} (hR : ∀ i, MemLp (fun ω => R ω i) 2 P) {S : Fin K → Mat n} (hS : ∀ k, (S k).PosDef)
    (mu : Fin K → Vec n) {w : Vec K} (hw : Simplex w) :
    expectedLogLik P R S mu w = gramScore S (expectedGram P R S mu) w - n / 2 * Real.log (2 * Real.pi) := by
  unfold expectedLogLik gramScore
  simp only [density_standardised hS mu hw]
  obtain ⟨h1, h2⟩ := integral_quad_gram hR S mu w
  rw [integral_sub (integrable_const _) (h1.const_mul _), integral_const, integral_const_mul, h2]
  simp
  ring

theorem best_iff {R : Ω → Vec n} (hR : ∀ i, MemLp (fun ω => R ω i) 2 P) {S : Fin K → Mat n} (hS : ∀ k, (S k).PosDef)
    (mu : Fin K → Vec n) (w : Vec K) : BestInExpectation P R S mu w ↔ GramBest S (expectedGram P R S mu) w := by
  constructor
  · rintro ⟨h1, h2⟩
    refine ⟨h1, fun w' hw' => ?_⟩
    have := h2 w' hw'
    rw [expectedLogLik_eq hR hS mu hw', expectedLogLik_eq hR hS mu h1] at this
    linarith
  · rintro ⟨h1, h2⟩
    refine ⟨h1, fun w' hw' => ?_⟩
    have := h2 w' hw'
    rw [expectedLogLik_eq hR hS mu hw', expectedLogLik_eq hR hS mu h1]
    linarith

theorem expectedGram_posDef {R : Ω → Vec n} (hR : ∀ i, MemLp (fun ω => R ω i) 2 P) {S : Fin K → Mat n} {mu : Fin K → Vec n}
    (hd : Distinguishable P R S mu) : (expectedGram P R S mu).PosDef := by
  refine Matrix.PosDef.of_dotProduct_mulVec_pos ?_ fun v hv => ?_
  · ext k l
    rw [Matrix.conjTranspose_apply, star_trivial]
    show ∫ ω, ((standardised S mu (R ω))ᵀ * standardised S mu (R ω)) l k ∂P = ∫ ω, ((standardised S mu (R ω))ᵀ * standardised S mu (R ω)) k l ∂P
    simp only [Matrix.mul_apply, Matrix.transpose_apply, mul_comm]
  · rw [star_trivial]
    obtain ⟨h1, h2⟩ := integral_quad_gram hR S mu v
    rw [← h2]
    have e : ∀ ω, v ⬝ᵥ (((standardised S mu (R ω))ᵀ * standardised S mu (R ω)) *ᵥ v)
        = (standardised S mu (R ω) *ᵥ v) ⬝ᵥ (standardised S mu (R ω) *ᵥ v) := fun ω => by
      rw [← Matrix.mulVec_mulVec, Matrix.dotProduct_mulVec, Matrix.vecMul_transpose]
    have hnn : ∀ ω, 0 ≤ v ⬝ᵥ (((standardised S mu (R ω))ᵀ * standardised S mu (R ω)) *ᵥ v) := fun ω => by
      rw [e]
      exact Finset.sum_nonneg fun i _ => mul_self_nonneg _
    refine lt_of_le_of_ne (integral_nonneg hnn) fun h0 => hv (hd v ?_)
    have hae := (integral_eq_zero_iff_of_nonneg hnn h1).1 h0.symm
    filter_upwards [hae] with ω hω
    have hω' : (standardised S mu (R ω) *ᵥ v) ⬝ᵥ (standardised S mu (R ω) *ᵥ v) = 0 := by rw [← e]; exact hω
    have hz := dotProduct_self_eq_zero.1 hω'
    rw [← hz]
    funext i
    simp only [Finset.sum_apply, Pi.smul_apply, smul_eq_mul]
    show _ = ∑ k, standardised S mu (R ω) i k * v k
    exact Finset.sum_congr rfl fun k _ => mul_comm _ _

private theorem measurable_gram (S : Fin K → Mat n) (mu : Fin K → Vec n) (k l : Fin K) :
    Measurable fun x : Vec n => ((standardised S mu x)ᵀ * standardised S mu x) k l := by
  simp only [Matrix.mul_apply, Matrix.transpose_apply, standardised, Matrix.of_apply, Matrix.mulVec, dotProduct, Pi.sub_apply]
  fun_prop

/-- the average Gram matrix tends to the expected one -/
theorem average_gram_tendsto {R : ℕ → Ω → Vec n} (hR : IID P R) (time : ℕ → τ) (S : Fin K → Mat n) (mu : Fin K → Vec n) :
    ∀ᵐ ω ∂P, Tendsto (fun N : ℕ => (N : ℝ)⁻¹ • (fixedExperts time S mu (fun s => R s ω) N).gram N N) atTop
      (nhds (expectedGram P (R 0) S mu)) := by
  have h : ∀ k l, ∀ᵐ ω ∂P, Tendsto (fun N : ℕ => (∑ s ∈ Finset.range N,
      ((standardised S mu (R (s + 1) ω))ᵀ * standardised S mu (R (s + 1) ω)) k l) / N) atTop (nhds (expectedGram P (R 0) S mu k l)) := by
    intro k l
    have hm := measurable_gram S mu k l
    have hi : ∀ s, IdentDistrib (fun ω => ((standardised S mu (R s ω))ᵀ * standardised S mu (R s ω)) k l)
        (fun ω => ((standardised S mu (R 0 ω))ᵀ * standardised S mu (R 0 ω)) k l) P P := fun s => (hR.ident s).comp hm
    have := strong_law_ae_real (μ := P) (fun s ω => ((standardised S mu (R (s + 1) ω))ᵀ * standardised S mu (R (s + 1) ω)) k l)
      ((hi 1).integrable_iff.2 (integrable_gram hR.square S mu k l))
      (fun s t hst => (hR.indep (s + 1) (t + 1) (by omega)).comp hm hm) (fun s => (hi (s + 1)).trans (hi 1).symm)
    rw [(hi 1).integral_eq] at this
    exact this
  have h2 : ∀ᵐ ω ∂P, ∀ k l, Tendsto (fun N : ℕ => (∑ s ∈ Finset.range N,
      ((standardised S mu (R (s + 1) ω))ᵀ * standardised S mu (R (s + 1) ω)) k l) / N) atTop (nhds (expectedGram P (R 0) S mu k l)) :=
    ae_all_iff.2 fun k => ae_all_iff.2 fun l => h k l
  filter_upwards [h2] with ω hω
  rw [tendsto_matrix_iff]
  intro k l
  refine (hω k l).congr fun N => ?_
  rw [Matrix.smul_apply, smul_eq_mul, div_eq_inv_mul]
  unfold Panel.gram
  rw [Matrix.sum_apply, Nat.sub_self]
  congr 1
  rw [Finset.range_eq_Ico, Finset.sum_Ico_add' (fun s => ((standardised S mu (R s ω))ᵀ * standardised S mu (R s ω)) k l) 0 N 1]
  refine Finset.sum_congr ?_ fun s _ => rfl
  ext s
  simp only [Finset.mem_Ico, Finset.mem_Ioc]
  omega

end CovPred
