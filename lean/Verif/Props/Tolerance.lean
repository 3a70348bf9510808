import Verif.Props.Consistency
import Verif.Props.Certificate

/-
Property C198: the combination learns the best blend with solvers that stop early, too (combination.py:203-286).
-/
set_option linter.unusedSectionVars false
namespace CovPred
open Matrix MeasureTheory ProbabilityTheory Filter

variable {τ : Type} [LinearOrder τ] {n K : ℕ} {Ω : Type} [MeasurableSpace Ω] {P : Measure Ω} [IsProbabilityMeasure P]

private theorem quad_sum'' (A : Mat K) (x y : Vec K) : x ⬝ᵥ (A *ᵥ y) = ∑ i, ∑ j, A i j * (x i * y j) := by
  simp only [dotProduct, Matrix.mulVec, Finset.mul_sum]
  refine Finset.sum_congr rfl fun i _ => Finset.sum_congr rfl fun j _ => by ring

private theorem mid_simplex {w u : Vec K} (hw : Simplex w) (hu : Simplex u) : Simplex ((1 / 2 : ℝ) • (w + u)) where
  nonneg k := by
    have h1 := hw.nonneg k
    have h2 := hu.nonneg k
    simp only [Pi.smul_apply, Pi.add_apply, smul_eq_mul]
    linarith
  sum_one := by
    simp only [Pi.smul_apply, Pi.add_apply, smul_eq_mul]
    rw [← Finset.mul_sum, Finset.sum_add_distrib, hw.sum_one, hu.sum_one]
    norm_num

private theorem quad_simplex_le {G G' : Mat K} {η : ℝ} (hη : ∀ k l, |G' k l - G k l| ≤ η) {w : Vec K} (hw : Simplex w) :
    |w ⬝ᵥ (G' *ᵥ w) - w ⬝ᵥ (G *ᵥ w)| ≤ η := by
  rw [quad_sum'', quad_sum'', ← Finset.sum_sub_distrib]
  simp only [← Finset.sum_sub_distrib]
  calc |∑ k, ∑ l, (G' k l * (w k * w l) - G k l * (w k * w l))| ≤ ∑ k, ∑ l, η * (w k * w l) := by
        refine (Finset.abs_sum_le_sum_abs _ _).trans (Finset.sum_le_sum fun k _ => (Finset.abs_sum_le_sum_abs _ _).trans
          (Finset.sum_le_sum fun l _ => ?_))
        rw [← sub_mul, abs_mul, abs_of_nonneg (mul_nonneg (hw.nonneg k) (hw.nonneg l))]
        exact mul_le_mul_of_nonneg_right (hη k l) (mul_nonneg (hw.nonneg k) (hw.nonneg l))
    _ = η := by
        simp only [← Finset.mul_sum]
        rw [hw.sum_one]
        simp only [mul_one]
        rw [hw.sum_one, mul_one]

/-- weights that are almost best for a Gram matrix near `G` are close to the best ones for `G` -/
theorem gramBest_near {S : Fin K → Mat n} (hS : ∀ k, (S k).PosDef) {G G' : Mat K} (hG : G.PosDef) {w w' : Vec K} (hw : GramBest S G w)
    (hw' : Simplex w') {δ η : ℝ} (hδ : ∀ v, Simplex v → gramScore S G' v ≤ gramScore S G' w' + δ) (hη : ∀ k l, |G' k l - G k l| ≤ η) (k : Fin K) :
    (w' k - w k) ^ 2 ≤ G⁻¹ k k * (4 * δ + 4 * η) := by
  have h1 := gramScore_mid hS G hw.1 hw'
  have h2 := hw.2 _ (mid_simplex hw.1 hw')
  have h3 := hδ w hw.1
  have h4 := abs_le.1 (quad_simplex_le hη hw.1)
  have h5 := abs_le.1 (quad_simplex_le hη hw')
  obtain ⟨h6, h7⟩ := coord_le hG (w' - w) k
  refine h7.trans (mul_le_mul_of_nonneg_left ?_ h6.le)
  unfold gramScore at h1 h2 h3
  linarith [h4.1, h4.2, h5.1, h5.2]

/-- the blend depends continuously on the weights -/
theorem blend_close {S : Fin K → Mat n} (hS : ∀ k, (S k).PosDef) (mu : Fin K → Vec n) {w : Vec K} (hw : Simplex w) {e : ℝ} (he : 0 < e) :
    ∃ ρ, 0 < ρ ∧ ∀ w', (∀ k, (w' k - w k) ^ 2 ≤ ρ) → (∀ k, |w' k - w k| < e) ∧ (∀ i j, |blendCov S w' i j - blendCov S w i j| < e) ∧
      ∀ i, |blendMean S mu w' i - blendMean S mu w i| < e := by
  by_contra hno
  push Not at hno
  have hpos : ∀ m : ℕ, (0 : ℝ) < ((m : ℝ) + 1)⁻¹ ^ 2 := fun m => by positivity
  choose v hv1 hv2 using fun m : ℕ => hno _ (hpos m)
  have hvw : Tendsto v atTop (nhds w) := by
    rw [tendsto_pi_nhds]
    intro k
    rw [tendsto_iff_norm_sub_tendsto_zero]
    refine squeeze_zero (fun _ => norm_nonneg _) (fun m => ?_) (tendsto_inv_atTop_zero.comp
      (tendsto_atTop_add_const_right _ 1 tendsto_natCast_atTop_atTop))
    rw [Real.norm_eq_abs]
    have h0 : (0 : ℝ) ≤ ((m : ℝ) + 1)⁻¹ := by positivity
    exact abs_le_of_sq_le_sq (hv1 m k) h0
  have hcov : Tendsto (fun m => blendCov S (v m)) atTop (nhds (blendCov S w)) :=
    blendCov_tendsto (S := fun _ => S) (fun _ => hS) hS (fun _ => tendsto_const_nhds) hvw hw
  have hmean : Tendsto (fun m => blendMean S mu (v m)) atTop (nhds (blendMean S mu w)) :=
    blendMean_tendsto (S := fun _ => S) (mu := fun _ => mu) (fun _ => hS) hS (fun _ => tendsto_const_nhds) (fun _ => tendsto_const_nhds) hvw hw
  have close : ∀ {f : ℕ → ℝ} {a : ℝ}, Tendsto f atTop (nhds a) → ∀ᶠ N in atTop, |f N - a| < e := fun h => by
    have := Metric.tendsto_nhds.1 h e he
    simpa only [Real.dist_eq] using this
  have c1 : ∀ᶠ m in atTop, ∀ k, |v m k - w k| < e := eventually_all.2 fun k => close (tendsto_pi_nhds.1 hvw k)
  have c2 : ∀ᶠ m in atTop, ∀ i j, |blendCov S (v m) i j - blendCov S w i j| < e :=
    eventually_all.2 fun i => eventually_all.2 fun j => close ((tendsto_matrix_iff.1 hcov) i j)
  have c3 : ∀ᶠ m in atTop, ∀ i, |blendMean S mu (v m) i - blendMean S mu w i| < e :=
    eventually_all.2 fun i => close (tendsto_pi_nhds.1 hmean i)
  obtain ⟨m, h1, h2, h3⟩ := (c1.and (c2.and c3)).exists
  obtain ⟨i, hi⟩ := hv2 m h1 h2
  exact absurd (h3 i) (not_lt.2 hi)

/-- **C198.** Consistency does not need exact solutions. Experts and returns as in C196. For every `e > 0` there is a tolerance `δ > 0` per observation
such that with probability one, for all large `N` and every solver whose weights are at most `δ N` from optimal (in the objective), each result of
`solve()` on the first `N` returns is made at the last time and its weights, covariance and mean are within `e` of those of the best blend. -/
theorem C198_tolerance (hK : 0 < K) {time : ℕ → τ} (ht : StrictMono time) {S : Fin K → Mat n} (hS : ∀ k, (S k).PosDef) (mu : Fin K → Vec n)
    {R : ℕ → Ω → Vec n} (hR : IID P R) (hd : Distinguishable P (R 0) S mu) :
    ∃ w, BestInExpectation P (R 0) S mu w ∧ ∀ e : ℝ, 0 < e → ∃ δ : ℝ, 0 < δ ∧ ∀ᵐ ω ∂P, ∃ N0 : ℕ, ∀ N ≥ N0,
      ∀ (returns : Dict τ (Vec n)) (c : Comb τ n K), (fixedExperts time S mu (fun s => R s ω) N).Gives returns c →
      ∀ solver : Solver n K, solver.Near (δ * N) → ∀ r, some r ∈ (c.solve solver none none).items →
        r.time = time N ∧ (∀ k, |r.weights k - w k| < e) ∧ (∀ i j, |r.covariance i j - blendCov S w i j| < e) ∧
          ∀ i, |r.mean i - blendMean S mu w i| < e := by
  have hG := expectedGram_posDef hR.square hd
  obtain ⟨w, hw⟩ := gramBest_exists hS hG hK
  refine ⟨w, (best_iff hR.square hS mu w).2 hw, fun e he => ?_⟩
  obtain ⟨ρ, hρ, hclose⟩ := blend_close hS mu hw.1 he
  set B := ∑ k, (expectedGram P (R 0) S mu)⁻¹ k k with hB
  have hBk : ∀ k, 0 < (expectedGram P (R 0) S mu)⁻¹ k k := fun k => hG.inv.diag_pos
  have hB0 : 0 ≤ B := Finset.sum_nonneg fun k _ => (hBk k).le
  set δ := ρ / (8 * (B + 1)) with hδ
  have hδ0 : 0 < δ := by positivity
  refine ⟨δ, hδ0, ?_⟩
  filter_upwards [average_gram_tendsto hR time S mu] with ω hω
  set Q := fixedExperts time S mu fun s => R s ω with hQ
  have hηev : ∀ᶠ N : ℕ in atTop, ∀ k l, |((N : ℝ)⁻¹ • (Q N).gram N N) k l - expectedGram P (R 0) S mu k l| < δ := by
    refine eventually_all.2 fun k => eventually_all.2 fun l => ?_
    have := Metric.tendsto_nhds.1 ((tendsto_matrix_iff.1 hω) k l) δ hδ0
    simpa only [Real.dist_eq] using this
  obtain ⟨N0, hN0⟩ := eventually_atTop.1 (hηev.and (eventually_gt_atTop 0))
  refine ⟨N0, fun N hN returns c hc solver hs r hr => ?_⟩
  obtain ⟨hη, hpos⟩ := hN0 N hN
  have hlen : 2 ≤ (Q N).len := by show 2 ≤ N + 1; omega
  have hwin : effWindow none ((Q N).len - 1) = N := rfl
  -- the only result is made at the last time
  have hrun := solve_run_none hc hlen hs.feasible none
  obtain ⟨t, v, h1, h2, _, _, hrv⟩ := hrun.mem hr
  have hb : t = N := by
    have h3 : t < N + 1 := h2
    have h4 : N ≤ t := h1
    omega
  subst hb
  have htime : r.time = (Q t).time t := by rw [hrv]; rfl
  have hreq : (Q t).Request (effWindow none ((Q t).len - 1)) none t (t + 1) := by
    have := Panel.Request.all (P := Q t) (W := effWindow none ((Q t).len - 1))
    exact this
  obtain ⟨_, hg, hp, hsx, hle⟩ := near_result hc hlen hs none hreq hr (by show t < t + 1; omega) htime
  rw [hwin] at hle
  have ht' : (0 : ℝ) < t := by exact_mod_cast hpos
  have hnear : ∀ v, Simplex v → gramScore S ((t : ℝ)⁻¹ • (Q t).gram t t) v ≤ gramScore S ((t : ℝ)⁻¹ • (Q t).gram t t) r.weights + δ := by
    intro v hv
    have := hle v hv
    rw [fixed_logLik hS mu _ hpos hv, fixed_logLik hS mu _ hpos hsx] at this
    have h5 : (t : ℝ) * (gramScore S ((t : ℝ)⁻¹ • (Q t).gram t t) v - gramScore S ((t : ℝ)⁻¹ • (Q t).gram t t) r.weights) ≤ t * δ := by linarith
    linarith [le_of_mul_le_mul_left h5 ht']
  have hfin := hclose r.weights fun k => by
    refine (gramBest_near hS hG hw hsx hnear (fun k l => (hη k l).le) k).trans ?_
    have h6 : (expectedGram P (R 0) S mu)⁻¹ k k ≤ B :=
      Finset.single_le_sum (f := fun k => (expectedGram P (R 0) S mu)⁻¹ k k) (fun k _ => (hBk k).le) (Finset.mem_univ k)
    have h7 : 4 * δ + 4 * δ = ρ / (B + 1) := by rw [hδ]; field_simp; ring
    rw [h7, ← mul_div_assoc, div_le_iff₀ (by linarith)]
    nlinarith
  refine ⟨htime, hfin.1, fun i j => ?_, fun i => ?_⟩
  · rw [hp]; exact hfin.2.1 i j
  · rw [hp]; exact hfin.2.2 i

theorem Solver.Near.mono {s : Solver n K} {d d' : ℝ} (h : s.Near d) (hd : d ≤ d') : s.Near d' :=
  fun hist p w hw => ⟨(h hist p w hw).1, fun w' hw' => ((h hist p w hw).2 w' hw').trans (by linarith)⟩

/-- **C198.** In particular a fixed tolerance does no harm in the long run: with probability one, whatever solver of tolerance `d` is used, weights,
covariances and means tend to those of the best blend. -/
theorem C198_fixed_tolerance (hK : 0 < K) {time : ℕ → τ} (ht : StrictMono time) {S : Fin K → Mat n} (hS : ∀ k, (S k).PosDef) (mu : Fin K → Vec n)
    {R : ℕ → Ω → Vec n} (hR : IID P R) (hd : Distinguishable P (R 0) S mu) :
    ∃ w, BestInExpectation P (R 0) S mu w ∧ ∀ᵐ ω ∂P, ∀ d e : ℝ, 0 < e → ∃ N0 : ℕ, ∀ N ≥ N0,
      ∀ (returns : Dict τ (Vec n)) (c : Comb τ n K), (fixedExperts time S mu (fun s => R s ω) N).Gives returns c →
      ∀ solver : Solver n K, solver.Near d → ∀ r, some r ∈ (c.solve solver none none).items →
        r.time = time N ∧ (∀ k, |r.weights k - w k| < e) ∧ (∀ i j, |r.covariance i j - blendCov S w i j| < e) ∧
          ∀ i, |r.mean i - blendMean S mu w i| < e := by
  obtain ⟨w, hw, h⟩ := C198_tolerance hK ht hS mu hR hd
  refine ⟨w, hw, ?_⟩
  have hpos : ∀ m : ℕ, (0 : ℝ) < ((m : ℝ) + 1)⁻¹ := fun m => by positivity
  choose δ hδ hae using fun m : ℕ => h _ (hpos m)
  filter_upwards [ae_all_iff.2 hae] with ω hω d e he
  obtain ⟨m, hm⟩ := exists_nat_gt e⁻¹
  have hme : ((m : ℝ) + 1)⁻¹ < e := inv_lt_of_inv_lt₀ he (by linarith)
  obtain ⟨N0, hN0⟩ := hω m
  obtain ⟨N1, hN1⟩ := exists_nat_gt (d / δ m)
  refine ⟨max N0 N1, fun N hN returns c hc solver hs r hr => ?_⟩
  have hN' : (N1 : ℝ) ≤ N := by exact_mod_cast (le_max_right N0 N1).trans hN
  have hdN : d ≤ δ m * N := by
    have : d / δ m < N := lt_of_lt_of_le hN1 hN'
    rw [div_lt_iff₀ (hδ m)] at this
    linarith
  obtain ⟨h1, h2, h3, h4⟩ := hN0 N ((le_max_left N0 N1).trans hN) returns c hc solver (hs.mono hdN) r hr
  exact ⟨h1, fun k => (h2 k).trans hme, fun i j => (h3 i j).trans hme, fun i => (h4 i).trans hme⟩

namespace ToleranceEx
open ConsistencyEx

/-- the returns by time -/
noncomputable def returns (r : ℕ → Vec 1) (N : ℕ) : Dict ℕ (Vec 1) := (List.range (N + 1)).map fun t => (t, r t)

theorem gives (r : ℕ → Vec 1) (N : ℕ) :
    (fixedExperts id S mu r N).Gives (returns r N) ((fixedExperts id S mu r N).comb (returns r N)) where
  ok := fixed_ok strictMono_id S_posDef mu r N
  covered := fun t _ ht => lookup_map_range (time := (id : ℕ → ℕ)) (N := N + 1) (fun s t h _ => h) _ t ht
  experts := by norm_num
  built := Or.inl (fromSigmas_panel (fixed_ok strictMono_id S_posDef mu r N) (by norm_num) _)

/-- The hypotheses are met by the returns 1 or -1 of `ConsistencyEx`: the combination can be built from the first `N` of them, there are solvers of any
tolerance `d ≥ 0`, and with them `solve()` yields a result for all large `N`. -/
example : ∃ (Ω : Type) (_ : MeasurableSpace Ω) (P : Measure Ω) (_ : IsProbabilityMeasure P) (R : ℕ → Ω → Vec 1),
    IID P R ∧ Distinguishable P (R 0) S mu ∧ ∀ᵐ ω ∂P, ∀ d : ℝ, 0 ≤ d → ∃ N0, ∀ N ≥ N0, ∃ (returns : Dict ℕ (Vec 1)) (c : Comb ℕ 1 2)
      (solver : Solver 1 2), (fixedExperts id S mu (fun s => R s ω) N).Gives returns c ∧ solver.Near d ∧
        ∃ r, some r ∈ (c.solve solver none none).items := by
  obtain ⟨Ω, mΩ, P, hP, R, h1, _, h2, h3⟩ := setting
  refine ⟨Ω, mΩ, P, hP, R, h1, h2, ?_⟩
  filter_upwards [h3] with ω hω d hd
  obtain ⟨N0, hN0⟩ := hω 1 one_pos
  refine ⟨N0, fun N hN => ⟨_, _, exactSolver 1 2, gives _ N, fun hist p w hw => ?_, ?_⟩⟩
  · have := exactSolver_exact hist p w hw
    exact ⟨this.1, fun w' hw' => (this.2 w' hw').trans (by linarith)⟩
  · obtain ⟨r, hr, _⟩ := hN0 N hN _ _ (gives _ N) _ exactSolver_exact exactSolver_complete
    exact ⟨r, by rw [hr]; simp⟩

end ToleranceEx

end CovPred
