import Verif.Spec.Certificate
import Verif.Props.Solve
import Mathlib.Topology.Instances.Matrix

/-
Properties C127, C128: a certificate of optimality for the weights of a combination, and what an inexact solver gives.
-/
set_option linter.unusedSectionVars false
namespace CovPred
open Matrix

variable {τ : Type} [LinearOrder τ] {n K : ℕ}

/-! ### the log-likelihood as a function of the weights -/

private theorem score_eq {P : Panel τ n K} (hP : P.Ok) {s : ℕ} (hs : s - 1 < P.len) {w : Vec K} (hw : Simplex w) :
    blendScore (P.cov (s - 1)) (P.mean (s - 1)) w (P.ret s) = P.scores s *ᵥ w := by
  have hpd := hP.posDef (s - 1) hs
  exact (scores_mulVec (det_ne_of_tri (blendFactor_lower hpd w) (blendFactor_pos hpd hw))).symm

private theorem density_eq {P : Panel τ n K} (hP : P.Ok) {s : ℕ} (hs : s - 1 < P.len) {w : Vec K} (hw : Simplex w) :
    gaussLogDensity (blendMean (P.cov (s - 1)) (P.mean (s - 1)) w) (blendCov (P.cov (s - 1)) w) (P.ret s)
      = -(n / 2 * Real.log (2 * Real.pi)) + ∑ i, Real.log (blendFactor (P.cov (s - 1)) w i i)
        - 1 / 2 * ((P.scores s *ᵥ w) ⬝ᵥ (P.scores s *ᵥ w)) := by
  have hpd := hP.posDef (s - 1) hs
  rw [density_blend (blendFactor_lower hpd w) (blendFactor_pos hpd hw), ← score_eq hP hs hw]
  rfl

private theorem factor_apply (S : Fin K → Mat n) (w : Vec K) (i j : Fin n) :
    blendFactor S w i j = ∑ k, w k * precFactor (S k) i j := by
  unfold blendFactor
  rw [Matrix.sum_apply]
  rfl

private theorem scores_apply (P : Panel τ n K) (s : ℕ) (w : Vec K) (i : Fin n) :
    (P.scores s *ᵥ w) i = ∑ k, w k * ((precFactor (P.cov (s - 1) k))ᵀ *ᵥ (P.ret s - P.mean (s - 1) k)) i := by
  simp only [Matrix.mulVec, dotProduct, Panel.scores, Matrix.of_apply]
  exact Finset.sum_congr rfl fun k _ => mul_comm _ _

/-- the marginal scores, weighted by any vector -/
theorem sum_marginal {P : Panel τ n K} (hP : P.Ok) {W t : ℕ} (ht : t < P.len) {w : Vec K} (hw : Simplex w)
    (d : Vec K) :
    ∑ k, d k * P.marginal W t w k = ∑ s ∈ Finset.Ioc (t - W) t,
      (∑ i, blendFactor (P.cov (s - 1)) d i i / blendFactor (P.cov (s - 1)) w i i
        - (P.scores s *ᵥ d) ⬝ᵥ (P.scores s *ᵥ w)) := by
  unfold Panel.marginal
  simp only [Finset.mul_sum]
  rw [Finset.sum_comm]
  refine Finset.sum_congr rfl fun s hs => ?_
  rw [Finset.mem_Ioc] at hs
  simp only [mul_sub, Finset.sum_sub_distrib]
  congr 1
  · simp only [Finset.mul_sum]
    rw [Finset.sum_comm]
    refine Finset.sum_congr rfl fun i _ => ?_
    rw [factor_apply _ d, Finset.sum_div]
    exact Finset.sum_congr rfl fun k _ => by ring
  · rw [score_eq hP (by omega) hw]
    simp only [dotProduct, Finset.mul_sum]
    rw [Finset.sum_comm]
    refine Finset.sum_congr rfl fun i _ => ?_
    rw [scores_apply P s d, Finset.sum_mul]
    exact Finset.sum_congr rfl fun k _ => by ring

/-- the log-likelihood is below its tangent, by a quadratic term -/
private theorem tangent {P : Panel τ n K} (hP : P.Ok) {W t : ℕ} (ht : t < P.len) {w w' : Vec K} (hw : Simplex w)
    (hw' : Simplex w') :
    P.logLik W t w' ≤ P.logLik W t w + (∑ k, w' k * P.marginal W t w k - P.average W t w)
      - 1 / 2 * ∑ s ∈ Finset.Ioc (t - W) t, (P.scores s *ᵥ (w' - w)) ⬝ᵥ (P.scores s *ᵥ (w' - w)) := by
  unfold Panel.average
  rw [sum_marginal hP ht hw, sum_marginal hP ht hw]
  unfold Panel.logLik
  rw [← Finset.sum_sub_distrib, ← Finset.sum_add_distrib, Finset.mul_sum, ← Finset.sum_sub_distrib]
  refine Finset.sum_le_sum fun s hs => ?_
  rw [Finset.mem_Ioc] at hs
  rw [density_eq hP (by omega) hw, density_eq hP (by omega) hw']
  have hpd := hP.posDef (s - 1) (by omega)
  have hlog : ∑ i, Real.log (blendFactor (P.cov (s - 1)) w' i i) ≤ ∑ i, Real.log (blendFactor (P.cov (s - 1)) w i i)
      + ∑ i, blendFactor (P.cov (s - 1)) w' i i / blendFactor (P.cov (s - 1)) w i i
      - ∑ i, blendFactor (P.cov (s - 1)) w i i / blendFactor (P.cov (s - 1)) w i i := by
    rw [← Finset.sum_add_distrib, ← Finset.sum_sub_distrib]
    refine Finset.sum_le_sum fun i _ => ?_
    have h1 := blendFactor_pos hpd hw i
    have h2 := blendFactor_pos hpd hw' i
    have := Real.log_le_sub_one_of_pos (div_pos h2 h1)
    rw [Real.log_div h2.ne' h1.ne'] at this
    rw [div_self h1.ne']
    linarith
  have hq : (P.scores s *ᵥ (w' - w)) ⬝ᵥ (P.scores s *ᵥ (w' - w)) = (P.scores s *ᵥ w') ⬝ᵥ (P.scores s *ᵥ w')
      - 2 * ((P.scores s *ᵥ w') ⬝ᵥ (P.scores s *ᵥ w)) + (P.scores s *ᵥ w) ⬝ᵥ (P.scores s *ᵥ w) := by
    rw [Matrix.mulVec_sub, sub_dotProduct, dotProduct_sub, dotProduct_sub, dotProduct_comm (P.scores s *ᵥ w)]
    ring
  rw [hq]
  linarith

/-- moving from `w` towards `w'` by `e` gains at least this -/
private theorem step_gain {P : Panel τ n K} (hP : P.Ok) {W t : ℕ} (ht : t < P.len) {w w' : Vec K} (hw : Simplex w)
    {e : ℝ} (h1 : Simplex (w + e • (w' - w))) :
    P.logLik W t w + e * (∑ s ∈ Finset.Ioc (t - W) t,
      (∑ i, blendFactor (P.cov (s - 1)) (w' - w) i i /
          (blendFactor (P.cov (s - 1)) w i i + e * blendFactor (P.cov (s - 1)) (w' - w) i i)
        - (P.scores s *ᵥ (w' - w)) ⬝ᵥ (P.scores s *ᵥ w)
        - e / 2 * ((P.scores s *ᵥ (w' - w)) ⬝ᵥ (P.scores s *ᵥ (w' - w)))))
      ≤ P.logLik W t (w + e • (w' - w)) := by
  unfold Panel.logLik
  rw [Finset.mul_sum, ← Finset.sum_add_distrib]
  refine Finset.sum_le_sum fun s hs => ?_
  rw [Finset.mem_Ioc] at hs
  rw [density_eq hP (by omega) hw, density_eq hP (by omega) h1]
  have hpd := hP.posDef (s - 1) (by omega)
  have hlin : ∀ i, blendFactor (P.cov (s - 1)) (w + e • (w' - w)) i i
      = blendFactor (P.cov (s - 1)) w i i + e * blendFactor (P.cov (s - 1)) (w' - w) i i := by
    intro i
    rw [factor_apply, factor_apply, factor_apply, Finset.mul_sum, ← Finset.sum_add_distrib]
    refine Finset.sum_congr rfl fun k _ => ?_
    simp only [Pi.add_apply, Pi.smul_apply, smul_eq_mul]
    ring
  have hlog : ∑ i, Real.log (blendFactor (P.cov (s - 1)) w i i)
      + e * ∑ i, blendFactor (P.cov (s - 1)) (w' - w) i i /
          (blendFactor (P.cov (s - 1)) w i i + e * blendFactor (P.cov (s - 1)) (w' - w) i i)
      ≤ ∑ i, Real.log (blendFactor (P.cov (s - 1)) (w + e • (w' - w)) i i) := by
    rw [Finset.mul_sum, ← Finset.sum_add_distrib]
    refine Finset.sum_le_sum fun i _ => ?_
    have p1 := blendFactor_pos hpd hw i
    have p2 := blendFactor_pos hpd h1 i
    have hl := Real.log_le_sub_one_of_pos (div_pos p1 p2)
    rw [Real.log_div p1.ne' p2.ne', hlin i] at hl
    rw [hlin i] at p2 ⊢
    have hfrac : blendFactor (P.cov (s - 1)) w i i /
        (blendFactor (P.cov (s - 1)) w i i + e * blendFactor (P.cov (s - 1)) (w' - w) i i) - 1
        = -(e * (blendFactor (P.cov (s - 1)) (w' - w) i i /
          (blendFactor (P.cov (s - 1)) w i i + e * blendFactor (P.cov (s - 1)) (w' - w) i i))) := by
      field_simp
      ring
    rw [hfrac] at hl
    linarith
  have hq : (P.scores s *ᵥ (w + e • (w' - w))) ⬝ᵥ (P.scores s *ᵥ (w + e • (w' - w))) =
      (P.scores s *ᵥ w) ⬝ᵥ (P.scores s *ᵥ w) + 2 * (e * ((P.scores s *ᵥ (w' - w)) ⬝ᵥ (P.scores s *ᵥ w)))
      + e ^ 2 * ((P.scores s *ᵥ (w' - w)) ⬝ᵥ (P.scores s *ᵥ (w' - w))) := by
    rw [Matrix.mulVec_add, Matrix.mulVec_smul, add_dotProduct, dotProduct_add, dotProduct_add,
      dotProduct_smul, smul_dotProduct, smul_dotProduct, dotProduct_smul,
      dotProduct_comm (P.scores s *ᵥ w) (P.scores s *ᵥ (w' - w))]
    simp only [smul_eq_mul]
    ring
  rw [hq]
  nlinarith [hlog]

private theorem simplex_step {w w' : Vec K} (hw : Simplex w) (hw' : Simplex w') {e : ℝ} (h0 : 0 ≤ e) (h1 : e ≤ 1) :
    Simplex (w + e • (w' - w)) where
  nonneg k := by
    have a := hw.nonneg k
    have b := hw'.nonneg k
    simp only [Pi.add_apply, Pi.smul_apply, Pi.sub_apply, smul_eq_mul]
    nlinarith [mul_nonneg h0 b, mul_nonneg (sub_nonneg.2 h1) a]
  sum_one := by
    simp only [Pi.add_apply, Pi.smul_apply, Pi.sub_apply, smul_eq_mul, Finset.sum_add_distrib, ← Finset.mul_sum,
      Finset.sum_sub_distrib, hw.sum_one, hw'.sum_one]
    ring

/-- at an optimum no direction gains to first order -/
private theorem first_order {P : Panel τ n K} (hP : P.Ok) {W t : ℕ} (ht : t < P.len) {w w' : Vec K}
    (hopt : P.Optimal W t w) (hw' : Simplex w') : ∑ k, (w' - w) k * P.marginal W t w k ≤ 0 := by
  have hw := hopt.1
  rw [sum_marginal hP ht hw]
  set g : ℝ → ℝ := fun e => ∑ s ∈ Finset.Ioc (t - W) t,
      (∑ i, blendFactor (P.cov (s - 1)) (w' - w) i i /
          (blendFactor (P.cov (s - 1)) w i i + e * blendFactor (P.cov (s - 1)) (w' - w) i i)
        - (P.scores s *ᵥ (w' - w)) ⬝ᵥ (P.scores s *ᵥ w)
        - e / 2 * ((P.scores s *ᵥ (w' - w)) ⬝ᵥ (P.scores s *ᵥ (w' - w)))) with hg
  have hg0 : g 0 = ∑ s ∈ Finset.Ioc (t - W) t,
      (∑ i, blendFactor (P.cov (s - 1)) (w' - w) i i / blendFactor (P.cov (s - 1)) w i i
        - (P.scores s *ᵥ (w' - w)) ⬝ᵥ (P.scores s *ᵥ w)) := by
    simp only [hg, zero_mul, add_zero, zero_div, sub_zero]
  rw [← hg0]
  have hcont : ContinuousAt g 0 := by
    refine tendsto_finsetSum _ fun s hs => ?_
    rw [Finset.mem_Ioc] at hs
    refine ContinuousAt.sub (ContinuousAt.sub ?_ continuousAt_const) (by fun_prop)
    refine tendsto_finsetSum _ fun i _ => ?_
    refine ContinuousAt.div continuousAt_const (by fun_prop) ?_
    rw [zero_mul, add_zero]
    exact (blendFactor_pos (hP.posDef (s - 1) (by omega)) hw i).ne'
  have hle : ∀ᶠ e in nhdsWithin (0 : ℝ) (Set.Ioi 0), g e ≤ 0 := by
    have : Set.Ioo (0 : ℝ) 1 ∈ nhdsWithin (0 : ℝ) (Set.Ioi 0) := Ioo_mem_nhdsGT one_pos
    filter_upwards [this] with e he
    have hs := simplex_step hw hw' he.1.le he.2.le
    have h1 := step_gain hP ht hw hs (W := W)
    have h2 := hopt.2 _ hs
    have h3 : e * g e ≤ 0 := by
      have : P.logLik W t w + e * g e ≤ P.logLik W t (w + e • (w' - w)) := h1
      linarith
    by_contra hpos
    push Not at hpos
    exact absurd h3 (not_le.2 (mul_pos he.1 hpos))
  exact le_of_tendsto (hcont.tendsto.mono_left nhdsWithin_le_nhds) hle

private theorem sum_single (k : Fin K) (f : Fin K → ℝ) : ∑ j, (Pi.single k (1 : ℝ) : Vec K) j * f j = f k := by
  rw [Finset.sum_eq_single k]
  · simp
  · intro j _ hj; simp [hj]
  · intro h; exact absurd (Finset.mem_univ k) h

private theorem sum_le_of_marginal {P : Panel τ n K} {W t : ℕ} {w w' : Vec K} (hw' : Simplex w') {c : ℝ}
    (h : ∀ k, P.marginal W t w k ≤ c) : ∑ k, w' k * P.marginal W t w k ≤ c := by
  calc ∑ k, w' k * P.marginal W t w k ≤ ∑ k, w' k * c :=
        Finset.sum_le_sum fun k _ => mul_le_mul_of_nonneg_left (h k) (hw'.nonneg k)
    _ = c := by rw [← Finset.sum_mul, hw'.sum_one, one_mul]

/-! ### C127 -/

/-- **C127.** Weights on the simplex maximise the window log-likelihood exactly if no expert's marginal score exceeds the
average: optimality can be checked by evaluating `K` numbers. -/
theorem C127_optimal_iff {P : Panel τ n K} (hP : P.Ok) (W t : ℕ) (ht : t < P.len) (w : Vec K) :
    P.Optimal W t w ↔ Simplex w ∧ ∀ k, P.marginal W t w k ≤ P.average W t w := by
  constructor
  · intro h
    refine ⟨h.1, fun k => ?_⟩
    have := first_order hP ht h (simplex_single k)
    simp only [Pi.sub_apply, sub_mul, Finset.sum_sub_distrib] at this
    rw [sum_single] at this
    unfold Panel.average
    linarith
  · rintro ⟨hw, h⟩
    refine ⟨hw, fun w' hw' => ?_⟩
    have h1 := tangent hP ht hw hw' (W := W)
    have h2 := sum_le_of_marginal hw' h
    have h3 : 0 ≤ ∑ s ∈ Finset.Ioc (t - W) t, (P.scores s *ᵥ (w' - w)) ⬝ᵥ (P.scores s *ᵥ (w' - w)) :=
      Finset.sum_nonneg fun s _ => Finset.sum_nonneg fun i _ => mul_self_nonneg _
    linarith

/-- **C127.** An expert with positive optimal weight has exactly the average marginal score; an expert below gets no
weight. -/
theorem C127_support {P : Panel τ n K} (hP : P.Ok) (W t : ℕ) (ht : t < P.len) (w : Vec K) (h : P.Optimal W t w) (k : Fin K) :
    (0 < w k → P.marginal W t w k = P.average W t w) ∧ (P.marginal W t w k < P.average W t w → w k = 0) := by
  obtain ⟨hw, hle⟩ := (C127_optimal_iff hP W t ht w).1 h
  have hz : ∑ j, w j * (P.average W t w - P.marginal W t w j) = 0 := by
    simp only [mul_sub, Finset.sum_sub_distrib]
    rw [← Finset.sum_mul, hw.sum_one, one_mul]
    exact sub_self _
  have hk := (Finset.sum_eq_zero_iff_of_nonneg fun j _ => mul_nonneg (hw.nonneg j) (sub_nonneg.2 (hle j))).1 hz k
    (Finset.mem_univ k)
  rcases mul_eq_zero.1 hk with h0 | h0
  · exact ⟨fun hp => absurd h0 hp.ne', fun _ => h0⟩
  · exact ⟨fun _ => by linarith, fun hlt => absurd (sub_eq_zero.1 h0) hlt.ne'⟩

/-- **C127.** The average marginal score is the number of returns in the window (assets times rows) minus the sum of squares
of the returns standardised by the blend. -/
theorem C127_average {P : Panel τ n K} (hP : P.Ok) (W t : ℕ) (hWt : W ≤ t) (ht : t < P.len) (w : Vec K) (hw : Simplex w) :
    P.average W t w = W * n - ∑ s ∈ Finset.Ioc (t - W) t,
      ∑ i, blendScore (P.cov (s - 1)) (P.mean (s - 1)) w (P.ret s) i ^ 2 := by
  unfold Panel.average
  rw [sum_marginal hP ht hw, Finset.sum_sub_distrib]
  congr 1
  · have : ∀ s ∈ Finset.Ioc (t - W) t,
        ∑ i, blendFactor (P.cov (s - 1)) w i i / blendFactor (P.cov (s - 1)) w i i = (n : ℝ) := by
      intro s hs
      rw [Finset.mem_Ioc] at hs
      rw [Finset.sum_congr rfl fun i _ => div_self (blendFactor_pos (hP.posDef (s - 1) (by omega)) hw i).ne']
      simp
    rw [Finset.sum_congr rfl this, Finset.sum_const, Nat.card_Ioc, show t - (t - W) = W by omega, nsmul_eq_mul]
  · refine Finset.sum_congr rfl fun s hs => ?_
    rw [Finset.mem_Ioc] at hs
    rw [score_eq hP (by omega) hw]
    exact Finset.sum_congr rfl fun i _ => (sq _).symm

/-- **C127.** The certificate bounds the error: if no marginal score exceeds the average by more than `d`, no mixture is
more than `d` better, and the blend's standardised returns are within `2 d` (sum of squared differences) of those of the
optimum. -/
theorem C127_gap {P : Panel τ n K} (hP : P.Ok) (W t : ℕ) (ht : t < P.len) (w : Vec K) (hw : Simplex w) (d : ℝ)
    (h : ∀ k, P.marginal W t w k ≤ P.average W t w + d) :
    (∀ w', Simplex w' → P.logLik W t w' ≤ P.logLik W t w + d) ∧
    ∀ w', P.Optimal W t w' → ∑ s ∈ Finset.Ioc (t - W) t,
      ∑ i, (blendScore (P.cov (s - 1)) (P.mean (s - 1)) w (P.ret s) i
        - blendScore (P.cov (s - 1)) (P.mean (s - 1)) w' (P.ret s) i) ^ 2 ≤ 2 * d := by
  have key : ∀ w', Simplex w' → P.logLik W t w' ≤ P.logLik W t w + d
      - 1 / 2 * ∑ s ∈ Finset.Ioc (t - W) t, (P.scores s *ᵥ (w' - w)) ⬝ᵥ (P.scores s *ᵥ (w' - w)) := by
    intro w' hw'
    have h1 := tangent hP ht hw hw' (W := W)
    have h2 := sum_le_of_marginal hw' h
    linarith
  refine ⟨fun w' hw' => ?_, fun w' hopt => ?_⟩
  · have h3 : 0 ≤ ∑ s ∈ Finset.Ioc (t - W) t, (P.scores s *ᵥ (w' - w)) ⬝ᵥ (P.scores s *ᵥ (w' - w)) :=
      Finset.sum_nonneg fun s _ => Finset.sum_nonneg fun i _ => mul_self_nonneg _
    linarith [key w' hw']
  · have h1 := key w' hopt.1
    have h2 := hopt.2 w hw
    have : ∑ s ∈ Finset.Ioc (t - W) t, ∑ i, (blendScore (P.cov (s - 1)) (P.mean (s - 1)) w (P.ret s) i
        - blendScore (P.cov (s - 1)) (P.mean (s - 1)) w' (P.ret s) i) ^ 2
        = ∑ s ∈ Finset.Ioc (t - W) t, (P.scores s *ᵥ (w' - w)) ⬝ᵥ (P.scores s *ᵥ (w' - w)) := by
      refine Finset.sum_congr rfl fun s hs => ?_
      rw [Finset.mem_Ioc] at hs
      rw [score_eq hP (by omega) hw, score_eq hP (by omega) hopt.1, Matrix.mulVec_sub]
      refine Finset.sum_congr rfl fun i _ => ?_
      simp only [Pi.sub_apply]
      ring
    rw [this]
    linarith

/-- **C127** for `solve`: with an exact solver the weights of every result pass the test, experts below the average get
weight zero, and weights that pass the test are the ones returned. -/
theorem C127_solve {P : Panel τ n K} {returns : Dict τ (Vec n)} {c : Comb τ n K} (h : P.Gives returns c)
    (hlen : 2 ≤ P.len) (solver : Solver n K) (hs : solver.Exact) (window : Option ℕ) (times : Option (List τ)) (a b : ℕ)
    (hreq : P.Request (effWindow window (P.len - 1)) times a b) (r : Result τ n K)
    (hr : some r ∈ (c.solve solver window times).items) (t : ℕ) (ht : t < P.len) (hrt : r.time = P.time t) :
    (∀ k, P.marginal (effWindow window (P.len - 1)) t r.weights k ≤ P.average (effWindow window (P.len - 1)) t r.weights) ∧
    (∀ k, P.marginal (effWindow window (P.len - 1)) t r.weights k < P.average (effWindow window (P.len - 1)) t r.weights →
      r.weights k = 0) ∧
    ∀ w, Simplex w → (∀ k, P.marginal (effWindow window (P.len - 1)) t w k ≤ P.average (effWindow window (P.len - 1)) t w) →
      w = r.weights := by
  obtain ⟨t', h1, h2, h3, h4, h5, hopt, hr'⟩ := exact_result h hlen hs window hreq hr
  have : t' = t := time_inj h.ok (by omega) ht (by rw [← hrt, hr']; rfl)
  subst this
  refine ⟨((C127_optimal_iff h.ok _ _ ht _).1 hopt).2, fun k => (C127_support h.ok _ _ ht _ hopt k).2, fun w hw hk => ?_⟩
  exact optimal_unique h.ok h4 ht h5 ((C127_optimal_iff h.ok _ _ ht w).2 ⟨hw, hk⟩) hopt

/-! ### C128: inexact solvers -/

/-- A solver with tolerance `d`: the weights it returns are feasible, and no feasible weights are more than `d` better. (combination.py:272) -/
def Solver.Near (s : Solver n K) (d : ℝ) : Prop := ∀ hist p w, s (hist ++ [p]) = .weights w →
  CovPred.Feasible p w ∧ ∀ w', CovPred.Feasible p w' → objective p w' ≤ objective p w + d

theorem Solver.Near.feasible {s : Solver n K} {d : ℝ} (h : s.Near d) : s.Feasible :=
  fun hist p w hw => (h hist p w hw).1.simplex

/-- a result of `solve` with a solver of tolerance `d` -/
theorem near_result {P : Panel τ n K} {returns : Dict τ (Vec n)} {c : Comb τ n K} (h : P.Gives returns c)
    (hlen : 2 ≤ P.len) {solver : Solver n K} {d : ℝ} (hs : solver.Near d) (window : Option ℕ) {times : Option (List τ)}
    {a b : ℕ} (hreq : P.Request (effWindow window (P.len - 1)) times a b) {r : Result τ n K}
    (hr : some r ∈ (c.solve solver window times).items) {t : ℕ} (ht : t < P.len) (hrt : r.time = P.time t) :
    effWindow window (P.len - 1) ≤ t ∧ (P.gram (effWindow window (P.len - 1)) t).PosDef ∧ r = P.predict t r.weights ∧
      Simplex r.weights ∧ ∀ w, Simplex w → P.logLik (effWindow window (P.len - 1)) t w
        ≤ P.logLik (effWindow window (P.len - 1)) t r.weights + d := by
  obtain ⟨hrun, hWa, hb⟩ := solve_run_request h hlen hs.feasible window hreq
  obtain ⟨t', w, h1, h2, hg, ho, hrw⟩ := hrun.mem hr
  have : t' = t := time_inj h.ok (by omega) ht (by rw [← hrt, hrw]; rfl)
  subst this
  unfold Panel.outcome at ho
  rw [range'_concat_params P _ a t' h1] at ho
  obtain ⟨hf, hle⟩ := hs _ _ _ ho
  have hW : r.weights = w := by rw [hrw]; rfl
  rw [hW]
  refine ⟨by omega, hg t' h1 h2, hrw, hf.simplex, fun w' hw' => ?_⟩
  have := hle w' ((feasible_iff h.ok (by omega) ht w').2 hw')
  rw [objective_simplex h.ok (by omega) ht (hg t' h1 h2) hf.simplex,
    objective_simplex h.ok (by omega) ht (hg t' h1 h2) hw'] at this
  linarith

/-- **C128.** With a solver of tolerance `d` every result is at most `d` less likely, on the window, than every fixed
mixture and every single expert. -/
theorem C128_near_best {P : Panel τ n K} {returns : Dict τ (Vec n)} {c : Comb τ n K} (h : P.Gives returns c)
    (hlen : 2 ≤ P.len) (solver : Solver n K) (d : ℝ) (hs : solver.Near d) (window : Option ℕ) (times : Option (List τ))
    (a b : ℕ) (hreq : P.Request (effWindow window (P.len - 1)) times a b) (r : Result τ n K)
    (hr : some r ∈ (c.solve solver window times).items) (t : ℕ) (ht : t < P.len) (hrt : r.time = P.time t) :
    (∀ w, Simplex w → P.logLik (effWindow window (P.len - 1)) t w
      ≤ P.logLik (effWindow window (P.len - 1)) t r.weights + d) ∧
    ∀ k, ∑ s ∈ Finset.Ioc (t - effWindow window (P.len - 1)) t,
        gaussLogDensity (P.mean (s - 1) k) (P.cov (s - 1) k) (P.ret s)
      ≤ P.logLik (effWindow window (P.len - 1)) t r.weights + d := by
  obtain ⟨_, _, _, _, hle⟩ := near_result h hlen hs window hreq hr ht hrt
  refine ⟨hle, fun k => le_trans (le_of_eq ?_) (hle _ (simplex_single k))⟩
  unfold Panel.logLik
  refine Finset.sum_congr rfl fun s hs => ?_
  rw [Finset.mem_Ioc] at hs
  obtain ⟨h1, h2⟩ := blend_single (h.ok.posDef (s - 1) (by omega)) (P.mean (s - 1)) k
  rw [h1, h2]

/-- **C128.** Its weights are close to the optimal ones, in the norm of the window Gram matrix. -/
theorem C128_weights_close {P : Panel τ n K} {returns : Dict τ (Vec n)} {c : Comb τ n K} (h : P.Gives returns c)
    (hlen : 2 ≤ P.len) (solver : Solver n K) (d : ℝ) (hs : solver.Near d) (window : Option ℕ) (times : Option (List τ))
    (a b : ℕ) (hreq : P.Request (effWindow window (P.len - 1)) times a b) (r : Result τ n K)
    (hr : some r ∈ (c.solve solver window times).items) (t : ℕ) (ht : t < P.len) (hrt : r.time = P.time t)
    (w : Vec K) (hw : P.Optimal (effWindow window (P.len - 1)) t w) :
    (r.weights - w) ⬝ᵥ (P.gram (effWindow window (P.len - 1)) t *ᵥ (r.weights - w)) ≤ 2 * d := by
  obtain ⟨_, _, _, hsx, hle⟩ := near_result h hlen hs window hreq hr ht hrt
  have h1 := tangent h.ok ht hw.1 hsx (W := effWindow window (P.len - 1))
  have h2 := sum_le_of_marginal hsx ((C127_optimal_iff h.ok _ _ ht w).1 hw).2
  have h3 := hle w hw.1
  rw [quad_gram]
  linarith

/-- a positive definite form bounds the coordinates -/
theorem coord_le {M : Mat K} (hM : M.PosDef) (v : Vec K) (k : Fin K) :
    0 < M⁻¹ k k ∧ v k ^ 2 ≤ M⁻¹ k k * (v ⬝ᵥ (M *ᵥ v)) := by
  have hu : 0 < M⁻¹ k k := hM.inv.diag_pos
  refine ⟨hu, ?_⟩
  have hdet : IsUnit M.det := isUnit_iff_ne_zero.mpr hM.det_pos.ne'
  have hsymm := posDef_symm hM
  set u : Vec K := M⁻¹ *ᵥ Pi.single k 1 with hu'
  have hMu : M *ᵥ u = Pi.single k 1 := by
    rw [hu', Matrix.mulVec_mulVec, Matrix.mul_nonsing_inv _ hdet, Matrix.one_mulVec]
  have huk : u k = M⁻¹ k k := by rw [hu']; simp
  set c : ℝ := v k / M⁻¹ k k with hc
  have hnn : 0 ≤ (v - c • u) ⬝ᵥ (M *ᵥ (v - c • u)) := by
    have := hM.posSemidef.dotProduct_mulVec_nonneg (v - c • u)
    simpa using this
  have e1 : u ⬝ᵥ (M *ᵥ v) = v k := by
    rw [Matrix.dotProduct_mulVec, ← Matrix.mulVec_transpose, hsymm, hMu]
    simp
  have e2 : v ⬝ᵥ (M *ᵥ u) = v k := by rw [hMu]; simp
  have e3 : u ⬝ᵥ (M *ᵥ u) = M⁻¹ k k := by rw [hMu]; simp [huk]
  rw [Matrix.mulVec_sub, Matrix.mulVec_smul, sub_dotProduct, dotProduct_sub, dotProduct_sub, smul_dotProduct,
    smul_dotProduct, dotProduct_smul, dotProduct_smul, e1, e2, e3] at hnn
  simp only [smul_eq_mul] at hnn
  have hcv : c * M⁻¹ k k = v k := by rw [hc]; field_simp
  rw [hcv] at hnn
  have : c * v k ≤ v ⬝ᵥ (M *ᵥ v) := by linarith
  have h2 := mul_le_mul_of_nonneg_left this hu.le
  calc v k ^ 2 = M⁻¹ k k * (c * v k) := by rw [← hcv]; ring
    _ ≤ _ := h2

/-- **C128.** Every weight is within `sqrt (2 d (G⁻¹)_kk)` of the optimal one, where `G` is the window Gram matrix. -/
theorem C128_weight_error {P : Panel τ n K} {returns : Dict τ (Vec n)} {c : Comb τ n K} (h : P.Gives returns c)
    (hlen : 2 ≤ P.len) (solver : Solver n K) (d : ℝ) (hs : solver.Near d) (window : Option ℕ) (times : Option (List τ))
    (a b : ℕ) (hreq : P.Request (effWindow window (P.len - 1)) times a b) (r : Result τ n K)
    (hr : some r ∈ (c.solve solver window times).items) (t : ℕ) (ht : t < P.len) (hrt : r.time = P.time t)
    (w : Vec K) (hw : P.Optimal (effWindow window (P.len - 1)) t w) (k : Fin K) :
    (r.weights k - w k) ^ 2 ≤ 2 * d * (P.gram (effWindow window (P.len - 1)) t)⁻¹ k k := by
  obtain ⟨_, hg, _⟩ := near_result h hlen hs window hreq hr ht hrt
  obtain ⟨h1, h2⟩ := coord_le hg (r.weights - w) k
  have h3 := C128_weights_close h hlen solver d hs window times a b hreq r hr t ht hrt w hw
  have h4 := mul_le_mul_of_nonneg_left h3 h1.le
  simp only [Pi.sub_apply] at h2
  linarith

private theorem continuousAt_inv {X : Type} [TopologicalSpace X] {A : X → Mat n} {x : X} (hA : ContinuousAt A x)
    (hd : (A x).det ≠ 0) : ContinuousAt (fun y => (A y)⁻¹) x := by
  have h1 : ContinuousAt (fun y => (A y).det) x :=
    (Continuous.matrix_det continuous_id).continuousAt.comp hA
  have h2 : ContinuousAt (fun y => (A y).adjugate) x :=
    (Continuous.matrix_adjugate continuous_id).continuousAt.comp hA
  have h3 := (h1.inv₀ hd).smul h2
  refine h3.congr (Filter.Eventually.of_forall fun y => ?_)
  show _ = (A y)⁻¹
  rw [Matrix.inv_def, Ring.inverse_eq_inv']
  rfl

private theorem continuous_factor (S : Fin K → Mat n) : Continuous fun w => blendFactor S w := by
  unfold blendFactor
  exact continuous_finsetSum _ fun k _ => (continuous_apply k).smul continuous_const

private theorem continuousAt_cov {S : Fin K → Mat n} (hS : ∀ k, (S k).PosDef) {w : Vec K} (hw : Simplex w) :
    ContinuousAt (fun v => blendCov S v) w := by
  have hd := det_ne_of_tri (blendFactor_lower hS w) (blendFactor_pos hS hw)
  refine continuousAt_inv (A := fun v => blendFactor S v * (blendFactor S v)ᵀ)
    ((continuous_factor S).matrix_mul (continuous_factor S).matrix_transpose).continuousAt ?_
  rw [Matrix.det_mul, Matrix.det_transpose]
  exact mul_ne_zero hd hd

private theorem continuousAt_mean {S : Fin K → Mat n} (hS : ∀ k, (S k).PosDef) (mu : Fin K → Vec n) {w : Vec K}
    (hw : Simplex w) : ContinuousAt (fun v => blendMean S mu v) w := by
  have hd := det_ne_of_tri (blendFactor_lower hS w) (blendFactor_pos hS hw)
  have h1 : ContinuousAt (fun v => (blendFactor S v)ᵀ⁻¹) w :=
    continuousAt_inv (A := fun v => (blendFactor S v)ᵀ) (continuous_factor S).matrix_transpose.continuousAt
      (by rw [Matrix.det_transpose]; exact hd)
  have h2 : Continuous fun v : Vec K => ∑ k, v k • ((precFactor (S k))ᵀ *ᵥ mu k) :=
    continuous_finsetSum _ fun k _ => (continuous_apply k).smul continuous_const
  have h3 : Continuous fun p : Mat n × Vec n => p.1 *ᵥ p.2 := continuous_fst.matrix_mulVec continuous_snd
  exact h3.continuousAt.comp (h1.prodMk h2.continuousAt)

/-- **C128.** The predictions converge: for every `e > 0` there is a tolerance `d > 0` such that every prediction (mean and
covariance) made with a solver of that tolerance is entrywise within `e` of the prediction made with an exact solver,
for all positions and whatever the request. -/
theorem C128_predictions_converge {P : Panel τ n K} {returns : Dict τ (Vec n)} {c : Comb τ n K} (h : P.Gives returns c)
    (hlen : 2 ≤ P.len) (window : Option ℕ) (e : ℝ) (he : 0 < e) :
    ∃ d, 0 < d ∧ ∀ (solver exact : Solver n K), solver.Near d → exact.Exact →
      ∀ (times times' : Option (List τ)) (a b a' b' : ℕ), P.Request (effWindow window (P.len - 1)) times a b →
      P.Request (effWindow window (P.len - 1)) times' a' b' →
      ∀ r r', some r ∈ (c.solve solver window times).items → some r' ∈ (c.solve exact window times').items →
      r.time = r'.time → (∀ i j, |r.covariance i j - r'.covariance i j| < e) ∧ ∀ i, |r.mean i - r'.mean i| < e := by
  set W := effWindow window (P.len - 1) with hW
  -- a tolerance for every position
  have hone : ∀ t : Fin P.len, ∃ d, 0 < d ∧ (W ≤ t → (P.gram W t).PosDef → ∀ w, Simplex w →
      (∀ k, (w k - P.best W t k) ^ 2 ≤ 2 * d * (P.gram W t)⁻¹ k k) →
      (∀ i j, |blendCov (P.cov t) w i j - blendCov (P.cov t) (P.best W t) i j| < e) ∧
        ∀ i, |blendMean (P.cov t) (P.mean t) w i - blendMean (P.cov t) (P.mean t) (P.best W t) i| < e) := by
    intro t
    by_cases hg : W ≤ t ∧ (P.gram W t).PosDef
    swap
    · exact ⟨1, one_pos, fun h1 h2 => absurd ⟨h1, h2⟩ hg⟩
    have hb := (best_optimal h.ok h.experts hg.1 t.2 hg.2).1
    have hpd := h.ok.posDef t t.2
    have hc : ContinuousAt (fun v => (blendCov (P.cov t) v, blendMean (P.cov t) (P.mean t) v)) (P.best W t) :=
      (continuousAt_cov hpd hb).prodMk (continuousAt_mean hpd _ hb)
    have hev : ∀ᶠ v in nhds (P.best W t),
        (∀ i j, |blendCov (P.cov t) v i j - blendCov (P.cov t) (P.best W t) i j| < e) ∧
        ∀ i, |blendMean (P.cov t) (P.mean t) v i - blendMean (P.cov t) (P.mean t) (P.best W t) i| < e := by
      refine Filter.Eventually.and ?_ ?_
      · refine Filter.eventually_all.2 fun i => Filter.eventually_all.2 fun j => ?_
        have : ContinuousAt (fun v => blendCov (P.cov t) v i j) (P.best W t) :=
          (continuous_id.matrix_elem i j).continuousAt.comp
            (f := fun v => blendCov (P.cov t) v) (continuousAt_cov hpd hb)
        exact (Metric.tendsto_nhds.1 this e he).mono fun v hv => by rwa [Real.dist_eq] at hv
      · refine Filter.eventually_all.2 fun i => ?_
        have : ContinuousAt (fun v => blendMean (P.cov t) (P.mean t) v i) (P.best W t) :=
          ((continuous_apply i).continuousAt).comp (continuousAt_mean hpd _ hb)
        exact (Metric.tendsto_nhds.1 this e he).mono fun v hv => by rwa [Real.dist_eq] at hv
    obtain ⟨eta, heta, hball⟩ := Metric.eventually_nhds_iff.1 hev
    have hS0 : 0 ≤ ∑ k, (P.gram W t)⁻¹ k k := Finset.sum_nonneg fun k _ => (coord_le hg.2 0 k).1.le
    refine ⟨eta ^ 2 / (4 * (1 + ∑ k, (P.gram W t)⁻¹ k k)), by positivity, fun _ _ w _ hw => hball ?_⟩
    rw [dist_pi_lt_iff heta]
    intro k
    rw [Real.dist_eq]
    refine abs_lt_of_sq_lt_sq ?_ heta.le
    refine lt_of_le_of_lt (hw k) ?_
    have hk : (P.gram W t)⁻¹ k k ≤ ∑ k, (P.gram W t)⁻¹ k k :=
      Finset.single_le_sum (f := fun k => (P.gram W t)⁻¹ k k) (fun j _ => (coord_le hg.2 0 j).1.le) (Finset.mem_univ k)
    have hpos : 0 < 1 + ∑ k, (P.gram W t)⁻¹ k k := by linarith
    have h2 : 0 < eta ^ 2 := by positivity
    rw [show 2 * (eta ^ 2 / (4 * (1 + ∑ k, (P.gram W t)⁻¹ k k))) * (P.gram W t)⁻¹ k k
      = eta ^ 2 * (P.gram W t)⁻¹ k k / (2 * (1 + ∑ k, (P.gram W t)⁻¹ k k)) by field_simp; ring, div_lt_iff₀ (by linarith)]
    nlinarith
  choose d hd0 hd using hone
  -- the smallest of them
  have hmin : ∃ m, 0 < m ∧ ∀ t, m ≤ d t := by
    have : 0 < P.len := by omega
    have : Nonempty (Fin P.len) := ⟨⟨0, this⟩⟩
    obtain ⟨t0, ht0⟩ := Finite.exists_min d
    exact ⟨d t0, hd0 t0, ht0⟩
  obtain ⟨m, hm0, hm⟩ := hmin
  refine ⟨m, hm0, fun solver exact hs hx times times' a b a' b' hreq hreq' r r' hr hr' hrr => ?_⟩
  obtain ⟨t, h1, h2, h3, h4, h5, hopt, hr1⟩ := exact_result h hlen hx window hreq' hr'
  have ht : t < P.len := by omega
  have hrt : r.time = P.time t := by rw [hrr, hr1]; rfl
  obtain ⟨_, _, hpr, hsx, _⟩ := near_result h hlen hs window hreq hr ht hrt
  have hbest := best_optimal h.ok h.experts h4 ht h5
  have herr := C128_weight_error h hlen solver m hs window times a b hreq r hr t ht hrt _ hbest
  have := hd ⟨t, ht⟩ h4 h5 r.weights hsx fun k => (herr k).trans
    (mul_le_mul_of_nonneg_right (by linarith [hm ⟨t, ht⟩]) (coord_le h5 0 k).1.le)
  rw [hpr, hr1]
  exact this

/-- The exact solver has every tolerance `d ≥ 0`; so the hypotheses of C127 and C128 are met in the demo. -/
theorem Solver.Exact.near {s : Solver n K} (h : s.Exact) {d : ℝ} (hd : 0 ≤ d) : s.Near d := fun hist p w hw =>
  ⟨(h hist p w hw).1, fun w' hw' => by have := (h hist p w hw).2 w' hw'; linarith⟩

example (k : Fin 2) : Demo.panel.marginal 2 3 (Demo.panel.best 2 3) k ≤ Demo.panel.average 2 3 (Demo.panel.best 2 3) :=
  (C127_solve Demo.panel_gives (by show 2 ≤ 4; norm_num) (exactSolver 2 2) exactSolver_exact (some 2) none _ _ .all
    (Demo.panel.predict 3 (Demo.panel.best 2 3)) (by rw [Demo.panel_solve]; simp) 3 (by show 3 < 4; norm_num) rfl).1 k

example : ∃ d, 0 < d ∧ ∀ (solver exact : Solver 2 2), solver.Near d → exact.Exact →
    ∀ (times times' : Option (List ℕ)) (a b a' b' : ℕ), Demo.panel.Request 2 times a b → Demo.panel.Request 2 times' a' b' →
    ∀ r r', some r ∈ ((Demo.panel.comb Demo.returns).solve solver (some 2) times).items →
      some r' ∈ ((Demo.panel.comb Demo.returns).solve exact (some 2) times').items → r.time = r'.time →
      (∀ i j, |r.covariance i j - r'.covariance i j| < 1 / 100) ∧ ∀ i, |r.mean i - r'.mean i| < 1 / 100 :=
  C128_predictions_converge Demo.panel_gives (by show 2 ≤ 4; norm_num) (some 2) (1 / 100) (by norm_num)

end CovPred
