import Verif.Spec.RandomScores
import Verif.Props.ExpUtils
import Verif.Props.Scores
import Verif.Lemmas.Ccp2
import Verif.Props.Random
import Mathlib.Probability.Moments.Variance

/-
Property C176: the scores with which the experiments compare predictions are proper.
-/
set_option linter.unusedSectionVars false
namespace CovPred
open MeasureTheory ProbabilityTheory Matrix

variable {n : ℕ} {Ω : Type} [MeasurableSpace Ω] {P : Measure Ω} [IsProbabilityMeasure P]

private theorem integrable_dev {R : Ω → Vec n} (hR : ∀ i, MemLp (fun ω => R ω i) 2 P) (m : Vec n) (i j : Fin n) :
    Integrable (fun ω => (R ω i - m i) * (R ω j - m j)) P :=
  ((hR i).sub (memLp_const (m i))).integrable_mul ((hR j).sub (memLp_const (m j)))

private theorem integral_sum2 {f : Fin n → Fin n → Ω → ℝ} (hf : ∀ i j, Integrable (f i j) P) :
    Integrable (fun ω => ∑ i, ∑ j, f i j ω) P ∧ ∫ ω, ∑ i, ∑ j, f i j ω ∂P = ∑ i, ∑ j, ∫ ω, f i j ω ∂P := by
  refine ⟨integrable_finsetSum _ fun i _ => integrable_finsetSum _ fun j _ => hf i j, ?_⟩
  rw [integral_finsetSum _ fun i _ => integrable_finsetSum _ fun j _ => hf i j]
  refine Finset.sum_congr rfl fun i _ => ?_
  rw [integral_finsetSum _ fun j _ => hf i j]

private theorem integral_add3 {f g h : Ω → ℝ} (hf : Integrable f P) (hg : Integrable g P) (hh : Integrable h P) (c : ℝ) :
    ∫ ω, (f ω + (g ω + h ω) + c) ∂P = ∫ ω, f ω ∂P + (∫ ω, g ω ∂P + ∫ ω, h ω ∂P) + c := by
  have h1 : Integrable (fun ω => g ω + h ω) P := hg.add hh
  have h2 : Integrable (fun ω => f ω + (g ω + h ω)) P := hf.add h1
  rw [integral_add h2 (integrable_const c), integral_add hf h1, integral_add hg hh, integral_const]
  simp

private theorem quad_sum (A : Mat n) (x : Vec n) : x ⬝ᵥ (A *ᵥ x) = ∑ i, ∑ j, A i j * (x i * x j) := by
  simp only [dotProduct, Matrix.mulVec, Finset.mul_sum]
  refine Finset.sum_congr rfl fun i _ => Finset.sum_congr rfl fun j _ => by ring

private theorem integrable_quad {R : Ω → Vec n} (hR : ∀ i, MemLp (fun ω => R ω i) 2 P) (m : Vec n) (A : Mat n) :
    Integrable (fun ω => (R ω - m) ⬝ᵥ (A *ᵥ (R ω - m))) P := by
  have := (integral_sum2 (P := P) (f := fun i j ω => A i j * ((R ω i - m i) * (R ω j - m j)))
    fun i j => (integrable_dev hR m i j).const_mul _).1
  simp only [quad_sum]
  exact this

private theorem integral_quad {R : Ω → Vec n} (hR : ∀ i, MemLp (fun ω => R ω i) 2 P) (m : Vec n) {A : Mat n}
    : ∫ ω, (R ω - m) ⬝ᵥ (A *ᵥ (R ω - m)) ∂P = (A * momentsAbout P R m).trace := by
  have h := (integral_sum2 (P := P) (f := fun i j ω => A i j * ((R ω i - m i) * (R ω j - m j)))
    fun i j => (integrable_dev hR m i j).const_mul _).2
  simp only [quad_sum]
  refine h.trans ?_
  rw [Matrix.trace]
  refine Finset.sum_congr rfl fun i _ => ?_
  rw [Matrix.diag_apply, Matrix.mul_apply]
  refine Finset.sum_congr rfl fun j _ => ?_
  rw [integral_const_mul]
  congr 1
  show _ = ∫ ω, (R ω j - m j) * (R ω i - m i) ∂P
  simp only [mul_comm]

private theorem integral_density {R : Ω → Vec n} (hR : ∀ i, MemLp (fun ω => R ω i) 2 P) (m : Vec n) (S : Mat n) :
    ∫ ω, gaussLogDensity m S (R ω) ∂P
      = -(n / 2 * Real.log (2 * Real.pi)) - 1 / 2 * Real.log S.det - 1 / 2 * (S⁻¹ * momentsAbout P R m).trace := by
  unfold gaussLogDensity
  rw [integral_sub (integrable_const _) ((integrable_quad hR m _).const_mul _), integral_const, integral_const_mul,
    integral_quad hR]
  simp

/-- the call for a single return is the log-density up to a constant -/
private theorem ll_eq {R : Ω → Vec n} {S : Mat n} (hS : S.PosDef) {m : Vec n} {scale : ℝ} (hs : 0 < scale) {ll : Ω → ℝ}
    (h : ∀ ω, logLikelihood [(R ω, S)] (some [m]) scale = .ok [ll ω]) :
    ll = fun ω => gaussLogDensity m S (R ω) - n * Real.log scale := by
  funext ω
  have := C73_log_likelihood 1 (fun _ => R ω) (fun _ => m) (fun _ => S) (fun _ _ => hS) hs
  have h2 : logLikelihood [(R ω, S)] (some [m]) scale = .ok [gaussLogDensity m S (R ω) - n * Real.log scale] := this
  rw [h ω] at h2
  simpa using h2

private theorem integrable_density {R : Ω → Vec n} (hR : ∀ i, MemLp (fun ω => R ω i) 2 P) (m : Vec n) (S : Mat n) :
    Integrable (fun ω => gaussLogDensity m S (R ω)) P := by
  unfold gaussLogDensity
  exact (integrable_const _).sub ((integrable_quad hR m _).const_mul _)

private theorem integral_ll {R : Ω → Vec n} (hR : ∀ i, MemLp (fun ω => R ω i) 2 P) {S : Mat n} (hS : S.PosDef) {m : Vec n}
    {scale : ℝ} (hs : 0 < scale) {ll : Ω → ℝ} (h : ∀ ω, logLikelihood [(R ω, S)] (some [m]) scale = .ok [ll ω]) :
    ∫ ω, ll ω ∂P = -(n / 2 * Real.log (2 * Real.pi)) - 1 / 2 * Real.log S.det
      - 1 / 2 * (S⁻¹ * momentsAbout P R m).trace - n * Real.log scale := by
  rw [ll_eq hS hs h, integral_sub (integrable_density hR m S) (integrable_const _), integral_density hR, integral_const]
  simp

private theorem log_det_inv {S : Mat n} (hS : S.PosDef) : Real.log S⁻¹.det = -Real.log S.det := by
  rw [Matrix.det_nonsing_inv, Ring.inverse_eq_inv', Real.log_inv]

/-- `log det S + tr(S⁻¹ M)` is least at `S = M` only -/
private theorem entropy {S M : Mat n} (hS : S.PosDef) (hM : M.PosDef) :
    Real.log M.det + (M⁻¹ * M).trace ≤ Real.log S.det + (S⁻¹ * M).trace ∧
    (Real.log S.det + (S⁻¹ * M).trace ≤ Real.log M.det + (M⁻¹ * M).trace → S = M) := by
  have h1 := log_det_mul_le_trace hS.inv hM
  rw [log_det_inv hS] at h1
  have huM := isUnit_iff_ne_zero.mpr hM.det_pos.ne'
  have huS := isUnit_iff_ne_zero.mpr hS.det_pos.ne'
  have h2 : (M⁻¹ * M).trace = n := by rw [Matrix.nonsing_inv_mul _ huM, Matrix.trace_one, Fintype.card_fin]
  rw [h2]
  refine ⟨by linarith, fun h => ?_⟩
  have h3 := eq_inv_of_log_det hS.inv hM (by rw [log_det_inv hS]; linarith)
  calc S = S * (S⁻¹ * M) := by rw [h3, mul_one]
    _ = M := by rw [← mul_assoc, Matrix.mul_nonsing_inv _ huS, one_mul]

/-- **C176.** `log_likelihood` is a proper score for covariances: for returns with any distribution (with finite second moments),
and predictions with the same mean vector `m`, the expected score is highest for the matrix of the true second moments about `m`
and for no other. (`m = 0`: the predictions without means.) -/
theorem C176_covariance {R : Ω → Vec n} (hR : ∀ i, MemLp (fun ω => R ω i) 2 P) {m : Vec n} (hM : (momentsAbout P R m).PosDef)
    {S : Mat n} (hS : S.PosDef) {scale : ℝ} (hs : 0 < scale) {ll best : Ω → ℝ}
    (h : ∀ ω, logLikelihood [(R ω, S)] (some [m]) scale = .ok [ll ω])
    (hbest : ∀ ω, logLikelihood [(R ω, momentsAbout P R m)] (some [m]) scale = .ok [best ω]) :
    ∫ ω, ll ω ∂P ≤ ∫ ω, best ω ∂P ∧ (∫ ω, ll ω ∂P = ∫ ω, best ω ∂P → S = momentsAbout P R m) := by
  rw [integral_ll hR hS hs h, integral_ll hR hM hs hbest]
  obtain ⟨h1, h2⟩ := entropy hS hM
  exact ⟨by linarith, fun he => h2 (by linarith)⟩

private theorem moments_shift {R : Ω → Vec n} (hR : ∀ i, MemLp (fun ω => R ω i) 2 P) (m : Vec n) :
    momentsAbout P R m = momentsAbout P R (expectedReturn P R) + dyad (expectedReturn P R - m) := by
  ext i j
  set mu := expectedReturn P R with hmu
  have hz : ∀ i, ∫ ω, (R ω i - mu i) ∂P = 0 := fun i => by
    rw [integral_sub ((hR i).integrable (by norm_num)) (integrable_const _), integral_const]
    simp [hmu, expectedReturn]
  have hi : ∀ i, Integrable (fun ω => R ω i - mu i) P := fun i =>
    ((hR i).integrable (by norm_num)).sub (integrable_const _)
  show ∫ ω, (R ω i - m i) * (R ω j - m j) ∂P
    = (∫ ω, (R ω i - mu i) * (R ω j - mu j) ∂P) + (mu i - m i) * (mu j - m j)
  have e : (fun ω => (R ω i - m i) * (R ω j - m j)) = fun ω => ((R ω i - mu i) * (R ω j - mu j)
      + ((mu i - m i) * (R ω j - mu j) + (mu j - m j) * (R ω i - mu i))) + (mu i - m i) * (mu j - m j) := by
    funext ω; ring
  have h3 := integral_add3 (integrable_dev hR mu i j) ((hi j).const_mul (mu i - m i)) ((hi i).const_mul (mu j - m j))
    ((mu i - m i) * (mu j - m j))
  rw [integral_const_mul, integral_const_mul, hz, hz] at h3
  rw [e]
  refine h3.trans ?_
  ring

private theorem trace_dyad (A : Mat n) (x : Vec n) : (A * dyad x).trace = x ⬝ᵥ (A *ᵥ x) := by
  rw [quad_sum, Matrix.trace]
  refine Finset.sum_congr rfl fun i _ => ?_
  rw [Matrix.diag_apply, Matrix.mul_apply]
  refine Finset.sum_congr rfl fun j _ => ?_
  show A i j * (x j * x i) = _
  ring

/-- **C176.** `log_likelihood` is a proper score for means and covariances: among all pairs of a vector and a positive definite
matrix the expected score is highest for the true mean and the true covariance, and for no other pair. -/
theorem C176_mean_covariance {R : Ω → Vec n} (hR : ∀ i, MemLp (fun ω => R ω i) 2 P)
    (hM : (momentsAbout P R (expectedReturn P R)).PosDef) {m : Vec n} {S : Mat n} (hS : S.PosDef) {scale : ℝ} (hs : 0 < scale)
    {ll best : Ω → ℝ} (h : ∀ ω, logLikelihood [(R ω, S)] (some [m]) scale = .ok [ll ω])
    (hbest : ∀ ω, logLikelihood [(R ω, momentsAbout P R (expectedReturn P R))] (some [expectedReturn P R]) scale = .ok [best ω]) :
    ∫ ω, ll ω ∂P ≤ ∫ ω, best ω ∂P ∧
    (∫ ω, ll ω ∂P = ∫ ω, best ω ∂P → m = expectedReturn P R ∧ S = momentsAbout P R (expectedReturn P R)) := by
  rw [integral_ll hR hS hs h, integral_ll hR hM hs hbest]
  obtain ⟨h1, h2⟩ := entropy hS hM
  rw [moments_shift hR m, Matrix.mul_add, Matrix.trace_add, trace_dyad]
  have hnn : 0 ≤ (expectedReturn P R - m) ⬝ᵥ (S⁻¹ *ᵥ (expectedReturn P R - m)) := by
    have := hS.inv.posSemidef.dotProduct_mulVec_nonneg (expectedReturn P R - m)
    simpa using this
  refine ⟨by linarith, fun he => ?_⟩
  have hzero : (expectedReturn P R - m) ⬝ᵥ (S⁻¹ *ᵥ (expectedReturn P R - m)) = 0 := by linarith
  refine ⟨?_, h2 (by linarith)⟩
  by_contra hne
  have hx : expectedReturn P R - m ≠ 0 := fun h0 => hne (sub_eq_zero.mp h0).symm
  have := hS.inv.dotProduct_mulVec_pos hx
  simp only [star_trivial] at this
  linarith

/-- **C176.** `MSE` is a proper score too: the expected error of a prediction is that of the true second moments plus the squared
Frobenius distance to them. -/
theorem C176_mse {τ : Type} [LinearOrder τ] (hn : 0 < n) {R : Ω → Vec n} (hR : ∀ i j, MemLp (fun ω => R ω i * R ω j) 2 P)
    {t0 t1 : τ} (ht : t0 < t1) (r0 : NRow n) (S : Mat n) {e best : Ω → ℝ}
    (h : ∀ ω, mse [(t0, r0), (t1, fun i => some (R ω i))] [(t0, S)] = .ok [(t0, some (e ω))])
    (hbest : ∀ ω, mse [(t0, r0), (t1, fun i => some (R ω i))] [(t0, momentsAbout P R 0)] = .ok [(t0, some (best ω))]) :
    ∫ ω, e ω ∂P = ∫ ω, best ω ∂P + frob (S - momentsAbout P R 0) := by
  have key : ∀ (S : Mat n) (e : Ω → ℝ) (_ : ∀ ω, mse [(t0, r0), (t1, fun i => some (R ω i))] [(t0, S)] = .ok [(t0, some (e ω))]),
      e = fun ω => ∑ i, ∑ j, (S i j - R ω i * R ω j) ^ 2 := by
    intro S e h
    funext ω
    have hne : ¬ t1 = t0 := ht.ne'
    have h3 : mse [(t0, r0), (t1, fun i => some (R ω i))] [(t0, S)]
        = .ok [(t0, some (Real.sqrt (∑ i, ∑ j, (S i j - outerR (R ω) i j) ^ 2) ^ 2))] := by
      unfold mse shiftBack
      simp [List.lookup]
    rw [h ω] at h3
    have h4 : e ω = Real.sqrt (∑ i, ∑ j, (S i j - outerR (R ω) i j) ^ 2) ^ 2 := by simpa using h3
    rw [h4, Real.sq_sqrt (Finset.sum_nonneg fun i _ => Finset.sum_nonneg fun j _ => sq_nonneg _)]
    rfl
  rw [key S e h, key _ best hbest]
  have hsq : ∀ (c : ℝ) i j, Integrable (fun ω => (c - R ω i * R ω j) ^ 2) P := fun c i j =>
    ((memLp_const c).sub (hR i j)).integrable_sq
  have hM : ∀ i j, momentsAbout P R 0 i j = ∫ ω, R ω i * R ω j ∂P := fun i j => by simp [momentsAbout]
  have hone : ∀ i j, ∫ ω, (S i j - R ω i * R ω j) ^ 2 ∂P
      = ∫ ω, (momentsAbout P R 0 i j - R ω i * R ω j) ^ 2 ∂P + (S i j - momentsAbout P R 0 i j) ^ 2 := by
    intro i j
    have hi : Integrable (fun ω => R ω i * R ω j) P := (hR i j).integrable (by norm_num)
    have key2 : ∀ s c : ℝ, c = ∫ ω, R ω i * R ω j ∂P → ∫ ω, (s - R ω i * R ω j) ^ 2 ∂P
        = ∫ ω, (c - R ω i * R ω j) ^ 2 ∂P + (s - c) ^ 2 := by
      intro s c hc
      have hd : Integrable (fun ω => c - R ω i * R ω j) P := (integrable_const c).sub hi
      have e1 : (fun ω => (s - R ω i * R ω j) ^ 2)
          = fun ω => (c - R ω i * R ω j) ^ 2 + (2 * (s - c) * (c - R ω i * R ω j) + 0 * (c - R ω i * R ω j)) + (s - c) ^ 2 := by
        funext ω; ring
      have h3 := integral_add3 (hsq c i j) (hd.const_mul (2 * (s - c))) (hd.const_mul 0) ((s - c) ^ 2)
      rw [integral_const_mul, integral_const_mul, integral_sub (integrable_const c) hi, integral_const, ← hc] at h3
      rw [e1]
      refine h3.trans ?_
      simp
    exact key2 _ _ (hM i j)
  have f1 := (integral_sum2 (P := P) (f := fun i j ω => (S i j - R ω i * R ω j) ^ 2) fun i j => hsq _ i j).2
  have f2 := (integral_sum2 (P := P) (f := fun i j ω => (momentsAbout P R 0 i j - R ω i * R ω j) ^ 2) fun i j => hsq _ i j).2
  refine f1.trans ?_
  refine Eq.trans ?_ (congrArg (· + frob (S - momentsAbout P R 0)) f2.symm)
  unfold frob
  rw [← Finset.sum_add_distrib]
  refine Finset.sum_congr rfl fun i _ => ?_
  rw [← Finset.sum_add_distrib]
  exact Finset.sum_congr rfl fun j _ => hone i j

end CovPred

namespace CovPred.RandomEx
open MeasureTheory ProbabilityTheory

/-- two independent returns, 1 or 2 each -/
noncomputable def R (ω : Fin 4) : Vec 2 := fun i => X ω i 0

theorem mean_eq : expectedReturn P R = fun _ => 3 / 2 := by
  funext i
  unfold expectedReturn
  rw [integral_eq]
  fin_cases i <;> norm_num [R, X]

theorem cov_eq : momentsAbout P R (expectedReturn P R) = Matrix.diagonal fun _ => 1 / 4 := by
  rw [mean_eq]
  ext i j
  show ∫ ω, (R ω i - 3 / 2) * (R ω j - 3 / 2) ∂P = _
  rw [integral_eq]
  fin_cases i <;> fin_cases j <;> norm_num [R, X, Matrix.diagonal]

theorem cov_posDef : (momentsAbout P R (expectedReturn P R)).PosDef := by
  rw [cov_eq]
  exact Matrix.PosDef.diagonal fun _ => by norm_num

/-- the hypotheses of `C176_covariance` and `C176_mean_covariance` hold for these returns, whatever the competing prediction -/
example (m : Vec 2) (S : Mat 2) (hS : S.PosDef) : (∀ i, MemLp (fun ω => R ω i) 2 P) ∧
    (momentsAbout P R (expectedReturn P R)).PosDef ∧
    (∃ ll : Fin 4 → ℝ, ∀ ω, logLikelihood [(R ω, S)] (some [m]) 1 = .ok [ll ω]) ∧
    ∃ best : Fin 4 → ℝ, ∀ ω,
      logLikelihood [(R ω, momentsAbout P R (expectedReturn P R))] (some [expectedReturn P R]) 1 = .ok [best ω] :=
  ⟨fun _ => memLp _, cov_posDef,
    ⟨_, fun ω => C73_log_likelihood 1 (fun _ => R ω) (fun _ => m) (fun _ => S) (fun _ _ => hS) one_pos⟩,
    ⟨_, fun ω => C73_log_likelihood 1 (fun _ => R ω) (fun _ => expectedReturn P R)
      (fun _ => momentsAbout P R (expectedReturn P R)) (fun _ _ => cov_posDef) one_pos⟩⟩

/-- and those of `C176_mse` -/
example (S : Mat 2) : (∀ i j, MemLp (fun ω => R ω i * R ω j) 2 P) ∧
    ∃ e : Fin 4 → ℝ, ∀ ω, mse [((0 : ℕ), fun _ => none), (1, fun i => some (R ω i))] [(0, S)] = .ok [(0, some (e ω))] :=
  ⟨fun _ _ => memLp _, ⟨fun ω => Real.sqrt (∑ i, ∑ j, (S i j - outerR (R ω) i j) ^ 2) ^ 2, fun ω => by
    unfold mse shiftBack
    simp [List.lookup]⟩⟩

end CovPred.RandomEx
