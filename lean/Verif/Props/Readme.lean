import Verif.Lemmas.Readme
import Verif.Props.ReturnCombination4
import Mathlib.LinearAlgebra.FiniteDimensional.Lemmas

/-
Property C154: the experts of the second README example (`/repo/README.md:112-138`), pandas' exponentially weighted covariance.

The returns are the rows `x 0, ..., x (T-1)` with labels `tm`; `readmeFirst` is the first row with an expert.
-/
set_option linter.unusedSectionVars false
namespace CovPred
open Matrix

variable {τ : Type} [LinearOrder τ] {n K : ℕ}

/-- **C154.** The expert of a half-life has, for every row from the first with `min_periods` rows (at least two) on, the
unbiased covariance with weights that halve every half-life, and no entry for an earlier row; a half-life that is not positive
raises `ValueError`. -/
theorem C154_expert (hn : 0 < n) (m T : ℕ) (tm : ℕ → τ) (x : ℕ → Vec n) (h : ℝ) :
    (h ≤ 0 → readmeExpert (rowDict T tm x) m h = .error .valueError) ∧
    (0 < h → readmeExpert (rowDict T tm x) m h = .ok ((List.range' (readmeFirst m) (T - readmeFirst m)).map fun t =>
      (tm t, halflifeCov h x t))) :=
  ⟨fun hh => by unfold readmeExpert; rw [if_pos hh], fun hh => readmeExpert_spec hn hh m T tm x⟩

theorem halflifeAverage_comb (h : ℝ) (x : ℕ → Vec n) (t : ℕ) (w : Vec n) :
    halflifeAverage h (fun s => w ⬝ᵥ x s) t = ∑ i, w i * halflifeAverage h (fun s => x s i) t := by
  simp only [halflifeAverage_eq, emaAvg, dotProduct]
  simp only [Finset.mul_sum]
  rw [Finset.sum_comm, Finset.sum_div]
  apply Finset.sum_congr rfl
  intro i _
  rw [← mul_div_assoc, Finset.mul_sum]
  congr 1
  exact Finset.sum_congr rfl fun u _ => by ring

/-- **C154.** The variance that the matrix gives a portfolio is the variance (C121) of the returns of the portfolio. -/
theorem C154_portfolio (h : ℝ) (x : ℕ → Vec n) (t : ℕ) (w : Vec n) :
    w ⬝ᵥ halflifeCov h x t *ᵥ w = halflifeVariance h (fun s => w ⬝ᵥ x s) t := by
  unfold halflifeVariance halflifeCov halfWeight
  rw [halflifeAverage_comb]
  simp only [dotProduct, mulVec, Matrix.of_apply]
  have e : ∀ u, (∑ i, w i * x u i - ∑ i, w i * halflifeAverage h (fun s => x s i) t) ^ 2
      = ∑ i, ∑ j, w i * w j * ((x u i - halflifeAverage h (fun s => x s i) t) * (x u j - halflifeAverage h (fun s => x s j) t)) := by
    intro u
    rw [← Finset.sum_sub_distrib, sq, Finset.sum_mul_sum]
    exact Finset.sum_congr rfl fun i _ => Finset.sum_congr rfl fun j _ => by ring
  simp only [e]
  generalize (∑ u ∈ Finset.range (t + 1), (2 : ℝ) ^ (-((t - u : ℕ) : ℝ) / h) -
      (∑ u ∈ Finset.range (t + 1), ((2 : ℝ) ^ (-((t - u : ℕ) : ℝ) / h)) ^ 2)
        / ∑ u ∈ Finset.range (t + 1), (2 : ℝ) ^ (-((t - u : ℕ) : ℝ) / h)) = D
  simp only [Finset.mul_sum, Finset.sum_div, Finset.sum_mul]
  rw [Finset.sum_comm]
  have e2 : ∀ (f : ℕ → Fin n → Fin n → ℝ), ∑ u ∈ Finset.range (t + 1), ∑ i, ∑ j, f u i j
      = ∑ j, ∑ i, ∑ u ∈ Finset.range (t + 1), f u i j := by
    intro f
    rw [Finset.sum_comm (s := Finset.univ) (t := Finset.univ), Finset.sum_comm]
    exact Finset.sum_congr rfl fun i _ => Finset.sum_comm
  rw [e2]
  exact Finset.sum_congr rfl fun i _ => Finset.sum_congr rfl fun j _ => Finset.sum_congr rfl fun u _ => by ring

/-- **C154.** The diagonal has the variances of the assets. -/
theorem C154_diagonal (h : ℝ) (x : ℕ → Vec n) (t : ℕ) (i : Fin n) :
    halflifeCov h x t i i = halflifeVariance h (fun s => x s i) t := by
  unfold halflifeVariance halflifeCov halfWeight
  simp only [Matrix.of_apply, sq]

theorem hcov_isHermitian (h : ℝ) (x : ℕ → Vec n) (t : ℕ) : (halflifeCov h x t).IsHermitian := by
  ext i j
  exact halflifeCov_symm h x t j i

/-- **C154.** It is positive semidefinite, and positive definite exactly if no portfolio but the empty one has had the same
return on all rows so far. -/
theorem C154_psd (h : ℝ) (x : ℕ → Vec n) {t : ℕ} (ht : 1 ≤ t) :
    (halflifeCov h x t).PosSemidef ∧
    ((halflifeCov h x t).PosDef ↔ ∀ w : Vec n, (∀ u ≤ t, w ⬝ᵥ x u = w ⬝ᵥ x 0) → w = 0) := by
  have hz : ∀ w : Vec n, 0 ≤ w ⬝ᵥ halflifeCov h x t *ᵥ w ∧ (w ⬝ᵥ halflifeCov h x t *ᵥ w = 0 ↔ ∀ u ≤ t, w ⬝ᵥ x u = w ⬝ᵥ x 0) := by
    intro w
    rw [C154_portfolio]
    obtain ⟨h1, h2, _⟩ := C121_facts h (fun s => w ⬝ᵥ x s) ht
    exact ⟨h1, by rw [← h2, Real.sqrt_eq_zero h1]⟩
  refine ⟨Matrix.PosSemidef.of_dotProduct_mulVec_nonneg (hcov_isHermitian h x t) fun w => ?_, ?_⟩
  · simpa using (hz w).1
  · constructor
    · intro hp w hw
      by_contra hne
      have := hp.dotProduct_mulVec_pos hne
      simp only [star_trivial] at this
      rw [(hz w).2.mpr hw] at this
      exact lt_irrefl _ this
    · intro hall
      refine Matrix.PosDef.of_dotProduct_mulVec_pos (hcov_isHermitian h x t) fun w hw => ?_
      simp only [star_trivial]
      exact lt_of_le_of_ne (hz w).1 fun h0 => hw (hall w ((hz w).2.mp h0.symm))

/-- **C154.** A covariance of no more rows than assets is not positive definite. -/
theorem C154_singular (h : ℝ) (x : ℕ → Vec n) {t : ℕ} (ht : 1 ≤ t) (htn : t < n) : ¬ (halflifeCov h x t).PosDef := by
  rw [(C154_psd h x ht).2]
  intro hall
  let f : Vec n →ₗ[ℝ] (Fin t → ℝ) :=
    { toFun := fun w u => w ⬝ᵥ (x (u + 1) - x 0)
      map_add' := fun a b => by funext u; simp [add_dotProduct]; ring
      map_smul' := fun c a => by funext u; simp [smul_dotProduct]; ring }
  obtain ⟨w, hw, hne⟩ := Submodule.ne_bot_iff _ |>.mp (LinearMap.ker_ne_bot_of_finrank_lt (f := f) (by simpa using htn))
  apply hne
  apply hall
  intro u hu
  rcases u with _ | u
  · rfl
  · have := congrFun (LinearMap.mem_ker.mp hw) ⟨u, by omega⟩
    have h2 : w ⬝ᵥ (x (u + 1) - x 0) = 0 := this
    rw [dotProduct_sub] at h2
    linarith

/-- **C154.** So the README example with `min_periods` at most the number of assets (and no fewer rows) raises `LinAlgError`
(it takes five times the number of assets). -/
theorem C154_min_periods (hn : 0 < n) (hK : 0 < K) {solver : Solver n K} {halflives : Fin K → ℝ} (hh : ∀ k, 0 < halflives k)
    {m window T : ℕ} {tm : ℕ → τ} (x : ℕ → Vec n) (hm : readmeFirst m < n) (hT : readmeFirst m < T) :
    readmePredictors solver halflives m window (rowDict T tm x) = .error .linAlgError := by
  unfold readmePredictors
  have hsig : (finM fun i => readmeExpert (rowDict T tm x) m (halflives i)) = .ok fun i =>
      (List.range' (readmeFirst m) (T - readmeFirst m)).map fun t => (tm t, halflifeCov (halflives i) x t) := by
    apply finM_ok
    intro i
    exact readmeExpert_spec hn (hh i) m T tm x
  rw [hsig, ok_bind]
  have hbad : ∃ p ∈ (List.range' (readmeFirst m) (T - readmeFirst m)).map fun t => (tm t, halflifeCov (halflives ⟨0, hK⟩) x t),
      ¬ Usable p.2 := by
    refine ⟨_, List.mem_map.mpr ⟨readmeFirst m, by rw [List.mem_range'_1]; omega, rfl⟩, ?_⟩
    rw [C38_usable_iff _ (by ext a b; exact halflifeCov_symm _ _ _ _ _)]
    exact C154_singular _ _ (by unfold readmeFirst; omega) hm
  rcases hc : fromSigmas (fun i => (List.range' (readmeFirst m) (T - readmeFirst m)).map fun t =>
      (tm t, halflifeCov (halflives i) x t)) (rowDict T tm x) none with e | c
  · rcases C38_constructor_error _ _ _ _ hc with ⟨_, _, _, h, _⟩ | ⟨_, _, _, _, h, _⟩ | ⟨h, _⟩ | ⟨_, _, h, _⟩
    · cases h
    · cases h
    · rw [h]; rfl
    · obtain ⟨p, hp, h2⟩ := hbad
      exact absurd (h _ p hp) h2
  · obtain ⟨p, hp, h2⟩ := hbad
    exact absurd (((C38_constructor_ok _ _ _).mp ⟨c, hc⟩).2.1 _ p hp) h2

theorem halflifeAverage_affine (h : ℝ) (x : ℕ → ℝ) (c d : ℝ) (t : ℕ) :
    halflifeAverage h (fun s => d * x s + c) t = d * halflifeAverage h x t + c := by
  simp only [halflifeAverage_eq]
  have hw := wt_pos (betaOf_pos h) t
  have e : emaAvg (betaOf h) (fun s => d * x s + c) t * wt (betaOf h) t
      = (d * emaAvg (betaOf h) x t + c) * wt (betaOf h) t := by
    rw [emaAvg_wt (betaOf_pos h), add_mul, _root_.mul_assoc, emaAvg_wt (betaOf_pos h)]
    unfold wt
    rw [Finset.mul_sum, Finset.mul_sum, ← Finset.sum_add_distrib]
    exact Finset.sum_congr rfl fun u _ => by ring
  exact mul_right_cancel₀ hw.ne' e

/-- **C154.** A constant added to the returns of an asset changes nothing; a change of the unit of asset `i` by `d i` multiplies
the covariances by `d i * d j`. -/
theorem C154_affine (h : ℝ) (x : ℕ → Vec n) (c d : Vec n) (t : ℕ) :
    halflifeCov h (fun s i => d i * x s i + c i) t = Matrix.of fun i j => d i * halflifeCov h x t i j * d j := by
  ext i j
  unfold halflifeCov
  simp only [Matrix.of_apply, halflifeAverage_affine]
  rw [← mul_div_assoc, div_mul_eq_mul_div, Finset.mul_sum, Finset.sum_mul]
  congr 1
  exact Finset.sum_congr rfl fun u _ => by ring

theorem hcov_congr (h : ℝ) {x x' : ℕ → Vec n} {t : ℕ} (hx : ∀ u ≤ t, x u = x' u) : halflifeCov h x t = halflifeCov h x' t := by
  have ha : ∀ i, halflifeAverage h (fun s => x s i) t = halflifeAverage h (fun s => x' s i) t := by
    intro i
    simp only [halflifeAverage_eq, emaAvg]
    congr 1
    apply Finset.sum_congr rfl
    intro u hu
    rw [Finset.mem_range] at hu
    rw [hx u (by omega)]
  ext i j
  unfold halflifeCov
  simp only [Matrix.of_apply, ha]
  congr 1
  apply Finset.sum_congr rfl
  intro u hu
  rw [Finset.mem_range] at hu
  rw [hx u (by omega)]

/-- **C154.** With two rows it is half the outer product of their difference, whatever the half-life. -/
theorem C154_two_rows (h : ℝ) (x : ℕ → Vec n) (i j : Fin n) :
    halflifeCov h x 1 i j = (x 1 i - x 0 i) * (x 1 j - x 0 j) / 2 := by
  have q : ∀ w : Vec n, w ⬝ᵥ halflifeCov h x 1 *ᵥ w = (w ⬝ᵥ x 1 - w ⬝ᵥ x 0) ^ 2 / 2 := by
    intro w
    rw [C154_portfolio]
    have h1 := C121_two_rows h (fun s => w ⬝ᵥ x s)
    have h0 := (C121_facts h (fun s => w ⬝ᵥ x s) le_rfl).1
    rw [← Real.sq_sqrt h0, h1, div_pow, sq_abs, Real.sq_sqrt (by norm_num)]
  have hs := halflifeCov_symm h x 1 j i
  have qi := q (Pi.single i 1)
  have qj := q (Pi.single j 1)
  have qij := q (Pi.single i 1 + Pi.single j 1)
  simp only [mulVec_add, dotProduct_add, add_dotProduct, mulVec_single_one, single_one_dotProduct] at qi qj qij
  simp only [Matrix.col_apply] at qi qj qij
  rw [hs] at qij
  nlinarith

/-- The returns `(1,0), (0,1), (0,0), ...` of two assets: positive definite from the third row on. -/
example (h : ℝ) : (halflifeCov h (fun s : ℕ => if s = 0 then ![1, 0] else if s = 1 then ![0, 1] else (![0, 0] : Vec 2)) 2).PosDef := by
  rw [(C154_psd h _ (by norm_num)).2]
  intro w hw
  have h1 := hw 1 (by norm_num)
  have h2 := hw 2 (by norm_num)
  simp [dotProduct, Fin.sum_univ_two] at h1 h2
  funext i
  fin_cases i
  · simpa using h2.symm
  · simpa [h1] using h2.symm

/-- Ten rows, two assets, `min_periods = 2`: the example raises `LinAlgError`. -/
example (solver : Solver 2 2) (x : ℕ → Vec 2) :
    readmePredictors solver ![21, 63] 2 10 (rowDict 10 (id : ℕ → ℕ) x) = .error .linAlgError :=
  C154_min_periods (by norm_num) (by norm_num) (by intro k; fin_cases k <;> norm_num) x (by simp [readmeFirst]) (by simp [readmeFirst])

end CovPred
