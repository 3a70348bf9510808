import Verif.Props.CombExamples

/-
Properties C22-C26 and C38 of `combination.py`: the constructor and what every single result looks like.
They hold for arbitrary dictionaries of experts.
-/
namespace CovPred
open Matrix

set_option linter.unusedSectionVars false

variable {τ : Type} [LinearOrder τ] {n K : ℕ}

/-! ### C22 -/

/-- **C22.** Every result of `solve` carries weights on the simplex, if the solver respects the constraints of the
problem. -/
theorem C22_weights_simplex (c : Comb τ n K) (solver : Solver n K) (hs : solver.Feasible) (window : Option ℕ)
    (times : Option (List τ)) (r : Result τ n K) (hr : some r ∈ (c.solve solver window times).items) :
    Simplex r.weights := by
  obtain ⟨hist, p, h, _⟩ := solve_mem hr
  exact hs hist p _ h

/-- The hypotheses of C22 are met in the demo: there is a result. -/
example : ∃ r, some r ∈ ((Demo.panel.comb Demo.returns).solve (exactSolver 2 2) (some 2) none).items ∧
    Simplex r.weights := by
  refine ⟨Demo.panel.predict 2 (Demo.panel.best 2 2), by rw [Demo.panel_solve]; simp, ?_⟩
  exact C22_weights_simplex _ _ exactSolver_exact.feasible (some 2) none _ (by rw [Demo.panel_solve]; simp)

/-! ### C24 -/

/-- What a result is made of: at its time every expert has a usable covariance, whose precision factor is the Cholesky
factor of the inverse (`symLower` is the identity on symmetric matrices), and the covariance of the result is the
inverse of the blended factor times its transpose. -/
theorem result_factors {sigmas : Fin K → Dict τ (Mat n)} {returns : Dict τ (Vec n)}
    {means : Option (Fin K → Option (Dict τ (Vec n)))} {c : Comb τ n K} (h : fromSigmas sigmas returns means = .ok c)
    {solver : Solver n K} {window : Option ℕ} {times : Option (List τ)} {r : Result τ n K}
    (hr : some r ∈ (c.solve solver window times).items) :
    ∃ (S : Fin K → Mat n) (L : Fin K → Mat n) (m : Fin K → Dict τ (Vec n)) (mu : Fin K → Vec n),
      checkMeans sigmas means = .ok m ∧
      (∀ k, (sigmas k).lookup r.time = some (S k)) ∧ (∀ k, IsChol (L k) (symLower (S k)⁻¹)) ∧
      (∀ k, (m k).lookup r.time = some (mu k)) ∧
      (∑ k, r.weights k • L k).det ≠ 0 ∧
      r.covariance = ((∑ k, r.weights k • L k) * (∑ k, r.weights k • L k)ᵀ)⁻¹ ∧
      (∑ k, r.weights k • L k)ᵀ *ᵥ r.mean = ∑ k, r.weights k • ((L k)ᵀ *ᵥ mu k) := by
  obtain ⟨m, hm, hrows⟩ := fromSigmas_rows h
  obtain ⟨_, _, _, t, x, hb⟩ := solve_mem hr
  obtain ⟨row, hrow, htime, _, hdet, hcov, hmean⟩ := blendAt_inv hb
  have hF := hrows row hrow
  choose S hS1 hS2 hS3 using hF.factor
  choose mu hmu1 hmu2 using hF.nu
  refine ⟨S, row.L, m, mu, hm, fun k => htime ▸ hS1 k, hS3, fun k => htime ▸ hmu1 k, hdet, hcov, ?_⟩
  rw [hmean]
  exact Finset.sum_congr rfl fun k _ => by rw [hmu2 k]

/-- **C24.** The Cholesky factor of the inverse of the result's covariance is the weighted sum of the Cholesky factors
of the inverses of the experts' covariances at the result's time. (The factor read by `numpy` is the one of the matrix
described by the lower triangle of the inverse; for a symmetric covariance this is the inverse itself, see the corollary
`C24_blended_factor_symm`.) -/
theorem C24_blended_factor {sigmas : Fin K → Dict τ (Mat n)} {returns : Dict τ (Vec n)}
    {means : Option (Fin K → Option (Dict τ (Vec n)))} {c : Comb τ n K} (h : fromSigmas sigmas returns means = .ok c)
    (solver : Solver n K) (hs : solver.Feasible) (window : Option ℕ) (times : Option (List τ)) (r : Result τ n K)
    (hr : some r ∈ (c.solve solver window times).items) :
    ∃ S L : Fin K → Mat n, (∀ k, (sigmas k).lookup r.time = some (S k)) ∧
      (∀ k, IsChol (L k) (symLower (S k)⁻¹)) ∧ IsChol (∑ k, r.weights k • L k) r.covariance⁻¹ := by
  have hw := C22_weights_simplex c solver hs window times r hr
  obtain ⟨S, L, m, mu, _, hS, hL, _, hdet, hcov, _⟩ := result_factors h hr
  refine ⟨S, L, hS, hL, lowerTri_sum (fun k => (hL k).lower) _, diag_sum_pos (fun k => (hL k).pos) hw, ?_⟩
  rw [hcov, Matrix.nonsing_inv_nonsing_inv]
  rw [Matrix.det_mul, Matrix.det_transpose]
  exact isUnit_iff_ne_zero.mpr (mul_ne_zero hdet hdet)

/-- **C24** for symmetric expert covariances. -/
theorem C24_blended_factor_symm {sigmas : Fin K → Dict τ (Mat n)} {returns : Dict τ (Vec n)}
    {means : Option (Fin K → Option (Dict τ (Vec n)))} {c : Comb τ n K} (h : fromSigmas sigmas returns means = .ok c)
    (hsymm : ∀ k t S, (sigmas k).lookup t = some S → Sᵀ = S)
    (solver : Solver n K) (hs : solver.Feasible) (window : Option ℕ) (times : Option (List τ)) (r : Result τ n K)
    (hr : some r ∈ (c.solve solver window times).items) :
    ∃ S L : Fin K → Mat n, (∀ k, (sigmas k).lookup r.time = some (S k)) ∧ (∀ k, IsChol (L k) (S k)⁻¹) ∧
      IsChol (∑ k, r.weights k • L k) r.covariance⁻¹ := by
  obtain ⟨S, L, hS, hL, hc⟩ := C24_blended_factor h solver hs window times r hr
  refine ⟨S, L, hS, fun k => ?_, hc⟩
  have := hL k
  rwa [symLower_of_symm (by rw [Matrix.transpose_nonsing_inv, hsymm k _ _ (hS k)])] at this

/-! ### C23 -/

/-- **C23.** The covariance of every result is symmetric and positive definite. -/
theorem C23_covariance_posDef {sigmas : Fin K → Dict τ (Mat n)} {returns : Dict τ (Vec n)}
    {means : Option (Fin K → Option (Dict τ (Vec n)))} {c : Comb τ n K} (h : fromSigmas sigmas returns means = .ok c)
    (solver : Solver n K) (window : Option ℕ) (times : Option (List τ)) (r : Result τ n K)
    (hr : some r ∈ (c.solve solver window times).items) :
    r.covarianceᵀ = r.covariance ∧ r.covariance.PosDef := by
  obtain ⟨S, L, m, mu, _, hS, hL, _, hdet, hcov, _⟩ := result_factors h hr
  have : r.covariance.PosDef := by rw [hcov]; exact (posDef_of_mul hdet).inv
  exact ⟨posDef_symm this, this⟩

/-- **C23**, totality: blending the experts at any time of the frame with any weights on the simplex never fails; the
covariance is symmetric and positive definite. -/
theorem C23_blend_total {sigmas : Fin K → Dict τ (Mat n)} {returns : Dict τ (Vec n)}
    {means : Option (Fin K → Option (Dict τ (Vec n)))} {c : Comb τ n K} (h : fromSigmas sigmas returns means = .ok c)
    (t : τ) (ht : t ∈ c.rows.map Row.time) (w : Vec K) (hw : Simplex w) :
    ∃ r, blendAt c.rows t w = .ok r ∧ r.covarianceᵀ = r.covariance ∧ r.covariance.PosDef := by
  obtain ⟨m, hm, hrows⟩ := fromSigmas_rows h
  unfold blendAt
  obtain ⟨row0, hrow0, htime0⟩ := List.mem_map.mp ht
  rcases hf : c.rows.find? (fun r => r.time = t) with _ | row
  · have := List.find?_eq_none.mp hf row0 hrow0
    simp [htime0] at this
  · have hF := hrows row (List.mem_of_find?_eq_some hf)
    choose S hS1 hS2 hS3 using hF.factor
    have hd : (∑ k, w k • row.L k).det ≠ 0 :=
      det_ne_of_tri (lowerTri_sum (fun k => (hS3 k).lower) w) (diag_sum_pos (fun k => (hS3 k).pos) hw)
    rw [hf]
    simp only
    rw [inv?_of_ne (by rwa [Matrix.det_transpose]), inv?_of_ne (by
      rw [Matrix.det_mul, Matrix.det_transpose]; exact mul_ne_zero hd hd)]
    have hp : ((∑ k, w k • row.L k) * (∑ k, w k • row.L k)ᵀ)⁻¹.PosDef := (posDef_of_mul hd).inv
    exact ⟨_, rfl, posDef_symm hp, hp⟩

/-- **C23**, no failure: with a solver whose weights are on the simplex and that raises no `LinAlgError` itself, a `LinAlgError` of `solve`
comes before the solver is called: the same call with any other solver ends in the same way, without a result. -/
theorem C23_no_failure {sigmas : Fin K → Dict τ (Mat n)} {returns : Dict τ (Vec n)}
    {means : Option (Fin K → Option (Dict τ (Vec n)))} {c : Comb τ n K} (h : fromSigmas sigmas returns means = .ok c)
    (solver : Solver n K) (hs : solver.Feasible) (hr : ∀ hist, solver hist ≠ .raises .linAlgError) (window : Option ℕ)
    (times : Option (List τ)) (he : (c.solve solver window times).err = some .linAlgError) (solver' : Solver n K) :
    c.solve solver' window times = ⟨[], some .linAlgError⟩ := by
  unfold Comb.solve at he ⊢
  rcases hp : solvePrep c window times with e | ⟨w, ps⟩
  · rw [hp] at he
    obtain rfl : e = .linAlgError := by simpa using he
    rfl
  · rw [hp] at he
    simp only at he
    exfalso
    have key : ∀ (ps : List (τ × Params n K)) (hist : List (Params n K)),
        (solveLoop solver c.rows w hist ps).err ≠ some .linAlgError := by
      intro ps
      induction ps with
      | nil => intro hist; simp [solveLoop]
      | cons tp rest ih =>
        intro hist
        obtain ⟨t, p⟩ := tp
        unfold solveLoop
        split
        · simp
        · dsimp only
          split
          · rename_i e he'
            intro h2
            obtain rfl : e = .linAlgError := by simpa using h2
            exact hr _ he'
          · exact ih _
          · rename_i x hx
            split
            · rename_i e hb
              intro h2
              obtain rfl : e = .linAlgError := by simpa using h2
              by_cases ht : t ∈ c.rows.map Row.time
              · obtain ⟨r, hr', _⟩ := C23_blend_total h t ht x (hs _ _ _ hx)
                rw [hr'] at hb
                cases hb
              · unfold blendAt at hb
                rw [List.find?_eq_none.mpr fun r hr' h3 => ht (List.mem_map.mpr ⟨r, hr', by simpa using h3⟩)] at hb
                cases hb
            · exact ih _
    exact key ps [] he

/-- The hypotheses of C23, C24 are met in the demo. -/
example : (Demo.panel.predict 3 (Demo.panel.best 2 3)).covariance.PosDef :=
  (C23_covariance_posDef (fromSigmas_panel Demo.panel_ok (by norm_num) Demo.returns) (exactSolver 2 2) (some 2) none _
    (by rw [Demo.panel_solve]; simp)).2

example : ∃ r, blendAt (Demo.panel.comb Demo.returns).rows 1 (![1 / 3, 2 / 3] : Vec 2) = .ok r ∧
    r.covarianceᵀ = r.covariance ∧ r.covariance.PosDef :=
  C23_blend_total (fromSigmas_panel Demo.panel_ok (by norm_num) Demo.returns) 1
    (List.mem_map.mpr ⟨Demo.panel.row 1, List.mem_map.mpr ⟨1, List.mem_range.mpr (by show 1 < 4; norm_num), rfl⟩, rfl⟩) _
    ⟨fun k => by fin_cases k <;> norm_num, by norm_num [Fin.sum_univ_two]⟩

/-! ### C26 -/

/-- **C26.** The mean `m` of a result solves `Lᵀ m = ∑ w_k L_kᵀ mu_k`, where `L = ∑ w_k L_k` is the Cholesky factor of
the inverse of its covariance and `mu_k` is the mean expert `k` gives for that time. -/
theorem C26_mean {sigmas : Fin K → Dict τ (Mat n)} {returns : Dict τ (Vec n)}
    {means : Fin K → Dict τ (Vec n)} {c : Comb τ n K}
    (h : fromSigmas sigmas returns (some fun k => some (means k)) = .ok c)
    (solver : Solver n K) (hs : solver.Feasible) (window : Option ℕ) (times : Option (List τ)) (r : Result τ n K)
    (hr : some r ∈ (c.solve solver window times).items) :
    ∃ (S L : Fin K → Mat n) (mu : Fin K → Vec n), (∀ k, (sigmas k).lookup r.time = some (S k)) ∧
      (∀ k, IsChol (L k) (symLower (S k)⁻¹)) ∧ (∀ k, (means k).lookup r.time = some (mu k)) ∧
      IsChol (∑ k, r.weights k • L k) r.covariance⁻¹ ∧
      (∑ k, r.weights k • L k)ᵀ *ᵥ r.mean = ∑ k, r.weights k • ((L k)ᵀ *ᵥ mu k) := by
  have hw := C22_weights_simplex c solver hs window times r hr
  obtain ⟨S, L, m, mu, hm, hS, hL, hmu, hdet, hcov, hmean⟩ := result_factors h hr
  have hmm : ∀ k, m k = means k := by
    intro k
    rcases (checkMeans_ok hm k).2 with ⟨h', _⟩ | ⟨ms, h', h''⟩
    · cases h'
    · cases h'; injection h'' with h''; exact h''.symm
  refine ⟨S, L, mu, hS, hL, fun k => by rw [← hmm k]; exact hmu k,
    ⟨lowerTri_sum (fun k => (hL k).lower) _, diag_sum_pos (fun k => (hL k).pos) hw, ?_⟩, hmean⟩
  rw [hcov, Matrix.nonsing_inv_nonsing_inv]
  rw [Matrix.det_mul, Matrix.det_transpose]
  exact isUnit_iff_ne_zero.mpr (mul_ne_zero hdet hdet)

/-- **C26.** Without means the result's mean is zero. -/
theorem C26_mean_zero {sigmas : Fin K → Dict τ (Mat n)} {returns : Dict τ (Vec n)} {c : Comb τ n K}
    (h : fromSigmas sigmas returns none = .ok c) (solver : Solver n K) (window : Option ℕ)
    (times : Option (List τ)) (r : Result τ n K) (hr : some r ∈ (c.solve solver window times).items) : r.mean = 0 := by
  obtain ⟨S, L, m, mu, hm, hS, hL, hmu, hdet, hcov, hmean⟩ := result_factors h hr
  have hz : ∀ k, mu k = 0 := by
    intro k
    rcases (checkMeans_ok hm k).2 with ⟨_, h'⟩ | ⟨ms, h', _⟩
    · exact h' _ _ (hmu k)
    · cases h'
  have : (∑ k, r.weights k • L k)ᵀ *ᵥ r.mean = 0 := by
    rw [hmean]
    apply Finset.sum_eq_zero
    intro k _
    rw [hz k, Matrix.mulVec_zero, smul_zero]
  exact Matrix.eq_zero_of_mulVec_eq_zero (by rwa [Matrix.det_transpose]) this

/-- The hypotheses of C26 are met in the demo (whose second expert has a non-zero mean), and without means. -/
example : ∃ (S L : Fin 2 → Mat 2) (mu : Fin 2 → Vec 2), (∀ k, (Demo.panel.sigmas k).lookup 3 = some (S k)) ∧
    (∀ k, IsChol (L k) (symLower (S k)⁻¹)) ∧ (∀ k, (Demo.panel.means k).lookup 3 = some (mu k)) ∧ True := by
  obtain ⟨S, L, mu, h1, h2, h3, _⟩ := C26_mean (fromSigmas_panel Demo.panel_ok (by norm_num) Demo.returns)
    (exactSolver 2 2) exactSolver_exact.feasible (some 2) none (Demo.panel.predict 3 (Demo.panel.best 2 3))
    (by rw [Demo.panel_solve]; simp)
  exact ⟨S, L, mu, h1, h2, h3, trivial⟩

/-! ### C25 -/

/-- **C25.** If all experts predict the positive definite covariance `S` at the result's time, the result's covariance
is `S`, whatever the weights. -/
theorem C25_agreeing_covariance {sigmas : Fin K → Dict τ (Mat n)} {returns : Dict τ (Vec n)}
    {means : Option (Fin K → Option (Dict τ (Vec n)))} {c : Comb τ n K} (h : fromSigmas sigmas returns means = .ok c)
    (solver : Solver n K) (hs : solver.Feasible) (window : Option ℕ) (times : Option (List τ)) (r : Result τ n K)
    (hr : some r ∈ (c.solve solver window times).items)
    (S : Mat n) (hS : S.PosDef) (hag : ∀ k, (sigmas k).lookup r.time = some S) : r.covariance = S := by
  have hw := C22_weights_simplex c solver hs window times r hr
  obtain ⟨S', L, m, mu, _, hS', hL, _, hdet, hcov, _⟩ := result_factors h hr
  have hSS : ∀ k, S' k = S := fun k => by have := hS' k; rw [hag k] at this; cases this; rfl
  have hLL : ∀ k, L k = precFactor S := by
    intro k
    have := hL k
    rw [hSS k, symLower_of_symm (posDef_symm hS.inv)] at this
    exact this.unique (precFactor_isChol hS)
  have hsum : ∑ k, r.weights k • L k = precFactor S := by
    simp only [hLL]
    rw [← Finset.sum_smul, hw.sum_one, one_smul]
  rw [hcov, hsum, (precFactor_isChol hS).eq, Matrix.nonsing_inv_nonsing_inv _ (isUnit_iff_ne_zero.mpr hS.det_pos.ne')]

/-- **C25.** If moreover all experts predict the mean `mu`, the result's mean is `mu`. -/
theorem C25_agreeing_mean {sigmas : Fin K → Dict τ (Mat n)} {returns : Dict τ (Vec n)}
    {means : Fin K → Dict τ (Vec n)} {c : Comb τ n K}
    (h : fromSigmas sigmas returns (some fun k => some (means k)) = .ok c)
    (solver : Solver n K) (hs : solver.Feasible) (window : Option ℕ) (times : Option (List τ)) (r : Result τ n K)
    (hr : some r ∈ (c.solve solver window times).items)
    (mu : Vec n) (hmu : ∀ k, (means k).lookup r.time = some mu) : r.mean = mu := by
  obtain ⟨S', L, mu', _, hL, hmu', hchol, hmean⟩ := C26_mean h solver hs window times r hr
  have hmm : ∀ k, mu' k = mu := fun k => by have := hmu' k; rw [hmu k] at this; cases this; rfl
  have hdet : (∑ k, r.weights k • L k)ᵀ.det ≠ 0 := by rw [Matrix.det_transpose]; exact hchol.det_pos.ne'
  have : (∑ k, r.weights k • L k)ᵀ *ᵥ (r.mean - mu) = 0 := by
    rw [Matrix.mulVec_sub, hmean, Matrix.transpose_sum, Matrix.sum_mulVec]
    rw [sub_eq_zero]
    apply Finset.sum_congr rfl
    intro k _
    rw [hmm k, Matrix.transpose_smul, Matrix.smul_mulVec]
  exact sub_eq_zero.mp (Matrix.eq_zero_of_mulVec_eq_zero hdet this)

/-- **C25.** A single expert is returned unchanged. -/
theorem C25_single_expert {sigma : Dict τ (Mat n)} {mean : Dict τ (Vec n)} {returns : Dict τ (Vec n)} {c : Comb τ n 1}
    (h : fromSigmas (fun _ => sigma) returns (some fun _ => some mean) = .ok c)
    (hpd : ∀ p ∈ sigma, p.2.PosDef)
    (solver : Solver n 1) (hs : solver.Feasible) (window : Option ℕ) (times : Option (List τ)) (r : Result τ n 1)
    (hr : some r ∈ (c.solve solver window times).items) :
    sigma.lookup r.time = some r.covariance ∧ mean.lookup r.time = some r.mean ∧ r.weights = fun _ => 1 := by
  obtain ⟨S', L, mu', hS, hL, hmu', hchol, hmean⟩ := C26_mean h solver hs window times r hr
  have hmem : (r.time, S' 0) ∈ sigma := by
    have := hS 0
    obtain ⟨l1, l2, h1, _⟩ := List.lookup_eq_some_iff.mp this
    rw [h1]; simp
  have hcov := C25_agreeing_covariance h solver hs window times r hr (S' 0) (hpd _ hmem)
    (fun k => by have := hS k; rwa [Subsingleton.elim k 0] at *)
  have hm := C25_agreeing_mean h solver hs window times r hr (mu' 0)
    (fun k => by have := hmu' k; rwa [Subsingleton.elim k 0] at *)
  refine ⟨by rw [hcov]; exact hS 0, by rw [hm]; exact hmu' 0, ?_⟩
  funext k
  have := (C22_weights_simplex c solver hs window times r hr).sum_one
  rw [Subsingleton.elim k 0]
  simpa using this

/-! ### C38 -/

/-- The means passed to `from_sigmas` are acceptable: none, or for every expert a dictionary with the same times. -/
def MeansMatch (sigmas : Fin K → Dict τ (Mat n)) : Option (Fin K → Option (Dict τ (Vec n))) → Prop
  | none => True
  | some means => ∀ k, ∃ m, means k = some m ∧ ∀ t, t ∈ m.keys ↔ t ∈ (sigmas k).keys

/-- All experts cover the same times. -/
def SameTimes (sigmas : Fin K → Dict τ (Mat n)) : Prop := ∀ k k' t, t ∈ (sigmas k).keys → t ∈ (sigmas k').keys

theorem checkMeans_iff {sigmas : Fin K → Dict τ (Mat n)} {means : Option (Fin K → Option (Dict τ (Vec n)))} :
    (∃ m, checkMeans sigmas means = .ok m) ↔ MeansMatch sigmas means := by
  cases means with
  | none => exact ⟨fun _ => trivial, fun _ => ⟨_, rfl⟩⟩
  | some ms =>
    constructor
    · rintro ⟨m, hm⟩ k
      rcases (checkMeans_ok hm k) with ⟨h1, ⟨h, _⟩ | ⟨ms', h, h'⟩⟩
      · cases h
      · cases h; exact ⟨_, h', fun t => (h1 t).symm⟩
    · intro h
      choose m hm1 hm2 using h
      refine ⟨m, ?_⟩
      unfold checkMeans
      apply finM_ok
      intro k
      simp only [hm1 k]
      rw [if_pos ⟨fun t ht => (hm2 k t).mpr ht, fun t ht => (hm2 k t).mp ht⟩]

/-- **C38.** `from_sigmas` succeeds exactly if the means match, all expert matrices are usable and all experts cover the
same times. -/
theorem C38_constructor_ok (sigmas : Fin K → Dict τ (Mat n)) (returns : Dict τ (Vec n))
    (means : Option (Fin K → Option (Dict τ (Vec n)))) :
    (∃ c, fromSigmas sigmas returns means = .ok c) ↔
      MeansMatch sigmas means ∧ (∀ k, ∀ p ∈ sigmas k, Usable p.2) ∧ SameTimes sigmas := by
  constructor
  · rintro ⟨c, hc⟩
    obtain ⟨m, Ls, h1, h2, h3, _⟩ := fromSigmas_inv hc
    refine ⟨checkMeans_iff.mp ⟨m, h1⟩, fun k => choleskyPrecision_ok.mp ⟨_, h2 k⟩, ?_⟩
    intro k k' t ht
    rw [← choleskyPrecision_keys (h2 k)] at ht
    have hmem : t ∈ frameIndex Ls := mem_frameIndex.mpr ⟨k, ht⟩
    obtain ⟨i, hi, rfl⟩ := List.getElem_of_mem hmem
    rw [List.forall₂_iff_get] at h3
    have := (frameRow_ok (h3.2 i hi (by rw [← h3.1]; exact hi))).2 k'
    rw [← choleskyPrecision_keys (h2 k')]
    by_contra hno
    rw [← lookup_none_iff] at hno
    have h4 := this.1
    simp only [List.get_eq_getElem] at h4
    rw [hno] at h4
    cases h4
  · rintro ⟨h1, h2, h3⟩
    obtain ⟨m, hm⟩ := checkMeans_iff.mpr h1
    have hL : ∀ k, ∃ d', choleskyPrecision (sigmas k) = .ok d' := fun k => choleskyPrecision_ok.mpr (h2 k)
    choose Ls hLs using hL
    unfold fromSigmas
    rw [hm, ok_bind, finM_ok _ _ hLs, ok_bind]
    have hrow : ∀ t, ∃ row, t ∈ frameIndex Ls → frameRow Ls m t = .ok row := by
      intro t
      by_cases ht : t ∈ frameIndex Ls
      · obtain ⟨k0, hk0⟩ := mem_frameIndex.mp ht
        rw [choleskyPrecision_keys (hLs k0)] at hk0
        have hall : ∀ k, ∃ cell, frameCell (Ls k) (m k) t = .ok cell := by
          intro k
          have hk := h3 k0 k t hk0
          obtain ⟨L, hL⟩ := lookup_some_of_mem (by rw [choleskyPrecision_keys (hLs k)]; exact hk : t ∈ (Ls k).keys)
          obtain ⟨mu, hmu⟩ := lookup_some_of_mem (((checkMeans_ok hm k).1 t).mp hk)
          refine ⟨(L, Lᵀ *ᵥ mu), ?_⟩
          unfold frameCell
          rw [hL]; simp only; rw [hmu]
        choose cells hcells using hall
        refine ⟨{ time := t, L := fun k => (cells k).1, nu := fun k => (cells k).2 }, fun _ => ?_⟩
        unfold frameRow
        rw [finM_ok _ _ hcells, ok_bind]
        rfl
      · refine ⟨⟨t, fun _ => 0, fun _ => 0⟩, fun h => absurd h ht⟩
    choose row hrow using hrow
    rw [mapM_ok_of _ row _ fun t ht => hrow t ht]
    exact ⟨_, rfl⟩

/-- **C38.** The exception `from_sigmas` raises otherwise: `KeyError` for an expert without means, `AssertionError` for
an expert whose means have other times, then `LinAlgError` for an unusable matrix, then `AttributeError` for experts with
different times. -/
theorem C38_constructor_error (sigmas : Fin K → Dict τ (Mat n)) (returns : Dict τ (Vec n))
    (means : Option (Fin K → Option (Dict τ (Vec n)))) (e : Err) (h : fromSigmas sigmas returns means = .error e) :
    (e = .keyError ∧ ∃ ms k, means = some ms ∧ ms k = none) ∨
    (e = .assertionError ∧ ∃ ms k m, means = some ms ∧ ms k = some m ∧ ¬ ∀ t, t ∈ m.keys ↔ t ∈ (sigmas k).keys) ∨
    (e = .linAlgError ∧ MeansMatch sigmas means ∧ ∃ k, ∃ p ∈ sigmas k, ¬ Usable p.2) ∨
    (e = .attributeError ∧ MeansMatch sigmas means ∧ (∀ k, ∀ p ∈ sigmas k, Usable p.2) ∧ ¬ SameTimes sigmas) := by
  unfold fromSigmas at h
  rcases hm : checkMeans sigmas means with e' | m
  · rw [hm] at h
    cases h
    unfold checkMeans at hm
    cases means with
    | none => cases hm
    | some ms =>
      obtain ⟨k, hk, _⟩ := finM_error _ _ hm
      split at hk
      · next hms => cases hk; exact Or.inl ⟨rfl, ms, k, rfl, hms⟩
      · next m hms =>
        split at hk
        · cases hk
        · next hc =>
          cases hk
          exact Or.inr (Or.inl ⟨rfl, ms, k, m, rfl, hms, fun hall => hc ⟨fun t ht => (hall t).mpr ht,
            fun t ht => (hall t).mp ht⟩⟩)
  · have hmm := checkMeans_iff.mp ⟨m, hm⟩
    rw [hm, ok_bind] at h
    rcases hL : finM (fun k => choleskyPrecision (sigmas k)) with e' | Ls
    · rw [hL] at h
      cases h
      obtain ⟨k, hk, _⟩ := finM_error _ _ hL
      obtain ⟨rfl, hp⟩ := choleskyPrecision_error hk
      exact Or.inr (Or.inr (Or.inl ⟨rfl, hmm, k, hp⟩))
    · rw [hL, ok_bind] at h
      have hL' := (finM_ok_iff _ _).mp hL
      have husable : ∀ k, ∀ p ∈ sigmas k, Usable p.2 := fun k => choleskyPrecision_ok.mp ⟨_, hL' k⟩
      rcases hR : (frameIndex Ls).mapM (frameRow Ls m) with e' | rows
      · rw [hR] at h
        cases h
        obtain ⟨t, ht, hte⟩ := mapM_error _ _ _ hR
        unfold frameRow at hte
        rcases hc : finM (fun k => frameCell (Ls k) (m k) t) with e' | cells
        · rw [hc] at hte
          cases hte
          obtain ⟨k, hk, _⟩ := finM_error _ _ hc
          unfold frameCell at hk
          split at hk
          · next hl =>
            cases hk
            refine Or.inr (Or.inr (Or.inr ⟨rfl, hmm, husable, fun hsame => ?_⟩))
            obtain ⟨k0, hk0⟩ := mem_frameIndex.mp ht
            rw [choleskyPrecision_keys (hL' k0)] at hk0
            have := hsame k0 k t hk0
            rw [lookup_none_iff, choleskyPrecision_keys (hL' k)] at hl
            exact hl this
          · next L hl =>
            split at hk
            · next hl' =>
              exfalso
              rw [lookup_none_iff] at hl'
              apply hl'
              rw [← (checkMeans_ok hm k).1 t, ← choleskyPrecision_keys (hL' k)]
              by_contra hno
              rw [← lookup_none_iff] at hno
              rw [hno] at hl; cases hl
            · cases hk
        · rw [hc] at hte; cases hte
      · rw [hR] at h; cases h

/-- **C38.** A symmetric matrix is usable exactly if it is positive definite. -/
theorem C38_usable_iff (S : Mat n) (hS : Sᵀ = S) : Usable S ↔ S.PosDef :=
  ⟨posDef_of_usable hS, usable_of_posDef⟩

/-- The constructor accepts the demo. -/
example : ∃ c, fromSigmas Demo.panel.sigmas Demo.returns none = .ok c := by
  rw [C38_constructor_ok]
  have := (C38_constructor_ok _ _ _).mp ⟨_, fromSigmas_panel Demo.panel_ok (by norm_num) Demo.returns⟩
  exact ⟨trivial, this.2⟩

/-- Two experts with different times are rejected with `AttributeError`. -/
example : fromSigmas (τ := ℕ) (n := 1) (K := 2) ![[(0, 1), (1, 1)], [(0, 1)]] [] none = .error .attributeError := by
  rcases h : fromSigmas (τ := ℕ) (n := 1) (K := 2) ![[(0, 1), (1, 1)], [(0, 1)]] [] none with e | c
  · have hpd : ∀ k, ∀ p ∈ (![[(0, 1), (1, 1)], [(0, 1)]] : Fin 2 → Dict ℕ (Mat 1)) k, Usable p.2 := by
      intro k p hp
      have : p.2 = 1 := by
        fin_cases k <;> simp at hp
        · rcases hp with rfl | rfl <;> rfl
        · rw [hp]
      rw [this]
      exact usable_of_posDef Matrix.PosDef.one
    rcases C38_constructor_error _ _ _ _ h with ⟨_, ms, k, h', _⟩ | ⟨_, ms, k, m, h', _⟩ | ⟨_, _, k, p, hp, hu⟩ | ⟨rfl, _⟩
    · cases h'
    · cases h'
    · exact absurd (hpd k p hp) hu
    · rfl
  · exfalso
    have := ((C38_constructor_ok _ _ _).mp ⟨c, h⟩).2.2 0 1 1 (by simp [Dict.keys])
    simp [Dict.keys] at this

end CovPred
