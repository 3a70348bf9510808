import Verif.Props.Schedule

/-
Properties C39 (order of the experts), C40 (units of the assets) and C62 (order of the assets) of `combination.py`.
-/
namespace CovPred
open Matrix

set_option linter.unusedSectionVars false

variable {τ : Type} [LinearOrder τ] {n K : ℕ}

/-- a run of an exact and complete solver, whatever the Gram matrices are -/
theorem run_exact {P : Panel τ n K} (hP : P.Ok) (hK : 0 < K) {solver : Solver n K} (hs : solver.Exact)
    (hc : solver.Complete) {W a b : ℕ} (hWa : W ≤ a) (hb : b ≤ P.len) {tr : Trace (Result τ n K)}
    (h : P.Run solver W a b tr) :
    ((∀ t, a ≤ t → t < b → (P.gram W t).PosDef) ∧
      tr = ⟨(List.range' a (b - a)).map fun t => some (P.predict t (P.best W t)), none⟩) ∨
    ((∃ t, a ≤ t ∧ t < b ∧ ¬ (P.gram W t).PosDef) ∧ tr = ⟨[], some .linAlgError⟩) := by
  by_cases hg : ∀ t, a ≤ t → t < b → (P.gram W t).PosDef
  · exact Or.inl ⟨hg, run_complete hP hK hs hc hWa hb h hg⟩
  · right
    push Not at hg
    refine ⟨hg, ?_⟩
    rcases h with ⟨_, h0⟩ | ⟨hall, _⟩
    · exact h0
    · obtain ⟨t, h3, h4, h5⟩ := hg; exact absurd (hall t h3 h4) h5

/-- apply a function to the results of a trace -/
def Trace.mapResults {A B : Type} (f : A → B) (tr : Trace A) : Trace B := ⟨tr.items.map (Option.map f), tr.err⟩

/-- Two panels whose positions have the same weights and related predictions have related traces. -/
theorem trace_transport {P P' : Panel τ n K} {returns returns' : Dict τ (Vec n)} {c c' : Comb τ n K}
    (h : P.Gives returns c) (h' : P'.Gives returns' c') (hlen : 2 ≤ P.len) (hl : P'.len = P.len)
    (ht : ∀ t, P'.time t = P.time t)
    {solver solver' : Solver n K} (hs : solver.Exact) (hc : solver.Complete) (hs' : solver'.Exact)
    (hc' : solver'.Complete) (window : Option ℕ) {times : Option (List τ)} {a b : ℕ}
    (hreq : P.Request (effWindow window (P.len - 1)) times a b) (g : Vec K → Vec K) (f : Result τ n K → Result τ n K)
    (hgram : ∀ W t, W ≤ t → t < P.len → ((P'.gram W t).PosDef ↔ (P.gram W t).PosDef))
    (hopt : ∀ W t w, W ≤ t → t < P.len → P.Optimal W t w → P'.Optimal W t (g w))
    (hf : ∀ t w, t < P.len → Simplex w → P'.predict t (g w) = f (P.predict t w)) :
    c'.solve solver' window times = (c.solve solver window times).mapResults f := by
  obtain ⟨hrun, hWa, hb⟩ := solve_run_request h hlen hs.feasible window hreq
  have hreq' : P'.Request (effWindow window (P'.len - 1)) times a b := by
    rw [hl]
    cases hreq with
    | all =>
      have := Panel.Request.all (P := P') (W := effWindow window (P.len - 1))
      rwa [hl] at this
    | some z m hz hm hzm =>
      have : (List.range' z m).map P.time = (List.range' z m).map P'.time :=
        List.map_congr_left fun t _ => (ht t).symm
      rw [this]
      exact .some z m hz hm (by omega)
  obtain ⟨hrun', hWa', hb'⟩ := solve_run_request h' (by omega) hs'.feasible window hreq'
  rw [hl] at hrun' hWa' hb'
  set W := effWindow window (P.len - 1)
  rcases run_exact h.ok h.experts hs hc hWa hb hrun with ⟨hg, e⟩ | ⟨hg, e⟩
  · rcases run_exact h'.ok h'.experts hs' hc' hWa' (by omega) hrun' with ⟨hg', e'⟩ | ⟨⟨t, h1, h2, h3⟩, e'⟩
    · rw [e, e']
      unfold Trace.mapResults
      simp only [List.map_map]
      congr 1
      apply List.map_congr_left
      intro t ht'
      simp only [List.mem_range'_1] at ht'
      have hbest := best_optimal h.ok h.experts (W := W) (t := t) (by omega) (by omega) (hg t (by omega) (by omega))
      have hbest' := best_optimal h'.ok h'.experts (W := W) (t := t) (by omega) (by omega) (hg' t (by omega) (by omega))
      have := optimal_unique h'.ok (by omega) (by omega) (hg' t (by omega) (by omega)) hbest'
        (hopt W t _ (by omega) (by omega) hbest)
      simp only [Function.comp, Option.map_some]
      rw [this, hf t _ (by omega) hbest.1]
    · exact absurd ((hgram W t (by omega) (by omega)).mpr (hg t h1 h2)) h3
  · obtain ⟨t, h1, h2, h3⟩ := hg
    rcases run_exact h'.ok h'.experts hs' hc' hWa' (by omega) hrun' with ⟨hg', e'⟩ | ⟨_, e'⟩
    · exact absurd ((hgram W t (by omega) (by omega)).mp (hg' t h1 h2)) h3
    · rw [e, e']; rfl

/-! ### C39 -/

/-- The panel with the experts in the order `σ 0, σ 1, ...`. -/
def Panel.permExperts (P : Panel τ n K) (σ : Equiv.Perm (Fin K)) : Panel τ n K :=
  { P with cov := fun t k => P.cov t (σ k), mean := fun t k => P.mean t (σ k) }

theorem blendFactor_perm (S : Fin K → Mat n) (σ : Equiv.Perm (Fin K)) (w : Vec K) :
    blendFactor (fun k => S (σ k)) (fun k => w (σ k)) = blendFactor S w :=
  Equiv.sum_comp σ fun k => w k • precFactor (S k)

theorem blendCov_perm (S : Fin K → Mat n) (σ : Equiv.Perm (Fin K)) (w : Vec K) :
    blendCov (fun k => S (σ k)) (fun k => w (σ k)) = blendCov S w := by
  unfold blendCov; rw [blendFactor_perm]

theorem blendMean_perm (S : Fin K → Mat n) (mu : Fin K → Vec n) (σ : Equiv.Perm (Fin K)) (w : Vec K) :
    blendMean (fun k => S (σ k)) (fun k => mu (σ k)) (fun k => w (σ k)) = blendMean S mu w := by
  unfold blendMean
  rw [blendFactor_perm]
  congr 1
  exact Equiv.sum_comp σ fun k => w k • ((precFactor (S k))ᵀ *ᵥ mu k)

theorem simplex_perm (σ : Equiv.Perm (Fin K)) {w : Vec K} : Simplex (fun k => w (σ k)) ↔ Simplex w := by
  constructor
  · intro h
    refine ⟨fun k => ?_, ?_⟩
    · have := h.nonneg (σ.symm k); simpa using this
    · rw [← h.sum_one]; exact (Equiv.sum_comp σ w).symm
  · intro h
    exact ⟨fun k => h.nonneg _, by rw [← h.sum_one]; exact Equiv.sum_comp σ w⟩

theorem logLik_perm (P : Panel τ n K) (σ : Equiv.Perm (Fin K)) (W t : ℕ) (w : Vec K) :
    (P.permExperts σ).logLik W t (fun k => w (σ k)) = P.logLik W t w := by
  unfold Panel.logLik Panel.permExperts
  apply Finset.sum_congr rfl
  intro s _
  simp only
  rw [blendCov_perm (P.cov (s - 1)) σ w, blendMean_perm (P.cov (s - 1)) (P.mean (s - 1)) σ w]

theorem gram_perm (P : Panel τ n K) (σ : Equiv.Perm (Fin K)) (W t : ℕ) :
    (P.permExperts σ).gram W t = (P.gram W t).submatrix σ σ := by
  unfold Panel.gram
  ext i j
  rw [Matrix.submatrix_apply, Matrix.sum_apply, Matrix.sum_apply]
  rfl

/-- **C39.** The order of the experts does not matter: with the experts permuted by `σ`, `solve` (with exact solvers
that find the optimum) yields the same means and covariances, the weights permuted by `σ`, and fails in the same cases.
-/
theorem C39_expert_order {P : Panel τ n K} {returns : Dict τ (Vec n)} {c c' : Comb τ n K} (h : P.Gives returns c)
    (σ : Equiv.Perm (Fin K)) (h' : (P.permExperts σ).Gives returns c') (hlen : 2 ≤ P.len)
    (solver solver' : Solver n K) (hs : solver.Exact) (hc : solver.Complete) (hs' : solver'.Exact)
    (hc' : solver'.Complete) (window : Option ℕ) (times : Option (List τ)) (a b : ℕ)
    (hreq : P.Request (effWindow window (P.len - 1)) times a b) :
    c'.solve solver' window times
      = (c.solve solver window times).mapResults fun r => { r with weights := fun k => r.weights (σ k) } := by
  apply trace_transport h h' hlen rfl (fun _ => rfl) hs hc hs' hc' window hreq (fun w k => w (σ k))
  · intro W t _ _
    rw [gram_perm]
    constructor
    · intro hp
      have := hp.submatrix (e := σ.symm) σ.symm.injective
      rwa [Matrix.submatrix_submatrix, show (σ ∘ σ.symm : Fin K → Fin K) = id by funext; simp,
        Matrix.submatrix_id_id] at this
    · intro hp
      exact hp.submatrix σ.injective
  · intro W t w _ _ hw
    refine ⟨(simplex_perm σ).mpr hw.1, fun w' hw' => ?_⟩
    have e : w' = fun k => (fun k => w' (σ.symm k)) (σ k) := by funext k; simp
    rw [e, logLik_perm P σ W t (fun k => w' (σ.symm k)), logLik_perm]
    exact hw.2 _ ((simplex_perm σ.symm).mpr hw')
  · intro t w _ _
    unfold Panel.predict Panel.permExperts
    simp only
    rw [blendCov_perm (P.cov t) σ w, blendMean_perm (P.cov t) (P.mean t) σ w]

/-- The hypotheses of C39 are met: the demo with its experts swapped. -/
example : ∃ c', (Demo.panel.permExperts (Equiv.swap 0 1)).Gives Demo.returns c' ∧
    c'.solve (exactSolver 2 2) (some 2) none = Trace.mapResults
      (fun r => { r with weights := fun k => r.weights (Equiv.swap 0 1 k) })
      ⟨[some (Demo.panel.predict 2 (Demo.panel.best 2 2)), some (Demo.panel.predict 3 (Demo.panel.best 2 3))], none⟩ := by
  have hP : (Demo.panel.permExperts (Equiv.swap 0 1)).Ok :=
    ⟨Demo.panel_ok.time_lt, fun t ht k => Demo.panel_ok.posDef t ht _⟩
  have hG : (Demo.panel.permExperts (Equiv.swap 0 1)).Gives Demo.returns _ :=
    ⟨hP, Demo.panel_covered, by norm_num, Or.inl (fromSigmas_panel hP (by norm_num) _)⟩
  refine ⟨_, hG, ?_⟩
  rw [← Demo.panel_solve]
  exact C39_expert_order Demo.panel_gives _ hG (by show 2 ≤ 4; norm_num) _ _ exactSolver_exact exactSolver_complete
    exactSolver_exact exactSolver_complete _ _ _ _ .all

/-! ### C40 -/

/-- The panel in other units: asset `i` is measured in multiples of `1 / d i` (a negative `d i` flips its sign). -/
def Panel.rescale (P : Panel τ n K) (d : Vec n) : Panel τ n K :=
  { P with
    cov := fun t k => Matrix.of fun i j => d i * P.cov t k i j * d j
    mean := fun t k i => d i * P.mean t k i
    ret := fun t i => d i * P.ret t i }

/-- the signs of `d` -/
noncomputable def signs (d : Vec n) : Vec n := fun i => if 0 < d i then 1 else -1

theorem signs_mul (d : Vec n) (i : Fin n) : signs d i * signs d i = 1 := by unfold signs; split <;> norm_num

theorem rescale_eq (S : Mat n) (d : Vec n) :
    (Matrix.of fun i j => d i * S i j * d j) = Matrix.diagonal d * S * Matrix.diagonal d := by
  ext i j
  rw [Matrix.mul_diagonal, Matrix.diagonal_mul, Matrix.of_apply]

theorem diagonal_inv (d : Vec n) (hd : ∀ i, d i ≠ 0) : (Matrix.diagonal d)⁻¹ = Matrix.diagonal fun i => (d i)⁻¹ := by
  apply Matrix.inv_eq_right_inv
  rw [Matrix.diagonal_mul_diagonal]
  have : (fun i => d i * (d i)⁻¹) = fun _ => 1 := by funext i; exact mul_inv_cancel₀ (hd i)
  rw [this]; exact Matrix.diagonal_one

theorem posDef_rescale {S : Mat n} (hS : S.PosDef) (d : Vec n) (hd : ∀ i, d i ≠ 0) :
    (Matrix.diagonal d * S * Matrix.diagonal d).PosDef := by
  have hdet : IsUnit (Matrix.diagonal d) := by
    rw [Matrix.isUnit_iff_isUnit_det, Matrix.det_diagonal]
    exact isUnit_iff_ne_zero.mpr (Finset.prod_ne_zero_iff.mpr fun i _ => hd i)
  have := Matrix.PosDef.mul_mul_conjTranspose_same (B := Matrix.diagonal d) hS (by
    rw [Matrix.vecMul_injective_iff_isUnit]; exact hdet)
  rwa [Matrix.conjTranspose_eq_transpose_of_trivial, Matrix.diagonal_transpose] at this

/-- the precision factor in other units -/
theorem precFactor_rescale {S : Mat n} (hS : S.PosDef) (d : Vec n) (hd : ∀ i, d i ≠ 0) :
    precFactor (Matrix.diagonal d * S * Matrix.diagonal d)
      = (Matrix.diagonal fun i => (d i)⁻¹) * precFactor S * Matrix.diagonal (signs d) := by
  have hc := precFactor_isChol hS
  apply precFactor_eq
  refine ⟨?_, ?_, ?_⟩
  · intro i j hij
    rw [Matrix.mul_diagonal, Matrix.diagonal_mul, hc.lower i j hij]; ring
  · intro i
    rw [Matrix.mul_diagonal, Matrix.diagonal_mul]
    have h1 := hc.pos i
    unfold signs
    split
    · next hp => have := inv_pos.mpr hp; positivity
    · next hp =>
      have h2 : d i < 0 := lt_of_le_of_ne (not_lt.mp hp) (hd i)
      have h3 := inv_lt_zero.mpr h2
      nlinarith
  · rw [Matrix.transpose_mul, Matrix.transpose_mul, Matrix.diagonal_transpose, Matrix.diagonal_transpose]
    have hss : Matrix.diagonal (signs d) * Matrix.diagonal (signs d) = 1 := by
      rw [Matrix.diagonal_mul_diagonal]
      simp only [signs_mul]; exact Matrix.diagonal_one
    rw [Matrix.mul_assoc, ← Matrix.mul_assoc (Matrix.diagonal (signs d)), hss, Matrix.one_mul, Matrix.mul_assoc,
      ← Matrix.mul_assoc (precFactor S), hc.eq, Matrix.mul_inv_rev, Matrix.mul_inv_rev, diagonal_inv d hd]

theorem blendFactor_rescale {S : Fin K → Mat n} (hS : ∀ k, (S k).PosDef) (d : Vec n) (hd : ∀ i, d i ≠ 0) (w : Vec K) :
    blendFactor (fun k => Matrix.diagonal d * S k * Matrix.diagonal d) w
      = (Matrix.diagonal fun i => (d i)⁻¹) * blendFactor S w * Matrix.diagonal (signs d) := by
  unfold blendFactor
  rw [Matrix.mul_sum, Matrix.sum_mul]
  apply Finset.sum_congr rfl
  intro k _
  rw [precFactor_rescale (hS k) d hd, Matrix.mul_smul, Matrix.smul_mul]

theorem signs_inv (d : Vec n) : (Matrix.diagonal (signs d))⁻¹ = Matrix.diagonal (signs d) := by
  apply Matrix.inv_eq_right_inv
  rw [Matrix.diagonal_mul_diagonal]
  simp only [signs_mul]; exact Matrix.diagonal_one

theorem diagonal_inv_inv (d : Vec n) (hd : ∀ i, d i ≠ 0) :
    (Matrix.diagonal fun i => (d i)⁻¹)⁻¹ = Matrix.diagonal d := by
  rw [diagonal_inv _ fun i => inv_ne_zero (hd i)]
  simp

theorem blendCov_rescale {S : Fin K → Mat n} (hS : ∀ k, (S k).PosDef) (d : Vec n) (hd : ∀ i, d i ≠ 0) (w : Vec K) :
    blendCov (fun k => Matrix.diagonal d * S k * Matrix.diagonal d) w
      = Matrix.diagonal d * blendCov S w * Matrix.diagonal d := by
  unfold blendCov
  rw [blendFactor_rescale hS d hd]
  simp only [Matrix.transpose_mul, Matrix.diagonal_transpose, Matrix.mul_inv_rev, signs_inv, diagonal_inv_inv d hd]
  have hss : Matrix.diagonal (signs d) * Matrix.diagonal (signs d) = 1 := by
    rw [Matrix.diagonal_mul_diagonal]
    simp only [signs_mul]; exact Matrix.diagonal_one
  simp only [Matrix.mul_assoc]
  rw [← Matrix.mul_assoc (Matrix.diagonal (signs d)) (Matrix.diagonal (signs d)), hss, Matrix.one_mul]

theorem blendMean_rescale {S : Fin K → Mat n} (hS : ∀ k, (S k).PosDef) (mu : Fin K → Vec n) (d : Vec n)
    (hd : ∀ i, d i ≠ 0) (w : Vec K) :
    blendMean (fun k => Matrix.diagonal d * S k * Matrix.diagonal d) (fun k => Matrix.diagonal d *ᵥ mu k) w
      = Matrix.diagonal d *ᵥ blendMean S mu w := by
  unfold blendMean
  rw [blendFactor_rescale hS d hd]
  have h1 : ∀ k, (precFactor (Matrix.diagonal d * S k * Matrix.diagonal d))ᵀ *ᵥ (Matrix.diagonal d *ᵥ mu k)
      = Matrix.diagonal (signs d) *ᵥ ((precFactor (S k))ᵀ *ᵥ mu k) := by
    intro k
    rw [precFactor_rescale (hS k) d hd, Matrix.transpose_mul, Matrix.transpose_mul, Matrix.diagonal_transpose,
      Matrix.diagonal_transpose, Matrix.mulVec_mulVec, Matrix.mul_assoc, Matrix.mul_assoc, Matrix.diagonal_mul_diagonal]
    have : (fun i => (d i)⁻¹ * d i) = fun _ => (1 : ℝ) := by funext i; exact inv_mul_cancel₀ (hd i)
    rw [this, show (Matrix.diagonal fun _ => (1 : ℝ)) = (1 : Mat n) from Matrix.diagonal_one, Matrix.mul_one,
      ← Matrix.mulVec_mulVec]
  simp only [h1]
  have h2 : ∑ k, w k • (Matrix.diagonal (signs d) *ᵥ ((precFactor (S k))ᵀ *ᵥ mu k))
      = Matrix.diagonal (signs d) *ᵥ ∑ k, w k • ((precFactor (S k))ᵀ *ᵥ mu k) := by
    rw [Matrix.mulVec_sum]
    exact Finset.sum_congr rfl fun k _ => by rw [Matrix.mulVec_smul]
  rw [h2]
  simp only [Matrix.transpose_mul, Matrix.diagonal_transpose, Matrix.mul_inv_rev, signs_inv, diagonal_inv_inv d hd,
    Matrix.mulVec_mulVec]
  have hss : Matrix.diagonal (signs d) * Matrix.diagonal (signs d) = 1 := by
    rw [Matrix.diagonal_mul_diagonal]
    simp only [signs_mul]; exact Matrix.diagonal_one
  simp only [Matrix.mul_assoc, hss, Matrix.mul_one]

theorem density_rescale {S : Mat n} (hS : S.PosDef) (mu x d : Vec n) (hd : ∀ i, d i ≠ 0) :
    gaussLogDensity (Matrix.diagonal d *ᵥ mu) (Matrix.diagonal d * S * Matrix.diagonal d) (Matrix.diagonal d *ᵥ x)
      = gaussLogDensity mu S x - ∑ i, Real.log |d i| := by
  unfold gaussLogDensity
  have hdet : (Matrix.diagonal d).det ≠ 0 := by
    rw [Matrix.det_diagonal]; exact Finset.prod_ne_zero_iff.mpr fun i _ => hd i
  have h1 : Real.log (Matrix.diagonal d * S * Matrix.diagonal d).det = Real.log S.det + 2 * ∑ i, Real.log |d i| := by
    rw [Matrix.det_mul, Matrix.det_mul, Real.log_mul (mul_ne_zero hdet hS.det_pos.ne') hdet,
      Real.log_mul hdet hS.det_pos.ne', Matrix.det_diagonal, Real.log_prod fun i _ => hd i]
    simp only [Real.log_abs]
    ring
  have h2 : (Matrix.diagonal d *ᵥ x - Matrix.diagonal d *ᵥ mu) ⬝ᵥ ((Matrix.diagonal d * S * Matrix.diagonal d)⁻¹
      *ᵥ (Matrix.diagonal d *ᵥ x - Matrix.diagonal d *ᵥ mu)) = (x - mu) ⬝ᵥ (S⁻¹ *ᵥ (x - mu)) := by
    rw [← Matrix.mulVec_sub, Matrix.mulVec_mulVec, Matrix.mul_inv_rev, Matrix.mul_inv_rev]
    have hu : IsUnit (Matrix.diagonal d).det := isUnit_iff_ne_zero.mpr hdet
    rw [Matrix.mul_assoc, Matrix.mul_assoc, Matrix.nonsing_inv_mul _ hu, Matrix.mul_one, ← Matrix.mulVec_mulVec,
      Matrix.dotProduct_mulVec, ← Matrix.mulVec_transpose, Matrix.transpose_nonsing_inv, Matrix.diagonal_transpose,
      Matrix.mulVec_mulVec, Matrix.nonsing_inv_mul _ hu, Matrix.one_mulVec]
  rw [h1, h2]
  ring

theorem diagonal_mulVec_eq (d x : Vec n) : (fun i => d i * x i) = Matrix.diagonal d *ᵥ x := by
  funext i; rw [Matrix.mulVec_diagonal]

theorem rescale_ok {P : Panel τ n K} (hP : P.Ok) (d : Vec n) (hd : ∀ i, d i ≠ 0) : (P.rescale d).Ok where
  time_lt := hP.time_lt
  posDef t ht k := by
    show (Matrix.of fun i j => d i * P.cov t k i j * d j).PosDef
    rw [rescale_eq]; exact posDef_rescale (hP.posDef t ht k) d hd

theorem blendCov_posDef {S : Fin K → Mat n} (hS : ∀ k, (S k).PosDef) {w : Vec K} (hw : Simplex w) :
    (blendCov S w).PosDef := (posDef_of_mul (blendFactor_det hS hw)).inv

theorem logLik_rescale {P : Panel τ n K} (hP : P.Ok) (d : Vec n) (hd : ∀ i, d i ≠ 0) {W t : ℕ} (hWt : W ≤ t)
    (ht : t < P.len) {w : Vec K} (hw : Simplex w) :
    (P.rescale d).logLik W t w = P.logLik W t w - W * ∑ i, Real.log |d i| := by
  unfold Panel.logLik Panel.rescale
  have hcard : (W : ℝ) = ∑ _s ∈ Finset.Ioc (t - W) t, (1 : ℝ) := by
    rw [Finset.sum_const, Nat.card_Ioc, show t - (t - W) = W by omega]; simp
  rw [hcard, Finset.sum_mul, ← Finset.sum_sub_distrib]
  apply Finset.sum_congr rfl
  intro s hs
  rw [Finset.mem_Ioc] at hs
  have hpd := hP.posDef (s - 1) (by omega)
  simp only [rescale_eq, diagonal_mulVec_eq]
  have hmu : (fun (k : Fin K) (i : Fin n) => d i * P.mean (s - 1) k i) = fun k => Matrix.diagonal d *ᵥ P.mean (s - 1) k :=
    funext fun k => diagonal_mulVec_eq d _
  rw [hmu, blendCov_rescale hpd d hd, blendMean_rescale hpd _ d hd, density_rescale (blendCov_posDef hpd hw) _ _ d hd]
  ring

theorem gram_rescale {P : Panel τ n K} (hP : P.Ok) (d : Vec n) (hd : ∀ i, d i ≠ 0) {W t : ℕ} (hWt : W ≤ t)
    (ht : t < P.len) : (P.rescale d).gram W t = P.gram W t := by
  unfold Panel.gram
  apply Finset.sum_congr rfl
  intro s hs
  rw [Finset.mem_Ioc] at hs
  have key : (P.rescale d).scores s = Matrix.diagonal (signs d) * P.scores s := by
    ext i k
    rw [Matrix.diagonal_mul]
    unfold Panel.scores Panel.rescale
    simp only [Matrix.of_apply, rescale_eq, diagonal_mulVec_eq]
    rw [precFactor_rescale (hP.posDef (s - 1) (by omega) k) d hd, ← Matrix.mulVec_sub, Matrix.transpose_mul,
      Matrix.transpose_mul, Matrix.diagonal_transpose, Matrix.diagonal_transpose, Matrix.mulVec_mulVec, Matrix.mul_assoc,
      Matrix.mul_assoc, Matrix.diagonal_mul_diagonal]
    have : (fun i => (d i)⁻¹ * d i) = fun _ => (1 : ℝ) := by funext i; exact inv_mul_cancel₀ (hd i)
    rw [this, show (Matrix.diagonal fun _ => (1 : ℝ)) = (1 : Mat n) from Matrix.diagonal_one, Matrix.mul_one,
      ← Matrix.mulVec_mulVec, Matrix.mulVec_diagonal]
  rw [key, Matrix.transpose_mul, Matrix.diagonal_transpose, Matrix.mul_assoc, ← Matrix.mul_assoc (Matrix.diagonal _),
    Matrix.diagonal_mul_diagonal]
  simp only [signs_mul]
  rw [show (Matrix.diagonal fun _ => (1 : ℝ)) = (1 : Mat n) from Matrix.diagonal_one, Matrix.one_mul]

/-- **C40.** Units do not matter: if returns, means and covariances are expressed in other units (each asset with its
own factor `d i ≠ 0`), `solve` (with exact solvers that find the optimum) yields the same weights, the means scaled by
`d i` and the covariances by `d i * d j`, and fails in the same cases. -/
theorem C40_rescale {P : Panel τ n K} {returns returns' : Dict τ (Vec n)} {c c' : Comb τ n K} (h : P.Gives returns c)
    (d : Vec n) (hd : ∀ i, d i ≠ 0) (h' : (P.rescale d).Gives returns' c') (hlen : 2 ≤ P.len)
    (solver solver' : Solver n K) (hs : solver.Exact) (hc : solver.Complete) (hs' : solver'.Exact)
    (hc' : solver'.Complete) (window : Option ℕ) (times : Option (List τ)) (a b : ℕ)
    (hreq : P.Request (effWindow window (P.len - 1)) times a b) :
    c'.solve solver' window times = (c.solve solver window times).mapResults fun r =>
      { r with mean := fun i => d i * r.mean i, covariance := Matrix.of fun i j => d i * r.covariance i j * d j } := by
  apply trace_transport h h' hlen rfl (fun _ => rfl) hs hc hs' hc' window hreq id
  · intro W t h1 h2
    rw [gram_rescale h.ok d hd h1 h2]
  · intro W t w h1 h2 hw
    refine ⟨hw.1, fun w' hw' => ?_⟩
    rw [id, logLik_rescale h.ok d hd h1 h2 hw.1, logLik_rescale h.ok d hd h1 h2 hw']
    have := hw.2 w' hw'
    linarith
  · intro t w ht hw
    unfold Panel.predict Panel.rescale
    simp only [id, rescale_eq, diagonal_mulVec_eq]
    have hmu : (fun (k : Fin K) (i : Fin n) => d i * P.mean t k i) = fun k => Matrix.diagonal d *ᵥ P.mean t k :=
      funext fun k => diagonal_mulVec_eq d _
    rw [hmu, blendCov_rescale (h.ok.posDef t ht) d hd, blendMean_rescale (h.ok.posDef t ht) _ d hd]

/-- The hypotheses of C40 are met: the demo with asset 0 in percent and asset 1 sold short. -/
example : ∃ returns' c', (Demo.panel.rescale ![100, -1]).Gives returns' c' := by
  have hd : ∀ i, (![100, -1] : Vec 2) i ≠ 0 := by intro i; fin_cases i <;> norm_num
  have hP := rescale_ok Demo.panel_ok ![100, -1] hd
  exact ⟨(List.range 4).map fun t => (t, (Demo.panel.rescale ![100, -1]).ret t), _, hP,
    fun t _ ht => lookup_map_range (time := (id : ℕ → ℕ)) (N := 4) (fun s t h _ => h) _ t ht, by norm_num,
    Or.inl (fromSigmas_panel hP (by norm_num) _)⟩

end CovPred
