import Verif.Props.CombEquiv

/-
Property C62 of `combination.py`: the order of the assets.
-/
namespace CovPred
open Matrix

set_option linter.unusedSectionVars false

variable {τ : Type} [LinearOrder τ] {n K : ℕ}

/-- The same data with the assets listed in another order: asset `i` of the new panel is asset `σ i` of the old one. -/
def Panel.permAssets (P : Panel τ n K) (σ : Equiv.Perm (Fin n)) : Panel τ n K :=
  { P with
    cov := fun t k => (P.cov t k).submatrix σ σ
    mean := fun t k i => P.mean t k (σ i)
    ret := fun t i => P.ret t (σ i) }

/-- A result with its assets listed in another order. -/
def Result.permAssets (r : Result τ n K) (σ : Equiv.Perm (Fin n)) : Result τ n K :=
  { r with mean := fun i => r.mean (σ i), covariance := r.covariance.submatrix σ σ }

/-- The relabelling keeps the precision factors of the experts lower triangular (for instance because the experts are
uncorrelated). -/
def Harmless (σ : Equiv.Perm (Fin n)) (S : Mat n) : Prop := LowerTri ((precFactor S).submatrix σ σ)

theorem precFactor_perm {S : Mat n} (hS : S.PosDef) (σ : Equiv.Perm (Fin n)) (h : Harmless σ S) :
    precFactor (S.submatrix σ σ) = (precFactor S).submatrix σ σ := by
  have hc := precFactor_isChol hS
  apply precFactor_eq
  refine ⟨h, fun i => hc.pos (σ i), ?_⟩
  rw [Matrix.transpose_submatrix, Matrix.submatrix_mul_equiv, hc.eq, Matrix.inv_submatrix_equiv]

theorem precFactor_diagonal {d : Vec n} (hpos : ∀ i, 0 < d i) :
    precFactor (Matrix.diagonal d) = Matrix.diagonal fun i => (Real.sqrt (d i))⁻¹ := by
  apply precFactor_eq
  refine ⟨fun i j hij => Matrix.diagonal_apply_ne _ hij.ne, fun i => ?_, ?_⟩
  · rw [Matrix.diagonal_apply_eq]; exact inv_pos.mpr (Real.sqrt_pos.mpr (hpos i))
  · symm
    apply Matrix.inv_eq_right_inv
    rw [Matrix.diagonal_transpose, Matrix.diagonal_mul_diagonal, Matrix.diagonal_mul_diagonal, ← Matrix.diagonal_one]
    congr 1
    funext i
    rw [← mul_inv, Real.mul_self_sqrt (hpos i).le, mul_inv_cancel₀ (hpos i).ne']

/-- an uncorrelated expert is harmless, whatever the new order -/
theorem harmless_of_diag {S : Mat n} (hS : S.PosDef) (hd : ∀ i j, i ≠ j → S i j = 0) (σ : Equiv.Perm (Fin n)) :
    Harmless σ S := by
  have e : S = Matrix.diagonal fun i => S i i := by
    ext i j
    by_cases h : i = j
    · subst h; simp
    · rw [Matrix.diagonal_apply_ne _ h, hd i j h]
  intro i j hij
  rw [e, precFactor_diagonal fun i => hS.diag_pos, Matrix.submatrix_apply,
    Matrix.diagonal_apply_ne _ (σ.injective.ne hij.ne)]

theorem mulVec_perm (M : Mat n) (v : Vec n) (σ : Equiv.Perm (Fin n)) :
    M.submatrix σ σ *ᵥ (fun i => v (σ i)) = fun i => (M *ᵥ v) (σ i) := by
  funext i
  simp only [Matrix.mulVec, dotProduct, Matrix.submatrix_apply]
  exact Equiv.sum_comp σ fun j => M (σ i) j * v j

theorem blendFactor_permA {S : Fin K → Mat n} (hS : ∀ k, (S k).PosDef) (σ : Equiv.Perm (Fin n))
    (h : ∀ k, Harmless σ (S k)) (w : Vec K) :
    blendFactor (fun k => (S k).submatrix σ σ) w = (blendFactor S w).submatrix σ σ := by
  unfold blendFactor
  ext i j
  simp only [Matrix.sum_apply, Matrix.submatrix_apply, Matrix.smul_apply]
  exact Finset.sum_congr rfl fun k _ => by rw [precFactor_perm (hS k) σ (h k)]; rfl

theorem blendCov_permA {S : Fin K → Mat n} (hS : ∀ k, (S k).PosDef) (σ : Equiv.Perm (Fin n))
    (h : ∀ k, Harmless σ (S k)) (w : Vec K) :
    blendCov (fun k => (S k).submatrix σ σ) w = (blendCov S w).submatrix σ σ := by
  unfold blendCov
  rw [blendFactor_permA hS σ h, Matrix.transpose_submatrix, Matrix.submatrix_mul_equiv, Matrix.inv_submatrix_equiv]

theorem blendMean_permA {S : Fin K → Mat n} (hS : ∀ k, (S k).PosDef) (mu : Fin K → Vec n) (σ : Equiv.Perm (Fin n))
    (h : ∀ k, Harmless σ (S k)) (w : Vec K) :
    blendMean (fun k => (S k).submatrix σ σ) (fun k i => mu k (σ i)) w = fun i => blendMean S mu w (σ i) := by
  unfold blendMean
  rw [blendFactor_permA hS σ h, Matrix.transpose_submatrix, Matrix.inv_submatrix_equiv, ← mulVec_perm]
  congr 1
  funext i
  simp only [Finset.sum_apply, Pi.smul_apply]
  refine Finset.sum_congr rfl fun k _ => ?_
  rw [precFactor_perm (hS k) σ (h k), Matrix.transpose_submatrix, mulVec_perm]

theorem density_permA (mu : Vec n) (S : Mat n) (x : Vec n) (σ : Equiv.Perm (Fin n)) :
    gaussLogDensity (fun i => mu (σ i)) (S.submatrix σ σ) (fun i => x (σ i)) = gaussLogDensity mu S x := by
  unfold gaussLogDensity
  rw [Matrix.det_submatrix_equiv_self, Matrix.inv_submatrix_equiv]
  have e : ((fun i => x (σ i)) - fun i => mu (σ i)) = fun i => (x - mu) (σ i) := by funext i; simp
  rw [e, mulVec_perm]
  have : (fun i => (x - mu) (σ i)) ⬝ᵥ (fun i => (S⁻¹ *ᵥ (x - mu)) (σ i)) = (x - mu) ⬝ᵥ (S⁻¹ *ᵥ (x - mu)) := by
    simp only [dotProduct]
    exact Equiv.sum_comp σ fun j => (x - mu) j * (S⁻¹ *ᵥ (x - mu)) j
  rw [this]

theorem permAssets_ok {P : Panel τ n K} (hP : P.Ok) (σ : Equiv.Perm (Fin n)) : (P.permAssets σ).Ok where
  time_lt := hP.time_lt
  posDef t ht k := (hP.posDef t ht k).submatrix σ.injective

/-- The likelihood of weights depends on the experts before position `t` only, so does the effect of the order. -/
theorem logLik_permA {P : Panel τ n K} (hP : P.Ok) (σ : Equiv.Perm (Fin n)) {W t : ℕ} (ht : t < P.len)
    (h : ∀ s, s < t → ∀ k, Harmless σ (P.cov s k)) (w : Vec K) :
    (P.permAssets σ).logLik W t w = P.logLik W t w := by
  unfold Panel.logLik Panel.permAssets
  apply Finset.sum_congr rfl
  intro s hs
  rw [Finset.mem_Ioc] at hs
  have hpd := hP.posDef (s - 1) (by omega)
  have hh := h (s - 1) (by omega)
  simp only
  rw [blendCov_permA hpd σ hh, blendMean_permA hpd _ σ hh, density_permA]

theorem gram_permA {P : Panel τ n K} (hP : P.Ok) (σ : Equiv.Perm (Fin n)) {W t : ℕ} (ht : t < P.len)
    (h : ∀ s, s < t → ∀ k, Harmless σ (P.cov s k)) : (P.permAssets σ).gram W t = P.gram W t := by
  unfold Panel.gram
  apply Finset.sum_congr rfl
  intro s hs
  rw [Finset.mem_Ioc] at hs
  have key : (P.permAssets σ).scores s = (P.scores s).submatrix σ id := by
    ext i k
    unfold Panel.scores Panel.permAssets
    simp only [Matrix.of_apply, Matrix.submatrix_apply, id]
    rw [precFactor_perm (hP.posDef (s - 1) (by omega) k) σ (h (s - 1) (by omega) k), Matrix.transpose_submatrix,
      show ((fun i => P.ret s (σ i)) - fun i => P.mean (s - 1) k (σ i)) = fun i => (P.ret s - P.mean (s - 1) k) (σ i) by
        funext i; simp, mulVec_perm]
  rw [key, Matrix.transpose_submatrix]
  exact Matrix.submatrix_mul_equiv _ _ _ σ _

/-- **C62**, positive part. If the relabelling keeps the experts' precision factors triangular, the order of the assets
does not matter: `solve` yields the same weights and the relabelled predictions, and fails in the same cases. -/
theorem C62_harmless_order {P : Panel τ n K} {returns returns' : Dict τ (Vec n)} {c c' : Comb τ n K}
    (h : P.Gives returns c) (σ : Equiv.Perm (Fin n)) (h' : (P.permAssets σ).Gives returns' c') (hlen : 2 ≤ P.len)
    (hσ : ∀ t, t < P.len → ∀ k, Harmless σ (P.cov t k))
    (solver solver' : Solver n K) (hs : solver.Exact) (hc : solver.Complete) (hs' : solver'.Exact)
    (hc' : solver'.Complete) (window : Option ℕ) (times : Option (List τ)) (a b : ℕ)
    (hreq : P.Request (effWindow window (P.len - 1)) times a b) :
    c'.solve solver' window times = (c.solve solver window times).mapResults fun r => r.permAssets σ := by
  apply trace_transport h h' hlen rfl (fun _ => rfl) hs hc hs' hc' window hreq id
  · intro W t _ h2
    rw [gram_permA h.ok σ h2 fun s hs k => hσ s (by omega) k]
  · intro W t w _ h2 hw
    refine ⟨hw.1, fun w' hw' => ?_⟩
    have hσ' := fun s (hs : s < t) k => hσ s (by omega) k
    rw [id, logLik_permA h.ok σ h2 hσ', logLik_permA h.ok σ h2 hσ']
    exact hw.2 w' hw'
  · intro t w ht hw
    unfold Panel.predict Panel.permAssets Result.permAssets
    simp only [id]
    rw [blendCov_permA (h.ok.posDef t ht) σ (hσ t ht), blendMean_permA (h.ok.posDef t ht) _ σ (hσ t ht)]

/-- **C62**, positive part for experts that predict uncorrelated returns. -/
theorem C62_uncorrelated {P : Panel τ n K} {returns returns' : Dict τ (Vec n)} {c c' : Comb τ n K}
    (h : P.Gives returns c) (σ : Equiv.Perm (Fin n)) (h' : (P.permAssets σ).Gives returns' c') (hlen : 2 ≤ P.len)
    (hd : ∀ t, t < P.len → ∀ k i j, i ≠ j → P.cov t k i j = 0)
    (solver solver' : Solver n K) (hs : solver.Exact) (hc : solver.Complete) (hs' : solver'.Exact)
    (hc' : solver'.Complete) (window : Option ℕ) (times : Option (List τ)) (a b : ℕ)
    (hreq : P.Request (effWindow window (P.len - 1)) times a b) :
    c'.solve solver' window times = (c.solve solver window times).mapResults fun r => r.permAssets σ :=
  C62_harmless_order h σ h' hlen (fun t ht k => harmless_of_diag (h.ok.posDef t ht k) (hd t ht k) σ) solver solver'
    hs hc hs' hc' window times a b hreq

/-! ### A panel for which the order matters -/

namespace OrderDemo

/-- The experts agree up to an exchange of the two (uncorrelated) assets until the last position, where they predict
the identity and a correlated covariance. -/
noncomputable def panel : Panel ℕ 2 2 where
  len := 3
  time := id
  cov t := if t < 2 then ![Matrix.diagonal ![1, 4], Matrix.diagonal ![4, 1]] else ![1, (Demo.L1 * Demo.L1ᵀ)⁻¹]
  mean _ _ := 0
  ret _ := ![1, 1]

/-- the exchange of the assets (and of the experts) -/
abbrev sw : Equiv.Perm (Fin 2) := Equiv.swap 0 1

theorem diag_pos : ∀ i, 0 < (![1, 4] : Vec 2) i := by intro i; fin_cases i <;> norm_num
theorem diag_pos' : ∀ i, 0 < (![4, 1] : Vec 2) i := by intro i; fin_cases i <;> norm_num

theorem cov_early {t : ℕ} (ht : t < 2) : panel.cov t = ![Matrix.diagonal ![1, 4], Matrix.diagonal ![4, 1]] := by
  show (if t < 2 then _ else _) = _
  rw [if_pos ht]

theorem cov_late : panel.cov 2 = ![1, (Demo.L1 * Demo.L1ᵀ)⁻¹] := by
  show (if (2 : ℕ) < 2 then (![Matrix.diagonal ![1, 4], Matrix.diagonal ![4, 1]] : Fin 2 → Mat 2)
    else ![1, (Demo.L1 * Demo.L1ᵀ)⁻¹]) = _
  rw [if_neg (by norm_num)]

theorem panel_ok : panel.Ok where
  time_lt s t h _ := h
  posDef t ht k := by
    by_cases h : t < 2
    · rw [cov_early h]
      fin_cases k
      · exact Matrix.PosDef.diagonal diag_pos
      · exact Matrix.PosDef.diagonal diag_pos'
    · have : t = 2 := by have : t < 3 := ht; omega
      subst this
      rw [cov_late]
      fin_cases k
      · exact Matrix.PosDef.one
      · exact Demo.isChol_L1.posDef.inv

theorem harmless {t : ℕ} (ht : t < 2) (k : Fin 2) : Harmless sw (panel.cov t k) := by
  apply harmless_of_diag (panel_ok.posDef t (by show t < 3; omega) k)
  intro i j hij
  rw [cov_early ht]
  fin_cases k
  · exact Matrix.diagonal_apply_ne _ hij
  · exact Matrix.diagonal_apply_ne _ hij

theorem scores {s : ℕ} (h0 : 0 < s) (h : s ≤ 2) : panel.scores s = !![1, 1 / 2; 1 / 2, 1] := by
  have h4 : Real.sqrt 4 = 2 := by rw [show (4 : ℝ) = 2 ^ 2 by norm_num]; exact Real.sqrt_sq (by norm_num)
  ext i k
  unfold Panel.scores
  rw [Matrix.of_apply, cov_early (by omega)]
  fin_cases k
  · show ((precFactor (Matrix.diagonal ![1, 4]))ᵀ *ᵥ _) i = _
    rw [precFactor_diagonal diag_pos, Matrix.diagonal_transpose, Matrix.mulVec_diagonal]
    fin_cases i <;> simp [panel, h4]
  · show ((precFactor (Matrix.diagonal ![4, 1]))ᵀ *ᵥ _) i = _
    rw [precFactor_diagonal diag_pos', Matrix.diagonal_transpose, Matrix.mulVec_diagonal]
    fin_cases i <;> simp [panel, h4]

theorem gram : (panel.gram 2 2).PosDef := by
  have e : panel.gram 2 2 = ∑ s ∈ Finset.Ioc 0 2, (!![1, 1 / 2; 1 / 2, 1] : Mat 2)ᵀ * !![1, 1 / 2; 1 / 2, 1] := by
    unfold Panel.gram
    apply Finset.sum_congr rfl
    intro s hs
    rw [Finset.mem_Ioc] at hs
    rw [scores (by omega) (by omega)]
  rw [e, Finset.sum_const, Nat.card_Ioc]
  have hB : (!![1, 1 / 2; 1 / 2, 1] : Mat 2).det ≠ 0 := by rw [Matrix.det_fin_two]; norm_num [Matrix.of_apply]
  have h1 : ((!![1, 1 / 2; 1 / 2, 1] : Mat 2)ᵀ * !![1, 1 / 2; 1 / 2, 1]).PosDef := by
    have := posDef_of_mul (L := (!![1, 1 / 2; 1 / 2, 1] : Mat 2)ᵀ) (by rwa [Matrix.det_transpose])
    rwa [Matrix.transpose_transpose] at this
  have := Matrix.PosDef.smul h1 (show (0 : ℝ) < ((2 : ℕ) : ℝ) by norm_num)
  rwa [Nat.cast_smul_eq_nsmul] at this

theorem diag_swap : (Matrix.diagonal (![1, 4] : Vec 2)).submatrix sw sw = Matrix.diagonal ![4, 1] := by
  ext i j; fin_cases i <;> fin_cases j <;> simp [sw]

theorem diag_swap' : (Matrix.diagonal (![4, 1] : Vec 2)).submatrix sw sw = Matrix.diagonal ![1, 4] := by
  ext i j; fin_cases i <;> fin_cases j <;> simp [sw]

/-- exchanging both the assets and the experts changes nothing before the last position -/
theorem logLik_swap (w : Vec 2) : panel.logLik 2 2 (fun k => w (sw k)) = panel.logLik 2 2 w := by
  have h1 := logLik_permA panel_ok sw (W := 2) (t := 2) (by show 2 < 3; norm_num) (fun s hs k => harmless hs k) w
  rw [← h1, ← logLik_perm (panel.permAssets sw) sw 2 2 w]
  unfold Panel.logLik Panel.permExperts Panel.permAssets
  apply Finset.sum_congr rfl
  intro s hs
  rw [Finset.mem_Ioc] at hs
  have hc : (fun k => (panel.cov (s - 1) (sw k)).submatrix sw sw) = panel.cov (s - 1) := by
    rw [cov_early (by omega)]
    funext k
    fin_cases k
    · show (Matrix.diagonal ![4, 1]).submatrix sw sw = Matrix.diagonal ![1, 4]; exact diag_swap'
    · show (Matrix.diagonal ![1, 4]).submatrix sw sw = Matrix.diagonal ![4, 1]; exact diag_swap
  have hr : (fun i => panel.ret s (sw i)) = panel.ret s := by
    funext i; fin_cases i <;> simp [panel, sw]
  simp only
  rw [hc, hr]
  rfl

/-- by symmetry both experts get the same weight -/
theorem best_half : panel.best 2 2 = fun _ => 1 / 2 := by
  have hb := best_optimal panel_ok (by norm_num) (le_refl 2) (by show 2 < 3; norm_num) gram
  have hb' : panel.Optimal 2 2 fun k => panel.best 2 2 (sw k) := by
    refine ⟨(simplex_perm sw).mpr hb.1, fun w' hw' => ?_⟩
    rw [logLik_swap]
    exact hb.2 w' hw'
  have := optimal_unique panel_ok (le_refl 2) (by show 2 < 3; norm_num) gram hb hb'
  have h0 : panel.best 2 2 0 = panel.best 2 2 1 := by have := congrFun this 0; simpa [sw] using this
  have h1 := hb.1.sum_one
  rw [Fin.sum_univ_two] at h1
  funext k
  fin_cases k
  · show panel.best 2 2 0 = 1 / 2; linarith
  · show panel.best 2 2 1 = 1 / 2; linarith

theorem precFactor_swapped :
    precFactor ((Demo.L1 * Demo.L1ᵀ)⁻¹.submatrix sw sw)
      = !![Real.sqrt 5, 0; (Real.sqrt 5)⁻¹, 2 * (Real.sqrt 5)⁻¹] := by
  have h5 : Real.sqrt 5 * Real.sqrt 5 = 5 := Real.mul_self_sqrt (by norm_num)
  have hp : 0 < Real.sqrt 5 := Real.sqrt_pos.mpr (by norm_num)
  apply precFactor_eq
  refine ⟨?_, ?_, ?_⟩
  · intro i j hij
    fin_cases i <;> fin_cases j <;> simp_all
  · intro i
    fin_cases i <;> simp
  · rw [Matrix.inv_submatrix_equiv, Matrix.nonsing_inv_nonsing_inv _ Demo.isUnit_L1]
    have hi : (Real.sqrt 5)⁻¹ * (Real.sqrt 5)⁻¹ = 1 / 5 := by rw [← mul_inv, h5]; norm_num
    have hm : Real.sqrt 5 * (Real.sqrt 5)⁻¹ = 1 := mul_inv_cancel₀ hp.ne'
    have hL : Demo.L1 * Demo.L1ᵀ = !![1, 1; 1, 5] := by
      ext i j
      fin_cases i <;> fin_cases j <;>
        norm_num [Matrix.mul_apply, Fin.sum_univ_two, Demo.L1, Matrix.vecMul, dotProduct, Matrix.transpose_apply]
    rw [hL]
    ext i j
    fin_cases i <;> fin_cases j <;>
      simp [Matrix.mul_apply, Fin.sum_univ_two, sw]
    nlinarith

/-- the covariances predicted for the two orders do not agree -/
theorem blend_differs : blendCov ((panel.permAssets sw).cov 2) (fun _ => 1 / 2)
    ≠ (blendCov (panel.cov 2) (fun _ => 1 / 2)).submatrix sw sw := by
  intro h
  have h5 : Real.sqrt 5 * Real.sqrt 5 = 5 := Real.mul_self_sqrt (by norm_num)
  have hw : Simplex (fun _ : Fin 2 => (1 / 2 : ℝ)) := ⟨fun _ => by norm_num, by norm_num [Fin.sum_univ_two]⟩
  have hpd := panel_ok.posDef 2 (by show 2 < 3; norm_num)
  have hpd' := (permAssets_ok panel_ok sw).posDef 2 (by show 2 < 3; norm_num)
  have h1 := congrArg (fun M => M⁻¹) h
  simp only [Matrix.inv_submatrix_equiv] at h1
  unfold blendCov at h1
  have hu := (posDef_of_mul (blendFactor_det hpd hw)).det_pos.ne'
  have hu' := (posDef_of_mul (blendFactor_det hpd' hw)).det_pos.ne'
  rw [Matrix.nonsing_inv_nonsing_inv _ (isUnit_iff_ne_zero.mpr hu),
    Matrix.nonsing_inv_nonsing_inv _ (isUnit_iff_ne_zero.mpr hu')] at h1
  have e1 : blendFactor (panel.cov 2) (fun _ => 1 / 2) = (1 / 2 : ℝ) • (1 : Mat 2) + (1 / 2 : ℝ) • Demo.L1 := by
    unfold blendFactor
    rw [Fin.sum_univ_two, cov_late]
    show (1 / 2 : ℝ) • precFactor (1 : Mat 2) + (1 / 2 : ℝ) • precFactor (Demo.L1 * Demo.L1ᵀ)⁻¹ = _
    rw [show precFactor (1 : Mat 2) = 1 from Demo.precFactor_0 0,
      show precFactor (Demo.L1 * Demo.L1ᵀ)⁻¹ = Demo.L1 from Demo.precFactor_1 0]
  have e2 : blendFactor ((panel.permAssets sw).cov 2) (fun _ => 1 / 2) = (1 / 2 : ℝ) • (1 : Mat 2)
      + (1 / 2 : ℝ) • !![Real.sqrt 5, 0; (Real.sqrt 5)⁻¹, 2 * (Real.sqrt 5)⁻¹] := by
    unfold blendFactor Panel.permAssets
    rw [Fin.sum_univ_two]
    simp only [cov_late]
    show (1 / 2 : ℝ) • precFactor ((1 : Mat 2).submatrix sw sw)
      + (1 / 2 : ℝ) • precFactor ((Demo.L1 * Demo.L1ᵀ)⁻¹.submatrix sw sw) = _
    rw [Matrix.submatrix_one_equiv, precFactor_swapped, show precFactor (1 : Mat 2) = 1 from Demo.precFactor_0 0]
  rw [e1, e2] at h1
  have h2 := congrFun (congrFun h1 0) 0
  simp [Matrix.mul_apply, Fin.sum_univ_two, Demo.L1, sw] at h2
  nlinarith

/-- the frame of returns -/
noncomputable def returns : Dict ℕ (Vec 2) := (List.range 3).map fun t => (t, panel.ret t)

theorem gives : panel.Gives returns (panel.comb returns) :=
  ⟨panel_ok, fun t _ ht => lookup_map_range (time := (id : ℕ → ℕ)) (N := 3) (fun s t h _ => h) _ t ht, by norm_num,
    Or.inl (fromSigmas_panel panel_ok (by norm_num) _)⟩

/-- the relabelled panel -/
noncomputable def panel' : Panel ℕ 2 2 := panel.permAssets sw

/-- the relabelled frame of returns -/
noncomputable def returns' : Dict ℕ (Vec 2) := (List.range 3).map fun t => (t, panel'.ret t)

theorem panel'_ok : panel'.Ok := permAssets_ok panel_ok sw

theorem gives' : panel'.Gives returns' (panel'.comb returns') :=
  ⟨panel'_ok, fun t _ ht => lookup_map_range (time := (id : ℕ → ℕ)) (N := 3) (fun s t h _ => h) _ t ht, by norm_num,
    Or.inl (fromSigmas_panel panel'_ok (by norm_num) _)⟩

theorem gram' : (panel'.gram 2 2).PosDef := by
  unfold panel'
  rw [gram_permA panel_ok sw (by show 2 < 3; norm_num) fun s hs k => harmless hs k]
  exact gram

theorem solve_eq {P : Panel ℕ 2 2} {returns : Dict ℕ (Vec 2)} (hG : P.Gives returns (P.comb returns)) (hl : P.len = 3)
    (hg : (P.gram 2 2).PosDef) {solver : Solver 2 2} (hs : solver.Exact) (hc : solver.Complete) :
    (P.comb returns).solve solver none none = ⟨[some (P.predict 2 (P.best 2 2))], none⟩ := by
  have h := solve_run_none hG (by omega) hs.feasible none
  have e : effWindow none (P.len - 1) = 2 := by rw [hl]; rfl
  rw [e, hl] at h
  have := run_complete hG.ok (by norm_num) hs hc (le_refl 2) (by omega) h fun t h1 h2 => by
    rw [show t = 2 by omega]; exact hg
  rw [this, show List.range' 2 (3 - 2) = [2] by decide]
  rfl

theorem best' : panel'.best 2 2 = fun _ => 1 / 2 := by
  have ho := best_optimal panel'_ok (by norm_num) (le_refl 2) (by show 2 < 3; norm_num) gram'
  have ho' : panel.Optimal 2 2 (panel'.best 2 2) := by
    refine ⟨ho.1, fun w' hw' => ?_⟩
    have := ho.2 w' hw'
    unfold panel' at this
    rwa [logLik_permA panel_ok sw (by show 2 < 3; norm_num) (fun s hs k => harmless hs k),
      logLik_permA panel_ok sw (by show 2 < 3; norm_num) (fun s hs k => harmless hs k)] at this
  rw [← best_half]
  exact optimal_unique panel_ok (le_refl 2) (by show 2 < 3; norm_num) gram ho'
    (best_optimal panel_ok (by norm_num) (le_refl 2) (by show 2 < 3; norm_num) gram)

theorem same_time (w w' : Vec 2) : (panel'.predict 2 w').time = (panel.predict 2 w).time := rfl

theorem same_weights : (panel'.predict 2 (panel'.best 2 2)).weights = (panel.predict 2 (panel.best 2 2)).weights :=
  best'.trans best_half.symm

theorem differs : (panel'.predict 2 (panel'.best 2 2)).covariance
    ≠ (panel.predict 2 (panel.best 2 2)).covariance.submatrix sw sw := by
  rw [best', best_half]
  exact blend_differs

end OrderDemo

/-- **C62.** The order of the assets matters, even with exact solvers: there are experts and returns such that
`solve` on the data and on the relabelled data yields one result each, at the same time and with the same weights, but
the second covariance is not the relabelled first one. -/
theorem C62_order_matters : ∃ (P : Panel ℕ 2 2) (σ : Equiv.Perm (Fin 2)) (returns returns' : Dict ℕ (Vec 2))
    (c c' : Comb ℕ 2 2), P.Gives returns c ∧ (P.permAssets σ).Gives returns' c' ∧
    ∀ solver : Solver 2 2, solver.Exact → solver.Complete →
      ∃ r r', c.solve solver = ⟨[some r], none⟩ ∧ c'.solve solver = ⟨[some r'], none⟩ ∧
        r'.time = r.time ∧ r'.weights = r.weights ∧ r'.covariance ≠ r.covariance.submatrix σ σ := by
  refine ⟨OrderDemo.panel, OrderDemo.sw, OrderDemo.returns, OrderDemo.returns', _, _, OrderDemo.gives, OrderDemo.gives',
    fun solver hs hc => ⟨_, _, OrderDemo.solve_eq OrderDemo.gives rfl OrderDemo.gram hs hc,
      OrderDemo.solve_eq OrderDemo.gives' rfl OrderDemo.gram' hs hc, OrderDemo.same_time _ _, OrderDemo.same_weights,
      OrderDemo.differs⟩⟩

/-- The hypotheses of the positive part are met: the first two positions of the same panel. -/
example : ∃ (P : Panel ℕ 2 2) (returns returns' : Dict ℕ (Vec 2)) (c c' : Comb ℕ 2 2), P.Gives returns c ∧
    (P.permAssets OrderDemo.sw).Gives returns' c' ∧ 2 ≤ P.len ∧
    (∀ t, t < P.len → ∀ k i j, i ≠ j → P.cov t k i j = 0) ∧ P.cov 0 0 ≠ P.cov 0 1 := by
  let P : Panel ℕ 2 2 := { OrderDemo.panel with len := 2 }
  have hP : P.Ok := ⟨fun s t h _ => h, fun t ht k => OrderDemo.panel_ok.posDef t (lt_trans ht (by show 2 < 3; norm_num)) k⟩
  have hP' := permAssets_ok hP OrderDemo.sw
  refine ⟨P, (List.range 2).map fun t => (t, P.ret t),
    (List.range 2).map fun t => (t, (P.permAssets OrderDemo.sw).ret t), _, _,
    ⟨hP, fun t _ ht => lookup_map_range (time := (id : ℕ → ℕ)) (N := 2) (fun s t h _ => h) _ t ht, by norm_num,
      Or.inl (fromSigmas_panel hP (by norm_num) _)⟩,
    ⟨hP', fun t _ ht => lookup_map_range (time := (id : ℕ → ℕ)) (N := 2) (fun s t h _ => h) _ t ht, by norm_num,
      Or.inl (fromSigmas_panel hP' (by norm_num) _)⟩, le_refl 2, ?_, ?_⟩
  · intro t ht k i j hij
    show OrderDemo.panel.cov t k i j = 0
    rw [OrderDemo.cov_early ht]
    fin_cases k
    · exact Matrix.diagonal_apply_ne _ hij
    · exact Matrix.diagonal_apply_ne _ hij
  · show OrderDemo.panel.cov 0 0 ≠ OrderDemo.panel.cov 0 1
    rw [OrderDemo.cov_early (by norm_num)]
    intro h
    have := congrFun (congrFun h 0) 0
    norm_num at this

end CovPred
