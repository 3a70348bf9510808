import Verif.Props.EmFixed
import Verif.Lemmas.Continuity
import Mathlib.Topology.MetricSpace.Sequences

/-
Property C202: EM regularisation depends continuously on its data, and what becomes of it if it is repeated (regularization.py:80-126).
-/
set_option linter.unusedSectionVars false

namespace CovPred
open Matrix Filter

variable {τ : Type} [LinearOrder τ] {n k : ℕ}

/-- Two factor models whose loadings and idiosyncratic variances differ by less than `e`. -/
def LowRankDiag.Within (e : ℝ) (x y : LowRankDiag n k) : Prop := (∀ i j, |y.F i j - x.F i j| < e) ∧ ∀ i, |y.d i - x.d i| < e

/-! ### Continuity -/

private theorem tendsto_rec {X : Type} {l : Filter X} {d : X → Vec n} {d0 : Vec n} (hd : Tendsto d l (nhds d0)) (hp : ∀ i, 0 < d0 i) :
    Tendsto (fun x => rec' (d x)) l (nhds (rec' d0)) := by
  rw [tendsto_matrix_iff]
  intro i j
  unfold rec'
  by_cases h : i = j
  · subst h
    simp only [Matrix.diagonal_apply_eq]
    exact tendsto_const_nhds.div ((tendsto_pi_nhds.1 hd) i) (hp i).ne'
  · simp only [Matrix.diagonal_apply_ne _ h]
    exact tendsto_const_nhds

private theorem tendsto_matrix_add {X : Type} {l : Filter X} {p q : ℕ} {A B : X → Matrix (Fin p) (Fin q) ℝ} {A0 B0 : Matrix (Fin p) (Fin q) ℝ}
    (hA : Tendsto A l (nhds A0)) (hB : Tendsto B l (nhds B0)) : Tendsto (fun x => A x + B x) l (nhds (A0 + B0)) := by
  rw [tendsto_matrix_iff] at *
  exact fun i j => (hA i j).add (hB i j)

/-- one pass is continuous -/
private theorem emStep_tendsto {X : Type} {l : Filter X} {S : X → Mat n} {S0 : Mat n} {F : X → Matrix (Fin n) (Fin k) ℝ} {F0 : Matrix (Fin n) (Fin k) ℝ}
    {d : X → Vec n} {d0 : Vec n} (hS : Tendsto S l (nhds S0)) (hF : Tendsto F l (nhds F0)) (hd : Tendsto d l (nhds d0)) (hS0 : S0.PosSemidef)
    (hp : ∀ i, 0 < d0 i) :
    Tendsto (fun x => emF (S x) (F x) (d x)) l (nhds (emF S0 F0 d0)) ∧
    Tendsto (fun x i => emPhi (S x) (F x) (d x) i (emF (S x) (F x) (d x) i)) l (nhds fun i => emPhi S0 F0 d0 i (emF S0 F0 d0 i)) := by
  have hr := tendsto_rec hd hp
  have hA : Tendsto (fun x => emA (F x) (d x)) l (nhds (emA F0 d0)) :=
    tendsto_matrix_add (tendsto_matrix_mul (tendsto_matrix_mul (tendsto_matrix_transpose hF) hr) hF) tendsto_const_nhds
  have hG : Tendsto (fun x => emG (F x) (d x)) l (nhds (emG F0 d0)) := tendsto_matrix_inv hA (emA_posDef F0 hp).det_pos.ne'
  have hL : Tendsto (fun x => emL (F x) (d x)) l (nhds (emL F0 d0)) := tendsto_matrix_mul (tendsto_matrix_mul hG (tendsto_matrix_transpose hF)) hr
  have hX : Tendsto (fun x => emCxs (S x) (F x) (d x)) l (nhds (emCxs S0 F0 d0)) := tendsto_matrix_mul hS (tendsto_matrix_transpose hL)
  have hC : Tendsto (fun x => emCss (S x) (F x) (d x)) l (nhds (emCss S0 F0 d0)) := tendsto_matrix_add (tendsto_matrix_mul hL hX) hG
  have hE : Tendsto (fun x => emF (S x) (F x) (d x)) l (nhds (emF S0 F0 d0)) :=
    tendsto_matrix_mul hX (tendsto_matrix_inv hC (emCss_posDef hS0 F0 hp).det_pos.ne')
  refine ⟨hE, tendsto_pi_nhds.2 fun i => ?_⟩
  have hrow : ∀ {A : X → Matrix (Fin n) (Fin k) ℝ} {A0 : Matrix (Fin n) (Fin k) ℝ}, Tendsto A l (nhds A0) → Tendsto (fun x => A x i) l (nhds (A0 i)) :=
    fun h => tendsto_pi_nhds.2 fun j => (tendsto_matrix_iff.1 h) i j
  exact (((tendsto_matrix_iff.1 hS) i i).sub ((tendsto_dotProduct (hrow hX) (hrow hE)).const_mul 2)).add
    (tendsto_dotProduct (hrow hE) (tendsto_matrix_mulVec hC (hrow hE)))

/-- `m` passes as a function -/
private noncomputable def passes (S : Mat n) : ℕ → LowRankDiag n k → LowRankDiag n k
  | 0, x => x
  | m + 1, x => passes S m { F := emF S x.F x.d, d := fun i => emPhi S x.F x.d i (emF S x.F x.d i) }

private theorem emLoop_passes {S : Mat n} (hS : S.PosDef) (m : ℕ) (x : LowRankDiag n k) (hd : ∀ i, 0 < x.d i) :
    emLoop S m x = .ok (passes S m x) ∧ ∀ i, 0 < (passes S m x).d i := by
  induction m generalizing x with
  | zero => exact ⟨rfl, hd⟩
  | succ m ih =>
    obtain ⟨h1, h2⟩ := ih { F := emF S x.F x.d, d := fun i => emPhi S x.F x.d i (emF S x.F x.d i) }
      (fun i => emPhi_pos hS x.F hd i (emF S x.F x.d i))
    refine ⟨?_, h2⟩
    show (emStep S x >>= fun y => emLoop S m y) = _
    rw [emStep_eq hS.posSemidef x hd]
    exact h1

private theorem passes_tendsto {X : Type} {l : Filter X} {S : X → Mat n} {S0 : Mat n} (hS : Tendsto S l (nhds S0)) (hS0 : S0.PosDef) (m : ℕ)
    {y : X → LowRankDiag n k} {y0 : LowRankDiag n k} (hF : Tendsto (fun x => (y x).F) l (nhds y0.F)) (hd : Tendsto (fun x => (y x).d) l (nhds y0.d))
    (hp : ∀ i, 0 < y0.d i) :
    Tendsto (fun x => (passes (S x) m (y x)).F) l (nhds (passes S0 m y0).F) ∧
    Tendsto (fun x => (passes (S x) m (y x)).d) l (nhds (passes S0 m y0).d) := by
  induction m generalizing y y0 with
  | zero => exact ⟨hF, hd⟩
  | succ m ih =>
    obtain ⟨h1, h2⟩ := emStep_tendsto hS hF hd hS0.posSemidef hp
    exact ih (y := fun x => { F := emF (S x) (y x).F (y x).d, d := fun i => emPhi (S x) (y x).F (y x).d i (emF (S x) (y x).F (y x).d i) })
      (y0 := { F := emF S0 y0.F y0.d, d := fun i => emPhi S0 y0.F y0.d i (emF S0 y0.F y0.d i) }) h1 h2
      (fun i => emPhi_pos hS0 y0.F hp i (emF S0 y0.F y0.d i))

private theorem em_single {S : Mat n} (hS : S.PosDef) (x : LowRankDiag n k) (hd : ∀ i, 0 < x.d i) (t : τ) :
    emRegularizeCovariance [(t, S)] [(t, x)] = ([(t, passes S 5 x)], none) := by
  unfold emRegularizeCovariance
  rw [genMap_cons_ok (b := (t, passes S 5 x)) _ ?_]
  · rfl
  · simp only [List.lookup_cons_self]
    have h := (emLoop_passes hS 5 x hd).1
    show (emLoop S 5 x >>= fun y => pure (t, y)) = _
    rw [h]; rfl

/-- **C202.** `em_regularize_covariance` depends continuously on the covariance and on the initial model: for every `e > 0` there is `d > 0` such that data
within `d` lead to a model within `e`. -/
theorem C202_continuous {S : Mat n} (hS : S.PosDef) (x : LowRankDiag n k) (hd : ∀ i, 0 < x.d i) {e : ℝ} (he : 0 < e) :
    ∃ d > 0, ∀ (t t' : τ) (S' : Mat n) (x' : LowRankDiag n k), S'.PosDef → (∀ i j, |S' i j - S i j| < d) → x.Within d x' →
      ∃ y y', emRegularizeCovariance [(t, S)] [(t, x)] = ([(t, y)], none) ∧
        emRegularizeCovariance [(t', S')] [(t', x')] = ([(t', y')], none) ∧ y.Within e y' := by
  let D := (Fin n → Fin n → ℝ) × (Fin n → Fin k → ℝ) × (Fin n → ℝ)
  let p0 : D := (S, x.F, x.d)
  have hcont : ContinuousAt (fun p : D => p) p0 := continuousAt_id
  have h1 : Tendsto (fun p : D => (p.1 : Mat n)) (nhds p0) (nhds S) := (continuous_fst.tendsto p0)
  have h2 : Tendsto (fun p : D => (p.2.1 : Matrix (Fin n) (Fin k) ℝ)) (nhds p0) (nhds x.F) := ((continuous_fst.comp continuous_snd).tendsto p0)
  have h3 : Tendsto (fun p : D => p.2.2) (nhds p0) (nhds x.d) := ((continuous_snd.comp continuous_snd).tendsto p0)
  obtain ⟨g1, g2⟩ := passes_tendsto h1 hS 5 (y := fun p : D => { F := p.2.1, d := p.2.2 }) (y0 := x) h2 h3 hd
  have hev : ∀ᶠ p : D in nhds p0, ((passes S 5 x).Within e (passes (p.1 : Mat n) 5 { F := p.2.1, d := p.2.2 })) ∧ ∀ i, 0 < p.2.2 i := by
    refine Filter.Eventually.and (Filter.Eventually.and ?_ ?_) ?_
    · refine eventually_all.2 fun i => eventually_all.2 fun j => ?_
      have := (((tendsto_matrix_iff.1 g1) i j).sub_const ((passes S 5 x).F i j)).abs
      rw [sub_self, abs_zero] at this
      exact this.eventually (gt_mem_nhds he)
    · refine eventually_all.2 fun i => ?_
      have := ((tendsto_pi_nhds.1 g2 i).sub_const ((passes S 5 x).d i)).abs
      rw [sub_self, abs_zero] at this
      exact this.eventually (gt_mem_nhds he)
    · exact eventually_all.2 fun i => (tendsto_pi_nhds.1 h3 i).eventually (lt_mem_nhds (hd i))
  obtain ⟨d, hd0, hball⟩ := Metric.eventually_nhds_iff.1 hev
  refine ⟨d, hd0, fun t t' S' x' hS' hc hx => ?_⟩
  have hdist : dist ((S', x'.F, x'.d) : D) p0 < d := by
    rw [Prod.dist_eq, Prod.dist_eq]
    refine max_lt ((dist_pi_lt_iff hd0).2 fun i => (dist_pi_lt_iff hd0).2 fun j => ?_)
      (max_lt ((dist_pi_lt_iff hd0).2 fun i => (dist_pi_lt_iff hd0).2 fun j => ?_) ((dist_pi_lt_iff hd0).2 fun i => ?_))
    · exact hc i j
    · exact hx.1 i j
    · exact hx.2 i
  obtain ⟨a1, a2⟩ := hball hdist
  exact ⟨_, _, em_single hS x hd t, em_single hS' x' a2 t', a1⟩

/-! ### Repeated calls -/

private theorem loglik_tendsto {X : Type} {l : Filter X} (S : Mat n) {F : X → Matrix (Fin n) (Fin k) ℝ} {F0 : Matrix (Fin n) (Fin k) ℝ} {d : X → Vec n}
    {d0 : Vec n} (hF : Tendsto F l (nhds F0)) (hd : Tendsto d l (nhds d0)) (hp : (factorCov F0 d0).PosDef) :
    Tendsto (fun x => factorLogLik S (F x) (d x)) l (nhds (factorLogLik S F0 d0)) := by
  have hC : Tendsto (fun x => factorCov (F x) (d x)) l (nhds (factorCov F0 d0)) := by
    refine tendsto_matrix_add (tendsto_matrix_mul hF (tendsto_matrix_transpose hF)) ?_
    rw [tendsto_matrix_iff]
    intro i j
    by_cases h : i = j
    · subst h
      simp only [Matrix.diagonal_apply_eq]
      exact (tendsto_pi_nhds.1 hd) i
    · simp only [Matrix.diagonal_apply_ne _ h]
      exact tendsto_const_nhds
  have hdet : Tendsto (fun x => (factorCov (F x) (d x)).det) l (nhds (factorCov F0 d0).det) :=
    ((Continuous.matrix_det continuous_id).tendsto _).comp hC
  have htr : Tendsto (fun x => (S * (factorCov (F x) (d x))⁻¹).trace) l (nhds (S * (factorCov F0 d0)⁻¹).trace) :=
    ((Continuous.matrix_trace continuous_id).tendsto _).comp (tendsto_matrix_mul tendsto_const_nhds (tendsto_matrix_inv hC hp.det_pos.ne'))
  exact ((hdet.log hp.det_pos.ne').neg).sub htr

private theorem loglik_le {S : Mat n} (hS : S.PosDef) (F : Matrix (Fin n) (Fin k) ℝ) {d : Vec n} (hd : ∀ i, 0 < d i) :
    factorLogLik S F d ≤ -Real.log S.det - n := by
  have h := log_det_mul_le_trace hS (factorCov_posDef F hd).inv
  rw [Matrix.det_nonsing_inv, Ring.inverse_eq_inv', Real.log_inv] at h
  unfold factorLogLik
  linarith

/-- models of a given likelihood are bounded -/
private theorem cov_bound {S : Mat n} (hS : S.PosDef) (c : ℝ) :
    ∃ B, 0 ≤ B ∧ ∀ (F : Matrix (Fin n) (Fin k) ℝ) (d : Vec n), (∀ i, 0 < d i) → c ≤ factorLogLik S F d → ∀ i, factorCov F d i i ≤ B := by
  obtain ⟨V, nu, v1, v2, v3⟩ := exists_eigen (symm_of_posSemidef hS.posSemidef)
  obtain ⟨s, hs, hsl⟩ : ∃ s > 0, ∀ l, s ≤ nu l := by
    rcases Nat.eq_zero_or_pos n with h0 | h0
    · subst h0; exact ⟨1, one_pos, fun l => l.elim0⟩
    · exact ⟨nu ⟨0, h0⟩, eigen_pos v1 v2 hS _, fun l => v3 (by rw [Fin.le_def]; exact Nat.zero_le _)⟩
  refine ⟨Real.exp (-c - (n - 1) * (1 + Real.log s)), (Real.exp_pos _).le, fun F d hd hc i => ?_⟩
  have hP := factorCov_posDef F hd
  set M := factorCov F d with hM
  obtain ⟨U, mu, u1, u2, u3⟩ := exists_eigen (symm_of_posSemidef hP.posSemidef)
  have hmu := eigen_pos u1 u2 hP
  have hU := mul_orth u1
  have hdet : Real.log M.det = ∑ l, Real.log (mu l) := by
    have hu : U.det * U.det = 1 := by
      have := congrArg Matrix.det u1
      rwa [Matrix.det_mul, Matrix.det_transpose, Matrix.det_one] at this
    have : M.det = ∏ i, mu i := by
      conv_lhs => rw [u2]
      rw [Matrix.det_mul, Matrix.det_mul, Matrix.det_transpose, Matrix.det_diagonal]
      calc U.det * (∏ i, mu i) * U.det = (U.det * U.det) * ∏ i, mu i := by ring
        _ = _ := by rw [hu, one_mul]
    rw [this, Real.log_prod fun l _ => (hmu l).ne']
  have hinv : M⁻¹ = U * diagonal (fun l => (mu l)⁻¹) * Uᵀ := by
    apply Matrix.inv_eq_right_inv
    conv_lhs => rw [u2]
    calc U * diagonal mu * Uᵀ * (U * diagonal (fun l => (mu l)⁻¹) * Uᵀ) = U * (diagonal mu * (Uᵀ * U) * diagonal (fun l => (mu l)⁻¹)) * Uᵀ := by
          simp only [Matrix.mul_assoc]
      _ = 1 := by
          rw [u1, Matrix.mul_one, Matrix.diagonal_mul_diagonal]
          have : (fun l => mu l * (mu l)⁻¹) = fun _ => (1 : ℝ) := funext fun l => mul_inv_cancel₀ (hmu l).ne'
          rw [this, Matrix.diagonal_one, Matrix.mul_one, hU]
  have htr : s * ∑ l, (mu l)⁻¹ ≤ (S * M⁻¹).trace := by
    have hps : (S - s • (1 : Mat n)).PosSemidef := by
      have e : S - s • (1 : Mat n) = V * diagonal (fun l => nu l - s) * Vᵀ := by
        have : diagonal (fun l => nu l - s) = diagonal nu - s • (1 : Mat n) := by
          ext a b
          by_cases hab : a = b
          · subst hab; simp
          · simp [hab]
        rw [this, Matrix.mul_sub, Matrix.sub_mul, ← v2, Matrix.mul_smul, Matrix.smul_mul, Matrix.mul_one, mul_orth v1]
      rw [e]
      exact diag_conj_posSemidef _ fun l => sub_nonneg.2 (hsl l)
    have := trace_mul_nonneg hP.inv hps
    rw [Matrix.mul_sub, Matrix.trace_sub, Matrix.mul_smul, Matrix.mul_one, Matrix.trace_smul, Matrix.trace_mul_comm, smul_eq_mul] at this
    have e2 : (M⁻¹).trace = ∑ l, (mu l)⁻¹ := by
      rw [hinv, Matrix.trace_mul_comm, ← Matrix.mul_assoc, u1, Matrix.one_mul, Matrix.trace_diagonal]
    rw [e2] at this
    linarith
  have hlog : ∀ l, 1 + Real.log s ≤ Real.log (mu l) + s * (mu l)⁻¹ := by
    intro l
    have := Real.log_le_sub_one_of_pos (mul_pos hs (inv_pos.2 (hmu l)))
    rw [Real.log_mul hs.ne' (inv_pos.2 (hmu l)).ne', Real.log_inv] at this
    linarith
  have hmax : ∀ l, mu l ≤ Real.exp (-c - (n - 1) * (1 + Real.log s)) := by
    intro l
    rw [← Real.log_le_iff_le_exp (hmu l)]
    have hsum : ∑ j ∈ Finset.univ.erase l, (1 + Real.log s) ≤ ∑ j ∈ Finset.univ.erase l, (Real.log (mu j) + s * (mu j)⁻¹) :=
      Finset.sum_le_sum fun j _ => hlog j
    rw [Finset.sum_const, Finset.card_erase_of_mem (Finset.mem_univ l), Finset.card_univ, Fintype.card_fin, nsmul_eq_mul] at hsum
    have hn : ((n - 1 : ℕ) : ℝ) = n - 1 := by
      have := l.pos
      rw [Nat.cast_sub (by omega), Nat.cast_one]
    rw [hn] at hsum
    have hall : ∑ j, (Real.log (mu j) + s * (mu j)⁻¹) ≤ -c := by
      rw [Finset.sum_add_distrib, ← Finset.mul_sum, ← hdet]
      unfold factorLogLik at hc
      linarith
    rw [← Finset.add_sum_erase _ _ (Finset.mem_univ l)] at hall
    have : 0 < s * (mu l)⁻¹ := mul_pos hs (inv_pos.2 (hmu l))
    linarith
  rw [u2, diag_conj_apply]
  have hrow : ∑ l, U i l * U i l = 1 := by
    have := congrFun (congrFun hU i) i
    rwa [Matrix.mul_apply, Matrix.one_apply_eq] at this
  calc ∑ l, U i l * mu l * U i l ≤ ∑ l, Real.exp (-c - (n - 1) * (1 + Real.log s)) * (U i l * U i l) := by
        refine Finset.sum_le_sum fun l _ => ?_
        have := mul_le_mul_of_nonneg_right (hmax l) (mul_self_nonneg (U i l))
        linarith
    _ = _ := by rw [← Finset.mul_sum, hrow, mul_one]

/-- `em_regularize_covariance` called again and again for one covariance `S`, each time with the model the last call gave. -/
def RepeatedEm (t : τ) (S : Mat n) (y : ℕ → LowRankDiag n k) : Prop :=
  (∀ i, 0 < (y 0).d i) ∧ ∀ j, emRegularizeCovariance [(t, S)] [(t, y j)] = ([(t, y (j + 1))], none)

private theorem repeated_step {S : Mat n} (hS : S.PosDef) {t : τ} {y : ℕ → LowRankDiag n k} (h : RepeatedEm t S y) :
    ∀ j, y (j + 1) = passes S 5 (y j) ∧ ∀ i, 0 < (y j).d i := by
  have key : ∀ j, (∀ i, 0 < (y j).d i) → y (j + 1) = passes S 5 (y j) := by
    intro j hj
    have := (h.2 j).symm.trans (em_single hS (y j) hj t)
    simp only [Prod.mk.injEq, List.cons.injEq, true_and, and_true] at this
    exact this
  intro j
  induction j with
  | zero => exact ⟨key 0 h.1, h.1⟩
  | succ j ih =>
    have hp : ∀ i, 0 < (y (j + 1)).d i := by rw [ih.1]; exact (emLoop_passes hS 5 (y j) ih.2).2
    exact ⟨key _ hp, hp⟩

private theorem repeated_mono {S : Mat n} (hS : S.PosDef) {t : τ} {y : ℕ → LowRankDiag n k} (h : RepeatedEm t S y) :
    Monotone fun j => factorLogLik S (y j).F (y j).d := by
  refine monotone_nat_of_le_succ fun j => ?_
  obtain ⟨h1, h2⟩ := repeated_step hS h j
  obtain ⟨z, hz, -, hle⟩ := emLoop_ok hS 5 (y j) h2
  rw [(emLoop_passes hS 5 (y j) h2).1] at hz
  cases hz
  rw [h1]
  exact hle

private theorem exists_repeated {S : Mat n} (hS : S.PosDef) (t : τ) (x : LowRankDiag n k) (hd : ∀ i, 0 < x.d i) :
    ∃ y, y 0 = x ∧ RepeatedEm t S y := by
  obtain ⟨y, y0, y1⟩ : ∃ y : ℕ → LowRankDiag n k, y 0 = x ∧ ∀ j, y (j + 1) = passes S 5 (y j) :=
    ⟨fun j => (passes S 5)^[j] x, rfl, fun j => Function.iterate_succ_apply' _ _ _⟩
  have hpos : ∀ j i, 0 < (y j).d i := by
    intro j
    induction j with
    | zero => rw [y0]; exact hd
    | succ j ih => rw [y1]; exact (emLoop_passes hS 5 (y j) ih).2
  exact ⟨y, y0, hpos 0, fun j => by rw [y1]; exact em_single hS (y j) (hpos j) t⟩

private theorem repeated_bound {S : Mat n} (hS : S.PosDef) {t : τ} {y : ℕ → LowRankDiag n k} (h : RepeatedEm t S y) :
    ∃ B, ∀ j i, 0 < (y j).d i ∧ (y j).d i ≤ B ∧ ∀ l, |(y j).F i l| ≤ B := by
  have hmono := repeated_mono hS h
  obtain ⟨B, hB0, hB⟩ := cov_bound (k := k) hS (factorLogLik S (y 0).F (y 0).d)
  refine ⟨max B (Real.sqrt B), fun j i => ?_⟩
  have hpos := (repeated_step hS h j).2
  have hb := hB (y j).F (y j).d hpos (hmono (Nat.zero_le j)) i
  have e : factorCov (y j).F (y j).d i i = ∑ l, (y j).F i l ^ 2 + (y j).d i := by
    rw [factorCov, Matrix.add_apply, Matrix.diagonal_apply_eq, Matrix.mul_apply]
    congr 1
    exact Finset.sum_congr rfl fun l _ => by rw [Matrix.transpose_apply]; ring
  rw [e] at hb
  have hnn : 0 ≤ ∑ l, (y j).F i l ^ 2 := Finset.sum_nonneg fun _ _ => sq_nonneg _
  refine ⟨hpos i, le_max_of_le_left (by linarith), fun l => le_max_of_le_right (Real.abs_le_sqrt ?_)⟩
  have h1 : (y j).F i l ^ 2 ≤ ∑ l, (y j).F i l ^ 2 :=
    Finset.single_le_sum (f := fun l => (y j).F i l ^ 2) (fun l _ => sq_nonneg _) (Finset.mem_univ l)
  have h2 := hpos i
  linarith

/-- **C202.** Called again and again with its own result, `em_regularize_covariance` goes on for ever; the likelihoods do not decrease and tend to a limit, and
the loadings and variances stay bounded. -/
theorem C202_repeated {S : Mat n} (hS : S.PosDef) (t : τ) (x : LowRankDiag n k) (hd : ∀ i, 0 < x.d i) :
    ∃ y, y 0 = x ∧ RepeatedEm t S y ∧ (Monotone fun j => factorLogLik S (y j).F (y j).d) ∧
      (∃ ℓ, Tendsto (fun j => factorLogLik S (y j).F (y j).d) atTop (nhds ℓ)) ∧
      ∃ B, ∀ j i, 0 < (y j).d i ∧ (y j).d i ≤ B ∧ ∀ l, |(y j).F i l| ≤ B := by
  obtain ⟨y, hy0, hR⟩ := exists_repeated hS t x hd
  have hmono := repeated_mono hS hR
  refine ⟨y, hy0, hR, hmono, ⟨_, tendsto_atTop_ciSup hmono ⟨-Real.log S.det - n, ?_⟩⟩, repeated_bound hS hR⟩
  rintro _ ⟨j, rfl⟩
  exact loglik_le hS _ (repeated_step hS hR j).2

/-- **C202.** Every limit point of these models with positive variances solves the maximum-likelihood equations, and its likelihood is the limit of the
likelihoods. -/
theorem C202_limit_points {S : Mat n} (hS : S.PosDef) {t : τ} {y : ℕ → LowRankDiag n k} (h : RepeatedEm t S y) {φ : ℕ → ℕ} (hφ : StrictMono φ)
    {z : LowRankDiag n k} (hF : ∀ i j, Tendsto (fun m => (y (φ m)).F i j) atTop (nhds (z.F i j)))
    (hd : ∀ i, Tendsto (fun m => (y (φ m)).d i) atTop (nhds (z.d i))) (hz : ∀ i, 0 < z.d i) :
    LikelihoodEquations S z.F z.d ∧ Tendsto (fun j => factorLogLik S (y j).F (y j).d) atTop (nhds (factorLogLik S z.F z.d)) := by
  have hF' : Tendsto (fun m => (y (φ m)).F) atTop (nhds z.F) := tendsto_matrix_iff.2 hF
  have hd' : Tendsto (fun m => (y (φ m)).d) atTop (nhds z.d) := tendsto_pi_nhds.2 hd
  have hmono := repeated_mono hS h
  have hsub := loglik_tendsto S hF' hd' (factorCov_posDef z.F hz)
  have hlim : Tendsto (fun j => factorLogLik S (y j).F (y j).d) atTop (nhds (factorLogLik S z.F z.d)) :=
    (tendsto_iff_tendsto_subseq_of_monotone hmono hφ.tendsto_atTop).2 hsub
  refine ⟨?_, hlim⟩
  obtain ⟨g1, g2⟩ := passes_tendsto (S := fun _ : ℕ => S) tendsto_const_nhds hS 5 hF' hd' hz
  have hpos := (emLoop_passes hS 5 z hz).2
  have hnext := loglik_tendsto S g1 g2 (factorCov_posDef _ hpos)
  have hnext' : Tendsto (fun m => factorLogLik S (y (φ m + 1)).F (y (φ m + 1)).d) atTop (nhds (factorLogLik S z.F z.d)) :=
    hlim.comp (tendsto_atTop_mono (fun m => Nat.le_succ _) hφ.tendsto_atTop)
  have heq : factorLogLik S (passes S 5 z).F (passes S 5 z).d = factorLogLik S z.F z.d := by
    refine tendsto_nhds_unique ?_ hnext'
    refine hnext.congr fun m => ?_
    rw [(repeated_step hS h (φ m)).1]
  obtain ⟨w, hw1, hw2, -⟩ := C92_no_gain hS z hz
  have : w = passes S 5 z := by
    have := hw1.symm.trans (emLoop_passes hS 5 z hz).1
    injection this
  subst this
  exact hw2.1 heq.le

/-- **C202.** If the idiosyncratic variances stay away from zero, the models approach the solutions of the maximum-likelihood equations: for every `e > 0`
all but finitely many of them are within `e` of a solution. -/
theorem C202_approaches {S : Mat n} (hS : S.PosDef) {t : τ} {y : ℕ → LowRankDiag n k} (h : RepeatedEm t S y) {c : ℝ} (hc : 0 < c)
    (hlow : ∀ j i, c ≤ (y j).d i) {e : ℝ} (he : 0 < e) :
    ∃ N, ∀ j ≥ N, ∃ z : LowRankDiag n k, (∀ i, 0 < z.d i) ∧ LikelihoodEquations S z.F z.d ∧ (y j).Within e z := by
  by_contra hno
  push Not at hno
  have hfreq : ∃ᶠ j in atTop, ¬ ∃ z : LowRankDiag n k, (∀ i, 0 < z.d i) ∧ LikelihoodEquations S z.F z.d ∧ (y j).Within e z := by
    rw [Filter.frequently_atTop]
    intro N
    obtain ⟨j, hj, hj2⟩ := hno N
    exact ⟨j, hj, fun ⟨z, a, b, c⟩ => hj2 z a b c⟩
  obtain ⟨φ, hφ, hbad⟩ := Filter.extraction_of_frequently_atTop hfreq
  obtain ⟨B, hB⟩ := repeated_bound hS h
  let D := (Fin n → Fin k → ℝ) × (Fin n → ℝ)
  let u : ℕ → D := fun m => ((y (φ m)).F, (y (φ m)).d)
  have hbd : ∀ m, u m ∈ Metric.closedBall (0 : D) (max B 0) := by
    intro m
    rw [Metric.mem_closedBall, Prod.dist_eq]
    have hb := hB (φ m)
    refine max_le ((dist_pi_le_iff (le_max_right _ _)).2 fun i => (dist_pi_le_iff (le_max_right _ _)).2 fun j => ?_)
      ((dist_pi_le_iff (le_max_right _ _)).2 fun i => ?_)
    · rw [Real.dist_eq]
      exact le_max_of_le_left (by simpa [u] using (hb i).2.2 j)
    · rw [Real.dist_eq]
      refine le_max_of_le_left ?_
      have := (hb i).1
      simpa [u, abs_of_pos this] using (hb i).2.1
  obtain ⟨a, -, ψ, hψ, ha⟩ := (isCompact_closedBall (0 : D) (max B 0)).tendsto_subseq hbd
  let z : LowRankDiag n k := { F := a.1, d := a.2 }
  have hF : ∀ i j, Tendsto (fun m => (y (φ (ψ m))).F i j) atTop (nhds (z.F i j)) := fun i j =>
    tendsto_pi_nhds.1 (tendsto_pi_nhds.1 ((continuous_fst.tendsto a).comp ha) i) j
  have hd : ∀ i, Tendsto (fun m => (y (φ (ψ m))).d i) atTop (nhds (z.d i)) := fun i =>
    tendsto_pi_nhds.1 ((continuous_snd.tendsto a).comp ha) i
  have hz : ∀ i, 0 < z.d i := fun i => hc.trans_le (ge_of_tendsto' (hd i) fun m => hlow _ i)
  obtain ⟨hl, -⟩ := C202_limit_points hS h (hφ.comp hψ) (z := z) hF hd hz
  have hev : ∀ᶠ m in atTop, (y (φ (ψ m))).Within e z := by
    refine Filter.Eventually.and ?_ ?_
    · refine eventually_all.2 fun i => eventually_all.2 fun j => ?_
      have := ((hF i j).const_sub (z.F i j)).abs
      rw [sub_self, abs_zero] at this
      exact this.eventually (gt_mem_nhds he)
    · refine eventually_all.2 fun i => ?_
      have := ((hd i).const_sub (z.d i)).abs
      rw [sub_self, abs_zero] at this
      exact this.eventually (gt_mem_nhds he)
  obtain ⟨m, hm⟩ := hev.exists
  exact hbad (ψ m) ⟨z, hz, hl, hm⟩

/-! ### The hypotheses can be met -/

namespace Demo

/-- For `[[4, 2], [2, 4]]` and one factor, calls repeated from the loadings (1, 2). -/
example : ∃ y, y 0 = emInit ∧ RepeatedEm (0 : ℕ) (!![4, 2; 2, 4] : Mat 2) y := by
  obtain ⟨y, h0, h1, -⟩ := C202_repeated posDef_422 (0 : ℕ) emInit fun i => by simp [emInit]
  exact ⟨y, h0, h1⟩

/-- A repetition whose variances stay away from zero, which has a limit: the exact model of `[[2, 1], [1, 2]]` with one factor. -/
theorem repeated_exact : RepeatedEm (0 : ℕ) (factorCov !![1; 1] ![1, 1] : Mat 2) fun _ => ({ F := !![1; 1], d := ![1, 1] } : LowRankDiag 2 1) := by
  have hd : ∀ i, 0 < (![1, 1] : Vec 2) i := fun i => by fin_cases i <;> simp
  refine ⟨hd, fun j => ?_⟩
  unfold emRegularizeCovariance
  rw [genMap_cons_ok (b := ((0 : ℕ), ({ F := !![1; 1], d := ![1, 1] } : LowRankDiag 2 1))) _ ?_]
  · rfl
  · simp only [List.lookup_cons_self]
    have h := emLoop_fixed ({ F := !![1; 1], d := ![1, 1] } : LowRankDiag 2 1) hd 5
    show (emLoop _ 5 _ >>= fun y => pure ((0 : ℕ), y)) = _
    rw [h]; rfl

example : LikelihoodEquations (factorCov !![1; 1] ![1, 1] : Mat 2) (!![1; 1] : Matrix (Fin 2) (Fin 1) ℝ) ![1, 1] := by
  have hd : ∀ i, 0 < (![1, 1] : Vec 2) i := fun i => by fin_cases i <;> simp
  exact (C202_limit_points (z := { F := !![1; 1], d := ![1, 1] }) (factorCov_posDef _ hd) repeated_exact strictMono_id
    (fun i j => tendsto_const_nhds) (fun i => tendsto_const_nhds) hd).1

end Demo

end CovPred
