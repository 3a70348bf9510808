import Verif.Lemmas.Loop
import Mathlib.Analysis.Convex.StdSimplex
import Mathlib.Analysis.SpecialFunctions.Log.Basic
import Mathlib.Topology.Order.Compact

/-
The objective of the combination problem and the window log-likelihood.
-/
namespace CovPred
open Matrix

set_option linter.unusedSectionVars false

variable {τ : Type} [LinearOrder τ] {n K : ℕ}

theorem diag_mulVec (P : Panel τ n K) (s : ℕ) (w : Vec K) (i : Fin n) :
    ((Matrix.of fun (i : Fin n) (k : Fin K) => precFactor (P.cov (s - 1) k) i i) *ᵥ w) i
      = blendFactor (P.cov (s - 1)) w i i := by
  unfold blendFactor
  rw [Matrix.sum_apply]
  simp only [Matrix.mulVec, dotProduct, Matrix.of_apply, Matrix.smul_apply, smul_eq_mul]
  exact Finset.sum_congr rfl fun k _ => mul_comm _ _

theorem scores_mulVec {P : Panel τ n K} {s : ℕ} {w : Vec K} (hd : (blendFactor (P.cov (s - 1)) w).det ≠ 0) :
    P.scores s *ᵥ w = (blendFactor (P.cov (s - 1)) w)ᵀ
      *ᵥ (P.ret s - blendMean (P.cov (s - 1)) (P.mean (s - 1)) w) := by
  rw [Matrix.mulVec_sub]
  unfold blendMean
  rw [Matrix.mulVec_mulVec, Matrix.mul_nonsing_inv _ (by rw [Matrix.det_transpose]; exact isUnit_iff_ne_zero.mpr hd),
    Matrix.one_mulVec]
  funext i
  unfold blendFactor
  simp only [Pi.sub_apply, Finset.sum_apply, Pi.smul_apply]
  rw [Matrix.transpose_sum]
  rw [Matrix.sum_mulVec]
  simp only [Finset.sum_apply]
  rw [← Finset.sum_sub_distrib]
  simp only [Matrix.mulVec, dotProduct, Panel.scores, Matrix.of_apply]
  apply Finset.sum_congr rfl
  intro k _
  simp only [Pi.sub_apply, Matrix.transpose_smul, Matrix.smul_apply, smul_eq_mul, Matrix.transpose_apply]
  rw [Finset.sum_mul, Finset.mul_sum, ← Finset.sum_sub_distrib]
  exact Finset.sum_congr rfl fun j _ => by ring

theorem quad_gram {P : Panel τ n K} {W t : ℕ} (w : Vec K) :
    w ⬝ᵥ (P.gram W t *ᵥ w) = ∑ s ∈ Finset.Ioc (t - W) t, (P.scores s *ᵥ w) ⬝ᵥ (P.scores s *ᵥ w) := by
  unfold Panel.gram
  rw [Matrix.sum_mulVec, dotProduct_sum]
  apply Finset.sum_congr rfl
  intro s _
  rw [← Matrix.mulVec_mulVec, Matrix.dotProduct_mulVec, Matrix.vecMul_transpose]

theorem quad_chol {m : ℕ} {C M : Mat m} (h : IsChol C M) (w : Vec m) :
    (Cᵀ *ᵥ w) ⬝ᵥ (Cᵀ *ᵥ w) = w ⬝ᵥ (M *ᵥ w) := by
  rw [← h.eq, ← Matrix.mulVec_mulVec, Matrix.dotProduct_mulVec w, ← Matrix.mulVec_transpose]

theorem density_blend {S : Fin K → Mat n} {mu : Fin K → Vec n} {w : Vec K} (hl : LowerTri (blendFactor S w))
    (hp : ∀ i, 0 < blendFactor S w i i) (x : Vec n) :
    gaussLogDensity (blendMean S mu w) (blendCov S w) x
      = -(n / 2 * Real.log (2 * Real.pi)) + ∑ i, Real.log (blendFactor S w i i)
        - 1 / 2 * (((blendFactor S w)ᵀ *ᵥ (x - blendMean S mu w)) ⬝ᵥ ((blendFactor S w)ᵀ *ᵥ (x - blendMean S mu w))) := by
  set L := blendFactor S w with hL
  have hd : L.det ≠ 0 := det_ne_of_tri hl hp
  have hdpos : 0 < L.det := by rw [hl.det]; exact Finset.prod_pos fun i _ => hp i
  have hu : IsUnit (L * Lᵀ).det := by
    rw [Matrix.det_mul, Matrix.det_transpose]; exact isUnit_iff_ne_zero.mpr (mul_ne_zero hd hd)
  unfold gaussLogDensity
  have e1 : (blendCov S w)⁻¹ = L * Lᵀ := by
    unfold blendCov; rw [← hL, Matrix.nonsing_inv_nonsing_inv _ hu]
  have e2 : Real.log (blendCov S w).det = -2 * ∑ i, Real.log (L i i) := by
    unfold blendCov
    rw [← hL, Matrix.det_nonsing_inv, Ring.inverse_eq_inv, Real.log_inv, Matrix.det_mul, Matrix.det_transpose,
      Real.log_mul hd hd, hl.det, Real.log_prod fun i _ => (hp i).ne']
    ring
  rw [e1, e2, ← Matrix.mulVec_mulVec, Matrix.dotProduct_mulVec (x - _), ← Matrix.mulVec_transpose]
  ring

/-- The objective is the window log-likelihood up to a constant. -/
theorem objective_eq {P : Panel τ n K} (hP : P.Ok) {W t : ℕ} (hWt : W ≤ t) (ht : t < P.len)
    (hg : (P.gram W t).PosDef) (w : Vec K)
    (hw : ∀ s, t - W < s → s ≤ t → ∀ i, 0 < blendFactor (P.cov (s - 1)) w i i) :
    objective (P.params W t) w = P.logLik W t w + W * (n / 2 * Real.log (2 * Real.pi)) := by
  unfold objective Panel.logLik
  have hC : IsChol (P.params W t).C (P.gram W t) := cholFactor_isChol hg
  rw [quad_chol hC, quad_gram]
  have hA : ((P.params W t).A.map fun M => ∑ i, Real.log ((M *ᵥ w) i)).sum
      = ∑ s ∈ Finset.Ioc (t - W) t, ∑ i, Real.log (blendFactor (P.cov (s - 1)) w i i) := by
    unfold Panel.params
    rw [List.map_map]
    have := sum_range'_eq (fun s => ∑ i, Real.log (((Matrix.of fun (i : Fin n) (k : Fin K) =>
      precFactor (P.cov (s - 1) k) i i) *ᵥ w) i)) (t + 1 - W) W (by omega)
    simp only [diag_mulVec, show t + 1 - W - 1 = t - W by omega, show t - W + W = t by omega] at this
    rw [← this]
    congr 1
    apply List.map_congr_left
    intro s _
    simp only [Function.comp, diag_mulVec]
  rw [hA, Finset.mul_sum, ← Finset.sum_sub_distrib]
  have hcard : (W : ℝ) = ∑ _s ∈ Finset.Ioc (t - W) t, (1 : ℝ) := by
    rw [Finset.sum_const, Nat.card_Ioc, show t - (t - W) = W by omega]; simp
  rw [hcard, Finset.sum_mul, ← Finset.sum_add_distrib]
  apply Finset.sum_congr rfl
  intro s hs
  rw [Finset.mem_Ioc] at hs
  have hpd := hP.posDef (s - 1) (by omega)
  have hl := blendFactor_lower hpd w
  have hp := hw s hs.1 hs.2
  rw [density_blend hl hp, scores_mulVec (det_ne_of_tri hl hp)]
  ring

theorem feasible_iff {P : Panel τ n K} (hP : P.Ok) {W t : ℕ} (hWt : W ≤ t) (ht : t < P.len) (w : Vec K) :
    Feasible (P.params W t) w ↔ Simplex w := by
  constructor
  · exact fun h => h.simplex
  · intro h
    refine ⟨h, ?_⟩
    intro M hM i
    simp only [Panel.params, List.mem_map, List.mem_range'_1] at hM
    obtain ⟨s, hs, rfl⟩ := hM
    rw [diag_mulVec]
    by_cases hW : W = 0
    · omega
    · exact blendFactor_pos (hP.posDef (s - 1) (by omega)) h i

theorem objective_simplex {P : Panel τ n K} (hP : P.Ok) {W t : ℕ} (hWt : W ≤ t) (ht : t < P.len)
    (hg : (P.gram W t).PosDef) {w : Vec K} (hw : Simplex w) :
    objective (P.params W t) w = P.logLik W t w + W * (n / 2 * Real.log (2 * Real.pi)) :=
  objective_eq hP hWt ht hg w fun s _ h2 => blendFactor_pos (hP.posDef (s - 1) (by omega)) hw

theorem isOptimal_iff {P : Panel τ n K} (hP : P.Ok) {W t : ℕ} (hWt : W ≤ t) (ht : t < P.len)
    (hg : (P.gram W t).PosDef) (w : Vec K) : IsOptimal (P.params W t) w ↔ P.Optimal W t w := by
  unfold IsOptimal Panel.Optimal
  rw [feasible_iff hP hWt ht]
  apply and_congr_right
  intro hw
  apply forall_congr'
  intro w'
  rw [feasible_iff hP hWt ht]
  apply imp_congr_right
  intro hw'
  rw [objective_simplex hP hWt ht hg hw, objective_simplex hP hWt ht hg hw']
  constructor <;> intro h <;> linarith

/-! ### uniqueness -/

theorem log_mid {a b : ℝ} (ha : 0 < a) (hb : 0 < b) : (Real.log a + Real.log b) / 2 ≤ Real.log ((a + b) / 2) := by
  have h1 : Real.log a + Real.log b = Real.log (a * b) := (Real.log_mul ha.ne' hb.ne').symm
  have h2 : Real.log (a * b) ≤ Real.log (((a + b) / 2) ^ 2) := by
    apply Real.log_le_log (mul_pos ha hb)
    nlinarith [sq_nonneg (a - b)]
  rw [Real.log_pow] at h2
  push_cast at h2
  linarith

theorem dot_self_pos {m : ℕ} {v : Vec m} (h : v ≠ 0) : 0 < v ⬝ᵥ v := by
  have h1 : 0 ≤ v ⬝ᵥ v := Finset.sum_nonneg fun i _ => mul_self_nonneg (v i)
  rcases h1.lt_or_eq with h2 | h2
  · exact h2
  · exact absurd (dotProduct_self_eq_zero.mp h2.symm) h

/-- A combination problem with an invertible Gram factor has at most one solution. -/
theorem isOptimal_unique {p : Params n K} (hC : p.C.det ≠ 0) {w w' : Vec K} (h : IsOptimal p w) (h' : IsOptimal p w') :
    w = w' := by
  by_contra hne
  have hobj : objective p w = objective p w' := le_antisymm (h'.2 w h.1) (h.2 w' h'.1)
  let v : Vec K := fun k => (w k + w' k) / 2
  have hv2 : v = (1 / 2 : ℝ) • (w + w') := by funext k; simp [v]; ring
  have hlin : ∀ M : Matrix (Fin n) (Fin K) ℝ, ∀ i, (M *ᵥ v) i = ((M *ᵥ w) i + (M *ᵥ w') i) / 2 := by
    intro M i
    rw [hv2, Matrix.mulVec_smul, Matrix.mulVec_add]
    simp; ring
  have hf : Feasible p v := by
    refine ⟨⟨fun k => ?_, ?_⟩, ?_⟩
    · have := h.1.simplex.nonneg k; have := h'.1.simplex.nonneg k
      simp only [v]; linarith
    · simp only [v]
      rw [← Finset.sum_div, Finset.sum_add_distrib, h.1.simplex.sum_one, h'.1.simplex.sum_one]; norm_num
    · intro M hM i
      rw [hlin]
      have := h.1.domain M hM i; have := h'.1.domain M hM i
      linarith
  have hle := h.2 v hf
  -- the logarithms
  have hlog : ((p.A.map fun M => ∑ i, Real.log ((M *ᵥ w) i)).sum + (p.A.map fun M => ∑ i, Real.log ((M *ᵥ w') i)).sum) / 2
      ≤ (p.A.map fun M => ∑ i, Real.log ((M *ᵥ v) i)).sum := by
    have key : ∀ l : List (Matrix (Fin n) (Fin K) ℝ), (∀ M ∈ l, M ∈ p.A) →
        ((l.map fun M => ∑ i, Real.log ((M *ᵥ w) i)).sum + (l.map fun M => ∑ i, Real.log ((M *ᵥ w') i)).sum) / 2
          ≤ (l.map fun M => ∑ i, Real.log ((M *ᵥ v) i)).sum := by
      intro l
      induction l with
      | nil => intro _; simp
      | cons M l ih =>
        intro hl
        simp only [List.map_cons, List.sum_cons]
        have h1 := ih fun M' hM' => hl M' (by simp [hM'])
        have h2 : (∑ i, Real.log ((M *ᵥ w) i) + ∑ i, Real.log ((M *ᵥ w') i)) / 2 ≤ ∑ i, Real.log ((M *ᵥ v) i) := by
          rw [← Finset.sum_add_distrib, Finset.sum_div]
          apply Finset.sum_le_sum
          intro i _
          rw [hlin]
          exact log_mid (h.1.domain M (hl M (by simp)) i) (h'.1.domain M (hl M (by simp)) i)
        linarith
    exact key p.A fun _ hM => hM
  -- the quadratic term
  have hq : (p.Cᵀ *ᵥ v) ⬝ᵥ (p.Cᵀ *ᵥ v)
      < ((p.Cᵀ *ᵥ w) ⬝ᵥ (p.Cᵀ *ᵥ w) + (p.Cᵀ *ᵥ w') ⬝ᵥ (p.Cᵀ *ᵥ w')) / 2 := by
    have hd : p.Cᵀ *ᵥ (w - w') ≠ 0 := by
      intro h0
      have hdet : p.Cᵀ.det ≠ 0 := by rwa [Matrix.det_transpose]
      have := Matrix.eq_zero_of_mulVec_eq_zero hdet h0
      exact hne (sub_eq_zero.mp this)
    have hpos := dot_self_pos hd
    rw [Matrix.mulVec_sub] at hpos
    rw [hv2, Matrix.mulVec_smul, Matrix.mulVec_add]
    set x := p.Cᵀ *ᵥ w
    set y := p.Cᵀ *ᵥ w'
    simp only [dotProduct_smul, smul_dotProduct, dotProduct_add, add_dotProduct, dotProduct_sub, sub_dotProduct,
      smul_eq_mul] at hpos ⊢
    rw [dotProduct_comm y x] at hpos ⊢
    linarith
  unfold objective at hobj hle
  linarith

/-! ### existence -/

theorem simplex_iff (w : Vec K) : Simplex w ↔ w ∈ stdSimplex ℝ (Fin K) :=
  ⟨fun h => ⟨h.nonneg, h.sum_one⟩, fun h => ⟨h.1, h.2⟩⟩

theorem simplex_single (k : Fin K) : Simplex (Pi.single k (1 : ℝ) : Vec K) :=
  (simplex_iff _).mpr (single_mem_stdSimplex ℝ k)

theorem exists_isOptimal {p : Params n K} (hK : 0 < K) (hf : ∀ w, Simplex w → Feasible p w) : ∃ w, IsOptimal p w := by
  have hne : (stdSimplex ℝ (Fin K)).Nonempty := ⟨_, single_mem_stdSimplex ℝ ⟨0, hK⟩⟩
  have hcont : ContinuousOn (objective p) (stdSimplex ℝ (Fin K)) := by
    unfold objective
    apply ContinuousOn.sub
    · have key : ∀ l : List (Matrix (Fin n) (Fin K) ℝ), (∀ M ∈ l, M ∈ p.A) →
          ContinuousOn (fun w : Vec K => (l.map fun M => ∑ i, Real.log ((M *ᵥ w) i)).sum) (stdSimplex ℝ (Fin K)) := by
        intro l
        induction l with
        | nil => intro _; simp only [List.map_nil, List.sum_nil]; exact continuousOn_const
        | cons M l ih =>
          intro hl
          simp only [List.map_cons, List.sum_cons]
          apply ContinuousOn.add _ (ih fun M' hM' => hl M' (by simp [hM']))
          apply continuousOn_finsetSum
          intro i _
          apply ContinuousOn.log
          · apply Continuous.continuousOn
            simp only [Matrix.mulVec, dotProduct]
            fun_prop
          · intro w hw
            exact ((hf w ((simplex_iff w).mpr hw)).domain M (hl M (by simp)) i).ne'
      exact key p.A fun _ h => h
    · apply Continuous.continuousOn
      simp only [Matrix.mulVec, dotProduct]
      fun_prop
  obtain ⟨w, hw, hmax⟩ := (isCompact_stdSimplex ℝ (Fin K)).exists_isMaxOn hne hcont
  refine ⟨w, hf w ((simplex_iff w).mpr hw), fun w' hw' => hmax ((simplex_iff w').mp hw'.simplex)⟩

open Classical in
/-- An exact solver: it returns the optimal weights, and reports failure if there are none. -/
noncomputable def exactSolver (n K : ℕ) : Solver n K := fun hist =>
  match hist.getLast? with
  | none => .solverError
  | some p => if h : ∃ w, IsOptimal p w then .weights h.choose else .solverError

theorem exactSolver_exact : (exactSolver n K).Exact := by
  intro hist p w h
  unfold exactSolver at h
  rw [List.getLast?_concat] at h
  simp only at h
  split at h
  · next hex => cases h; exact hex.choose_spec
  · cases h

theorem exactSolver_complete : (exactSolver n K).Complete := by
  intro hist p h
  refine ⟨h.choose, ?_⟩
  unfold exactSolver
  rw [List.getLast?_concat]
  simp only
  rw [dif_pos h]

theorem Solver.Exact.feasible {s : Solver n K} (h : s.Exact) : s.Feasible :=
  fun hist p w hw => (h hist p w hw).1.simplex

/-! ### the optimum of a position -/

theorem exists_optimal {P : Panel τ n K} (hP : P.Ok) (hK : 0 < K) {W t : ℕ} (hWt : W ≤ t) (ht : t < P.len)
    (hg : (P.gram W t).PosDef) : ∃ w, P.Optimal W t w := by
  obtain ⟨w, hw⟩ := exists_isOptimal (p := P.params W t) hK fun w hw => (feasible_iff hP hWt ht w).mpr hw
  exact ⟨w, (isOptimal_iff hP hWt ht hg w).mp hw⟩

theorem optimal_unique {P : Panel τ n K} (hP : P.Ok) {W t : ℕ} (hWt : W ≤ t) (ht : t < P.len)
    (hg : (P.gram W t).PosDef) {w w' : Vec K} (h : P.Optimal W t w) (h' : P.Optimal W t w') : w = w' := by
  rw [← isOptimal_iff hP hWt ht hg] at h h'
  exact isOptimal_unique (cholFactor_isChol hg).det_pos.ne' h h'

open Classical in
/-- the optimal weights of a position -/
noncomputable def Panel.best (P : Panel τ n K) (W t : ℕ) : Vec K := if h : ∃ w, P.Optimal W t w then h.choose else 0

theorem best_optimal {P : Panel τ n K} (hP : P.Ok) (hK : 0 < K) {W t : ℕ} (hWt : W ≤ t) (ht : t < P.len)
    (hg : (P.gram W t).PosDef) : P.Optimal W t (P.best W t) := by
  unfold Panel.best
  have := exists_optimal hP hK hWt ht hg
  rw [dif_pos this]
  exact this.choose_spec

theorem range'_concat_params (P : Panel τ n K) (W a t : ℕ) (hat : a ≤ t) :
    ((List.range' a (t + 1 - a)).map fun s => P.params W s)
      = ((List.range' a (t - a)).map fun s => P.params W s) ++ [P.params W t] := by
  obtain ⟨d, rfl⟩ : ∃ d, t = a + d := ⟨t - a, by omega⟩
  rw [show a + d - a = d by omega, show a + d + 1 - a = d + 1 by omega, List.range'_concat, List.map_append]
  simp

theorem outcome_exact {P : Panel τ n K} (hP : P.Ok) (hK : 0 < K) {W a t : ℕ} (hat : a ≤ t) (hWt : W ≤ t) (ht : t < P.len)
    (hg : (P.gram W t).PosDef) {solver : Solver n K} (hs : solver.Exact) {w : Vec K}
    (h : P.outcome solver W a t = .weights w) : w = P.best W t := by
  unfold Panel.outcome at h
  rw [range'_concat_params P W a t hat] at h
  have := (isOptimal_iff hP hWt ht hg w).mp (hs _ _ _ h)
  exact optimal_unique hP hWt ht hg this (best_optimal hP hK hWt ht hg)

theorem outcome_complete {P : Panel τ n K} (hP : P.Ok) (hK : 0 < K) {W a t : ℕ} (hat : a ≤ t) (hWt : W ≤ t)
    (ht : t < P.len) (hg : (P.gram W t).PosDef) {solver : Solver n K} (hs : solver.Exact) (hc : solver.Complete) :
    P.outcome solver W a t = .weights (P.best W t) := by
  have hex : ∃ w, IsOptimal (P.params W t) w :=
    ⟨_, (isOptimal_iff hP hWt ht hg _).mpr (best_optimal hP hK hWt ht hg)⟩
  have : ∃ w, P.outcome solver W a t = .weights w := by
    unfold Panel.outcome
    rw [range'_concat_params P W a t hat]
    exact hc _ _ hex
  obtain ⟨w, hw⟩ := this
  rw [hw, outcome_exact hP hK hat hWt ht hg hs hw]

/-- with an exact and complete solver a run either fails in the preparation or yields the optimal blends -/
theorem run_complete {P : Panel τ n K} (hP : P.Ok) (hK : 0 < K) {solver : Solver n K} (hs : solver.Exact)
    (hc : solver.Complete) {W a b : ℕ} (hWa : W ≤ a) (hb : b ≤ P.len) {tr : Trace (Result τ n K)}
    (h : P.Run solver W a b tr) (hg : ∀ t, a ≤ t → t < b → (P.gram W t).PosDef) :
    tr = ⟨(List.range' a (b - a)).map fun t => some (P.predict t (P.best W t)), none⟩ := by
  rcases h with ⟨⟨t, h1, h2, h3⟩, _⟩ | ⟨_, m, h1, h2, h3⟩
  · exact absurd (hg t h1 h2) h3
  · have hout : ∀ t, a ≤ t → t < b → P.outcome solver W a t = .weights (P.best W t) := fun t ht1 ht2 =>
      outcome_complete hP hK ht1 (by omega) (by omega) (hg t ht1 ht2) hs hc
    rcases h3 with ⟨rfl, h4⟩ | ⟨h4, e, _, h5⟩
    · cases tr with | mk items err =>
      simp only at h1 h4
      rw [h1, h4]
      congr 1
      apply List.map_congr_left
      intro t ht
      simp only [List.mem_range'_1] at ht
      unfold Panel.item
      rw [hout t (by omega) (by omega)]
    · rw [hout (a + m) (by omega) (by omega)] at h5; cases h5

end CovPred
