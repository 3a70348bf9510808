import Verif.Lemmas.Ccp2

/-
C55, C88-C91: the convex-concave procedure of `/repo/experiments/utils/ccp_regularize.py`, which represents a factor
model by `(e, G)` with `diag(e) - G Gᵀ` its precision matrix.
-/
namespace CovPred
open Matrix

variable {n k : ℕ}

/-! ### C55: the state represents the precision -/

/-- The constructor succeeds for positive idiosyncratic variances, and the state describes the precision matrix of the
factor model it was given. -/
theorem C55_init (Sigma : Mat n) (F : Matrix (Fin n) (Fin k) ℝ) {d : Vec n} (hd : ∀ i, 0 < d i) :
    ∃ s, ccpInit Sigma F d = .ok s ∧ s.Sigma = Sigma ∧ diagonal s.ek - s.Gk * s.Gkᵀ = (factorCov F d)⁻¹ := by
  obtain ⟨s, _, h1, h2, _, _, _, h3⟩ := ccp_init Sigma F hd
  exact ⟨s, h1, h2, h3⟩

/-- `build` succeeds for every state that describes a positive definite precision matrix, and returns a factor model with
positive idiosyncratic variances whose covariance matrix is the inverse. -/
theorem C55_build {s : CcpState n k} (h : (diagonal s.ek - s.Gk * s.Gkᵀ).PosDef) :
    ∃ x, s.build = .ok x ∧ (∀ i, 0 < x.d i) ∧ factorCov x.F x.d = (diagonal s.ek - s.Gk * s.Gkᵀ)⁻¹ := by
  obtain ⟨x, h1, h2, h3, _⟩ := ccp_build (s := s) h
  exact ⟨x, h1, h2, h3⟩

/-- Building right after the constructor gives back exactly the factors and variances that went in, not only the same
covariance matrix. -/
theorem C55_round_trip (Sigma : Mat n) (F : Matrix (Fin n) (Fin k) ℝ) {d : Vec n} (hd : ∀ i, 0 < d i) :
    (ccpInit Sigma F d).bind CcpState.build = .ok ⟨F, d⟩ := by
  obtain ⟨s, L, h1, _, hL, he, hG, h3⟩ := ccp_init Sigma F hd
  have hP : (ccpPrec s.ek s.Gk).PosDef := by rw [h3]; exact (factorCov_posDef F hd).inv
  obtain ⟨x, hx, _, _, K, hK, hF, hd'⟩ := ccp_build (s := s) hP
  rw [h1]
  change s.build = _
  rw [hx]
  have hdd : x.d = d := by
    rw [hd', he]; funext i; simp
  have hLu : IsUnit L.det := isUnit_iff_ne_zero.mpr hL.det_pos.ne'
  have hLT : IsUnit Lᵀ.det := by rwa [Matrix.det_transpose]
  -- `rec' e = diag d`
  have hre : rec' s.ek = diagonal d := by
    rw [rec', he]; congr 1; funext i; simp
  have hdr : diagonal d * rec' d = 1 := mul_eq_one_comm.mp (rec'_mul hd)
  -- the matrix in `build` is `Lᵀ L`
  have hA : emG F d * emA F d = 1 := by
    rw [emG, Matrix.nonsing_inv_mul _ (isUnit_det_of_posDef (emA_posDef F hd))]
  have h5 : L * (Lᵀ * emA F d) = 1 := by rw [← Matrix.mul_assoc, hL.eq, hA]
  have h5' : Lᵀ * emA F d * L = 1 := mul_eq_one_comm.mp h5
  have hH : 1 - s.Gkᵀ * (rec' s.ek * s.Gk) = Lᵀ * L := by
    have h6 : s.Gkᵀ * (rec' s.ek * s.Gk) = Lᵀ * (emA F d - 1) * L := by
      rw [hre, hG, ← Matrix.mul_assoc (diagonal d), hdr, Matrix.one_mul, Matrix.transpose_mul, Matrix.transpose_mul,
        rec'_symm, emA, add_sub_cancel_right]
      simp only [Matrix.mul_assoc]
    rw [h6, Matrix.mul_sub, Matrix.sub_mul, h5', Matrix.mul_one]
    abel
  have hKeq : ccpK s.ek s.Gk = L⁻¹ * L⁻¹ᵀ := by
    rw [← ccp_H_inv hP, hH, Matrix.mul_inv_rev, Matrix.transpose_nonsing_inv]
  have hLinv : IsChol L⁻¹ (ccpK s.ek s.Gk) := by
    refine ⟨hL.lower.inv hL.det_pos.ne', fun i => ?_, hKeq.symm⟩
    have h7 := hL.lower.mul_diag (hL.lower.inv hL.det_pos.ne') i
    rw [Matrix.mul_nonsing_inv _ hLu, Matrix.one_apply_eq] at h7
    by_contra hneg
    have := mul_nonpos_of_nonneg_of_nonpos (hL.pos i).le (not_lt.mp hneg)
    linarith
  have hKL := hK.unique hLinv
  have hFF : x.F = F := by
    rw [hF, hre, hG, hKL]
    calc diagonal d * (rec' d * (F * L) * L⁻¹) = (diagonal d * rec' d) * (F * (L * L⁻¹)) := by simp only [Matrix.mul_assoc]
      _ = F := by rw [hdr, Matrix.mul_nonsing_inv _ hLu, Matrix.one_mul, Matrix.mul_one]
  cases x
  simp_all

/-- a factor model with one factor and two assets -/
example : (ccpInit (1 : Mat 2) (Matrix.of fun _ _ => (1 : ℝ) : Matrix (Fin 2) (Fin 1) ℝ) (fun _ => 2)).bind CcpState.build
    = .ok ⟨Matrix.of fun _ _ => 1, fun _ => 2⟩ := C55_round_trip _ _ fun _ => by norm_num

/-! ### C88: the objective -/

/-- The objective of a state is minus (twice) the Gaussian log-likelihood, per observation and up to a constant, of data
with second moment `Sigma` under the factor model that `build` returns. -/
theorem C88_objective {s : CcpState n k} (h : (diagonal s.ek - s.Gk * s.Gkᵀ).PosDef) (hS : s.Sigma.PosDef) :
    ∃ x, s.build = .ok x ∧ s.objective = .ok (-factorLogLik s.Sigma x.F x.d) := by
  obtain ⟨x, h1, _, h3⟩ := C55_build h
  refine ⟨x, h1, ?_⟩
  rw [ccp_objective hS, factorLogLik, h3, Matrix.nonsing_inv_nonsing_inv _ (isUnit_det_of_posDef h),
    Matrix.det_nonsing_inv, Ring.inverse_eq_inv', Real.log_inv]
  change Except.ok (-Real.log (diagonal s.ek - s.Gk * s.Gkᵀ).det + (s.Sigma * (diagonal s.ek - s.Gk * s.Gkᵀ)).trace) = _
  congr 1
  ring

/-- A covariance matrix that is not positive definite (but symmetric) makes it raise. -/
theorem C88_objective_error {s : CcpState n k} (hsym : s.Sigmaᵀ = s.Sigma) (hS : ¬ s.Sigma.PosDef) :
    s.objective = .error .linAlgError := by
  unfold CcpState.objective
  rw [chol?_error_iff.mpr (by rwa [symLower_of_symm hsym])]
  rfl

/-- hypotheses -/
example : ∃ s : CcpState 2 1, (diagonal s.ek - s.Gk * s.Gkᵀ).PosDef ∧ s.Sigma.PosDef := by
  obtain ⟨s, _, h2, h3⟩ := C55_init (1 : Mat 2) (Matrix.of fun _ _ => (1 : ℝ) : Matrix (Fin 2) (Fin 1) ℝ) (d := fun _ => 2)
    (fun _ => by norm_num)
  exact ⟨s, by rw [h3]; exact (factorCov_posDef _ fun _ => by norm_num).inv, by rw [h2]; exact Matrix.PosDef.one⟩

/-! ### C89: the procedure never gets worse -/

/-- The contract of an exact solver of the convex problem: the values it returns are in the domain of the objective and
minimise it there. -/
def CcpSolver.Exact (solver : CcpSolver n k) : Prop :=
  ∀ Sigma Gk e G, solver Sigma Gk = .values e G → (ccpBlock e G).PosDef ∧
    ∀ e' G', (ccpBlock e' G').PosDef → ccpSurrogate Sigma Gk e G ≤ ccpSurrogate Sigma Gk e' G'

private theorem iterate_ok {solver : CcpSolver n k} {s s' : CcpState n k} (h : s.iterate solver = .ok s') :
    ∃ e G, solver s.Sigma s.Gk = .values e G ∧ s' = { s with ek := e, Gk := G } := by
  unfold CcpState.iterate at h
  cases hs : solver s.Sigma s.Gk with
  | raises e => rw [hs] at h; cases h
  | noValue =>
    rw [hs] at h
    simp only [bind, Except.bind] at h
    cases ho : s.objective with
    | error e => rw [ho] at h; cases h
    | ok v => rw [ho] at h; cases h
  | values e G =>
    rw [hs] at h
    simp only [bind, Except.bind] at h
    cases ho : s.objective with
    | error e => rw [ho] at h; cases h
    | ok v =>
      rw [ho] at h
      simp only [pure, Except.pure] at h
      cases h
      exact ⟨e, G, rfl, rfl⟩

private theorem iterate_values {solver : CcpSolver n k} {s : CcpState n k} (hS : s.Sigma.PosDef) {e : Vec n}
    {G : Matrix (Fin n) (Fin k) ℝ} (h : solver s.Sigma s.Gk = .values e G) :
    s.iterate solver = .ok { s with ek := e, Gk := G } := by
  unfold CcpState.iterate
  rw [h, ccp_objective hS]
  rfl

private theorem iterate_descent {solver : CcpSolver n k} (hx : solver.Exact) {s s' : CcpState n k}
    (h : (ccpPrec s.ek s.Gk).PosDef) (hS : s.Sigma.PosDef) (hi : s.iterate solver = .ok s') :
    (ccpPrec s'.ek s'.Gk).PosDef ∧ s'.Sigma = s.Sigma ∧
      -Real.log (ccpPrec s'.ek s'.Gk).det + (s.Sigma * ccpPrec s'.ek s'.Gk).trace ≤
        -Real.log (ccpPrec s.ek s.Gk).det + (s.Sigma * ccpPrec s.ek s.Gk).trace := by
  obtain ⟨e, G, hv, rfl⟩ := iterate_ok hi
  obtain ⟨hd, hm⟩ := hx _ _ _ _ hv
  have hd' := (ccpBlock_posDef_iff e G).mp hd
  refine ⟨hd', rfl, ?_⟩
  have h1 := hm s.ek s.Gk ((ccpBlock_posDef_iff _ _).mpr h)
  rw [ccpSurrogate_eq, ccpSurrogate_eq] at h1
  have h2 := ccp_majorise hS.posSemidef s.Gk G
  have e1 : (s.Sigma * ccpPrec e G).trace = (s.Sigma * diagonal e).trace - (s.Sigma * (G * Gᵀ)).trace := by
    rw [ccpPrec, Matrix.mul_sub, Matrix.trace_sub]
  have e2 : (s.Sigma * ccpPrec s.ek s.Gk).trace = (s.Sigma * diagonal s.ek).trace - (s.Sigma * (s.Gk * s.Gkᵀ)).trace := by
    rw [ccpPrec, Matrix.mul_sub, Matrix.trace_sub]
  change -Real.log (ccpPrec e G).det + (s.Sigma * ccpPrec e G).trace ≤ _
  rw [e1, e2]
  rw [Matrix.mul_assoc s.Sigma s.Gk s.Gkᵀ] at h1
  linarith

private theorem iterates_descent {solver : CcpSolver n k} (hx : solver.Exact) (m : ℕ) : ∀ {s s' : CcpState n k},
    (ccpPrec s.ek s.Gk).PosDef → s.Sigma.PosDef → s.iterates solver m = .ok s' →
    (ccpPrec s'.ek s'.Gk).PosDef ∧ s'.Sigma = s.Sigma ∧
      -Real.log (ccpPrec s'.ek s'.Gk).det + (s.Sigma * ccpPrec s'.ek s'.Gk).trace ≤
        -Real.log (ccpPrec s.ek s.Gk).det + (s.Sigma * ccpPrec s.ek s.Gk).trace := by
  induction m with
  | zero =>
    intro s s' h _ hi
    cases hi
    exact ⟨h, rfl, le_refl _⟩
  | succ m ih =>
    intro s s' h hS hi
    simp only [CcpState.iterates, bind, Except.bind] at hi
    cases ho : s.iterate solver with
    | error e => rw [ho] at hi; cases hi
    | ok s1 =>
      rw [ho] at hi
      obtain ⟨h1, h2, h3⟩ := iterate_descent hx h hS ho
      obtain ⟨h4, h5, h6⟩ := ih h1 (by rwa [h2]) hi
      rw [h2] at h6
      exact ⟨h4, h5.trans h2, h6.trans h3⟩

/-- Start from a factor model with positive idiosyncratic variances, iterate any number of times with an exact solver,
and build: the result is a factor model with positive idiosyncratic variances whose likelihood is at least that of the
start. -/
theorem C89_never_worse {solver : CcpSolver n k} (hx : solver.Exact) {Sigma : Mat n} (hS : Sigma.PosDef)
    (F : Matrix (Fin n) (Fin k) ℝ) {d : Vec n} (hd : ∀ i, 0 < d i) {m : ℕ} {s s' : CcpState n k}
    (hi : ccpInit Sigma F d = .ok s) (hm : s.iterates solver m = .ok s') :
    ∃ x, s'.build = .ok x ∧ (∀ i, 0 < x.d i) ∧ factorLogLik Sigma F d ≤ factorLogLik Sigma x.F x.d := by
  obtain ⟨s0, h1, h2, h3⟩ := C55_init Sigma F hd
  rw [hi] at h1; cases h1
  have hP : (ccpPrec s.ek s.Gk).PosDef := by
    rw [ccpPrec, h3]; exact (factorCov_posDef F hd).inv
  obtain ⟨h4, h5, h6⟩ := iterates_descent hx m hP (by rwa [h2]) hm
  obtain ⟨x, h7, h8, h9⟩ := C55_build (s := s') h4
  refine ⟨x, h7, h8, ?_⟩
  have e1 : factorLogLik Sigma F d = -(-Real.log (ccpPrec s.ek s.Gk).det + (s.Sigma * ccpPrec s.ek s.Gk).trace) := by
    rw [factorLogLik, ccpPrec, h3, h2, Matrix.det_nonsing_inv, Ring.inverse_eq_inv', Real.log_inv]; ring
  have e2 : factorLogLik Sigma x.F x.d = -(-Real.log (ccpPrec s'.ek s'.Gk).det + (s.Sigma * ccpPrec s'.ek s'.Gk).trace) := by
    have h9' : factorCov x.F x.d = (ccpPrec s'.ek s'.Gk)⁻¹ := h9
    rw [factorLogLik, h9', h2, Matrix.nonsing_inv_nonsing_inv _ (isUnit_det_of_posDef h4), Matrix.det_nonsing_inv,
      Ring.inverse_eq_inv', Real.log_inv]; ring
  rw [e1, e2]
  linarith

/-- The same between any two numbers of iterations: each further iteration does not lower the likelihood. -/
theorem C89_each_iteration {solver : CcpSolver n k} (hx : solver.Exact) {s s' : CcpState n k}
    (h : (diagonal s.ek - s.Gk * s.Gkᵀ).PosDef) (hS : s.Sigma.PosDef) (hi : s.iterate solver = .ok s') :
    ∃ x x', s.build = .ok x ∧ s'.build = .ok x' ∧ (diagonal s'.ek - s'.Gk * s'.Gkᵀ).PosDef ∧ s'.Sigma = s.Sigma ∧
      factorLogLik s.Sigma x.F x.d ≤ factorLogLik s.Sigma x'.F x'.d := by
  obtain ⟨h1, h2, h3⟩ := iterate_descent hx (s := s) h hS hi
  obtain ⟨x, hb, ho⟩ := C88_objective h hS
  obtain ⟨x', hb', ho'⟩ := C88_objective (s := s') h1 (by rwa [h2])
  refine ⟨x, x', hb, hb', h1, h2, ?_⟩
  rw [ccp_objective hS] at ho
  rw [ccp_objective (by rwa [h2])] at ho'
  injection ho with ho
  injection ho' with ho'
  rw [h2] at ho'
  linarith

/-- the stationarity equations in terms of the factor model -/
private theorem stationary_iff {s : CcpState n k} (h : (ccpPrec s.ek s.Gk).PosDef) {x : LowRankDiag n k}
    (hb : s.build = .ok x) : CcpStationary s.Sigma s.Gk s.ek s.Gk ↔ LikelihoodEquations s.Sigma x.F x.d := by
  obtain ⟨y, hy, _, hc, K, hK, hF, _⟩ := ccp_build (s := s) h
  rw [hb] at hy; cases hy
  have hu := isUnit_det_of_posDef h
  have hcu : IsUnit (ccpK s.ek s.Gk).det := isUnit_det_of_posDef (ccpK_posDef h)
  have hKu : IsUnit K.det := isUnit_iff_ne_zero.mpr hK.det_pos.ne'
  -- `F = P⁻¹ G Kinv` with invertible `Kinv`
  set M := (ccpK s.ek s.Gk)⁻¹ * K with hM
  have hMi : M * (K⁻¹ * ccpK s.ek s.Gk) = 1 := by
    rw [hM, Matrix.mul_assoc, ← Matrix.mul_assoc K, Matrix.mul_nonsing_inv _ hKu, Matrix.one_mul,
      Matrix.nonsing_inv_mul _ hcu]
  have hF2 : x.F = (ccpPrec s.ek s.Gk)⁻¹ * s.Gk * M := by
    rw [hF, ← ccp_common h, hM, Matrix.mul_assoc, Matrix.mul_assoc, ← Matrix.mul_assoc (ccpK _ _),
      Matrix.mul_nonsing_inv _ hcu, Matrix.one_mul]
  have hPF : (factorCov x.F x.d)⁻¹ * x.F = s.Gk * M := by
    rw [hc, Matrix.nonsing_inv_nonsing_inv _ hu, hF2, Matrix.mul_assoc, ← Matrix.mul_assoc (ccpPrec _ _),
      Matrix.mul_nonsing_inv _ hu, Matrix.one_mul]
  unfold LikelihoodEquations CcpStationary
  rw [hc, ← hc, Matrix.mul_assoc, hPF, hc]
  refine and_congr Iff.rfl ⟨fun h1 => ?_, fun h1 => ?_⟩
  · rw [← Matrix.mul_assoc, ← h1, hF2]
  · have h2 : s.Sigma * (s.Gk * M) * (K⁻¹ * ccpK s.ek s.Gk) = x.F * (K⁻¹ * ccpK s.ek s.Gk) := by rw [h1]
    rw [hF2, Matrix.mul_assoc, Matrix.mul_assoc, hMi, Matrix.mul_one, Matrix.mul_assoc _ M, hMi, Matrix.mul_one] at h2
    exact h2.symm

/-- The procedure stands still exactly at the solutions of the maximum-likelihood equations: with an exact solver that
returns values, an iteration leaves the state unchanged if and only if the factor model of the state satisfies them. -/
theorem C89_stands_still_iff {solver : CcpSolver n k} (hx : solver.Exact) {s : CcpState n k}
    (h : (diagonal s.ek - s.Gk * s.Gkᵀ).PosDef) (hS : s.Sigma.PosDef) (hv : ∃ e G, solver s.Sigma s.Gk = .values e G) :
    ∃ x, s.build = .ok x ∧ (s.iterate solver = .ok s ↔ LikelihoodEquations s.Sigma x.F x.d) := by
  obtain ⟨x, hb, _⟩ := C55_build h
  refine ⟨x, hb, ?_⟩
  rw [← stationary_iff h hb]
  obtain ⟨e, G, hv⟩ := hv
  obtain ⟨hd, hm⟩ := hx _ _ _ _ hv
  have hd' := (ccpBlock_posDef_iff e G).mp hd
  rw [iterate_values hS hv]
  constructor
  · intro he
    have he' : ({ s with ek := e, Gk := G } : CcpState n k) = s := by injection he
    have h1 : e = s.ek := congrArg CcpState.ek he'
    have h2 : G = s.Gk := congrArg CcpState.Gk he'
    subst h1; subst h2
    exact ccp_stationary h fun e' G' h' => hm e' G' ((ccpBlock_posDef_iff _ _).mpr h')
  · intro hst
    obtain ⟨h1, h2⟩ := ccp_minimal_unique hst h hd' (hm s.ek s.Gk ((ccpBlock_posDef_iff _ _).mpr h))
    rw [h1, h2]

/-- An iteration that starts from a model which does not solve the equations makes the likelihood strictly larger. -/
theorem C89_strict {solver : CcpSolver n k} (hx : solver.Exact) {s s' : CcpState n k} {x : LowRankDiag n k}
    (h : (diagonal s.ek - s.Gk * s.Gkᵀ).PosDef) (hS : s.Sigma.PosDef) (hb : s.build = .ok x)
    (hne : ¬ LikelihoodEquations s.Sigma x.F x.d) (hi : s.iterate solver = .ok s') :
    ∃ x', s'.build = .ok x' ∧ factorLogLik s.Sigma x.F x.d < factorLogLik s.Sigma x'.F x'.d := by
  obtain ⟨y, x', hby, hb', _, hS', hle⟩ := C89_each_iteration hx h hS hi
  rw [hb] at hby; cases hby
  refine ⟨x', hb', lt_of_le_of_ne hle fun heq => hne ?_⟩
  rw [← stationary_iff h hb]
  obtain ⟨e, G, hv, rfl⟩ := iterate_ok hi
  obtain ⟨hd, hm⟩ := hx _ _ _ _ hv
  have hd' := (ccpBlock_posDef_iff e G).mp hd
  -- the objectives agree
  obtain ⟨x1, hx1, ho1⟩ := C88_objective h hS
  obtain ⟨x2, hx2, ho2⟩ := C88_objective (s := { s with ek := e, Gk := G }) hd' hS
  rw [hb] at hx1; cases hx1
  rw [hb'] at hx2; cases hx2
  rw [ccp_objective hS] at ho1
  rw [ccp_objective (s := { s with ek := e, Gk := G }) hS] at ho2
  injection ho1 with ho1
  injection ho2 with ho2
  simp only at ho2
  -- so the old state minimises the convex problem, too
  apply ccp_stationary h
  intro e' G' h'
  refine le_trans ?_ (hm e' G' ((ccpBlock_posDef_iff _ _).mpr h'))
  have h2 := ccp_majorise hS.posSemidef s.Gk G
  have e1 : (s.Sigma * ccpPrec e G).trace = (s.Sigma * diagonal e).trace - (s.Sigma * (G * Gᵀ)).trace := by
    rw [ccpPrec, Matrix.mul_sub, Matrix.trace_sub]
  have e2 : (s.Sigma * ccpPrec s.ek s.Gk).trace = (s.Sigma * diagonal s.ek).trace - (s.Sigma * (s.Gk * s.Gkᵀ)).trace := by
    rw [ccpPrec, Matrix.mul_sub, Matrix.trace_sub]
  rw [e1] at ho2
  rw [e2] at ho1
  rw [ccpSurrogate_eq, ccpSurrogate_eq, Matrix.mul_assoc s.Sigma s.Gk s.Gkᵀ]
  linarith

/-- An exact factor model is such a solution. -/
theorem C89_exact_model (F : Matrix (Fin n) (Fin k) ℝ) {d : Vec n} (hd : ∀ i, 0 < d i) :
    LikelihoodEquations (factorCov F d) F d :=
  ⟨fun _ => rfl, by rw [Matrix.mul_nonsing_inv _ (isUnit_det_of_posDef (factorCov_posDef F hd)), Matrix.one_mul]⟩

/-- An exact solver for one asset: the problem is solved in closed form. -/
noncomputable def ccpOne : CcpSolver 1 1 := fun Sigma Gk =>
  if 0 < Sigma 0 0 then .values (fun _ => 1 / Sigma 0 0 + Gk 0 0 ^ 2) Gk else .noValue

theorem ccpOne_exact : ccpOne.Exact := by
  intro Sigma Gk e G hv
  unfold ccpOne at hv
  split at hv
  case isFalse => cases hv
  next hs =>
  cases hv
  have hP : ccpPrec (fun _ => 1 / Sigma 0 0 + Gk 0 0 ^ 2) Gk = diagonal fun _ => 1 / Sigma 0 0 := by
    ext i j
    have hi := Subsingleton.elim i 0; have hj := Subsingleton.elim j 0
    subst hi; subst hj
    simp [ccpPrec, Matrix.mul_apply]; ring
  have hPd : (ccpPrec (fun _ => 1 / Sigma 0 0 + Gk 0 0 ^ 2) Gk).PosDef := by
    rw [hP, Matrix.posDef_diagonal_iff]; exact fun _ => one_div_pos.mpr hs
  refine ⟨(ccpBlock_posDef_iff _ _).mpr hPd, fun e' G' h' => ?_⟩
  have hinv : (ccpPrec (fun _ => 1 / Sigma 0 0 + Gk 0 0 ^ 2) Gk)⁻¹ = Sigma := by
    apply Matrix.inv_eq_left_inv
    rw [hP]
    ext i j
    have hi := Subsingleton.elim i 0; have hj := Subsingleton.elim j 0
    subst hi; subst hj
    simp [Matrix.mul_diagonal, hs.ne']
  refine ccp_minimal ⟨fun i => by rw [hinv], by rw [hinv]⟩ hPd ((ccpBlock_posDef_iff _ _).mp h')

/-- one asset, one factor: from `F = 1`, `d = 1` (variance 2) towards variance 1 -/
example : ∃ s s', ccpInit (1 : Mat 1) (1 : Mat 1) (fun _ => 1) = .ok s ∧ s.iterates ccpOne 3 = .ok s' := by
  obtain ⟨s, h1, h2, _⟩ := C55_init (1 : Mat 1) (1 : Mat 1) (d := fun _ => 1) fun _ => one_pos
  refine ⟨s, ?_⟩
  have key : ∀ m (s : CcpState 1 1), s.Sigma = 1 → ∃ s', s.iterates ccpOne m = .ok s' := by
    intro m
    induction m with
    | zero => exact fun s _ => ⟨s, rfl⟩
    | succ m ih =>
      intro s hs
      have hv : ccpOne s.Sigma s.Gk = .values (fun _ => 1 / s.Sigma 0 0 + s.Gk 0 0 ^ 2) s.Gk := by
        unfold ccpOne; rw [if_pos (by rw [hs]; norm_num)]
      obtain ⟨s', hs'⟩ := ih { s with ek := fun _ => 1 / s.Sigma 0 0 + s.Gk 0 0 ^ 2 } hs
      refine ⟨s', ?_⟩
      simp only [CcpState.iterates, bind, Except.bind]
      rw [iterate_values (by rw [hs]; exact Matrix.PosDef.one) hv]
      exact hs'
  obtain ⟨s', hs'⟩ := key 3 s h2
  exact ⟨s', h1, hs'⟩

/-! ### C90: the gradients -/

/-- `_grad_e` and `_grad_G` are the gradient of `- log det (diag(e) - G Gᵀ)`: they give its derivative in every direction,
at every point of its domain. -/
theorem C90_gradient {e : Vec n} {G : Matrix (Fin n) (Fin k) ℝ} (h : (diagonal e - G * Gᵀ).PosDef) :
    ∃ cf, ccpCommonFactor e G = .ok cf ∧ ∀ (de : Vec n) (dG : Matrix (Fin n) (Fin k) ℝ),
      HasDerivAt (fun s : ℝ => -Real.log (diagonal (e + s • de) - (G + s • dG) * (G + s • dG)ᵀ).det)
        (∑ i, ccpGradE e G cf i * de i + ∑ i, ∑ j, ccpGradG cf i j * dG i j) 0 := by
  refine ⟨_, ccpCommonFactor_eq h, fun de dG => (ccp_hasDerivAt h de dG).congr_deriv ?_⟩
  rw [sum_mul_eq_trace, ccpGradG, Matrix.smul_mul, Matrix.trace_smul, smul_eq_mul]
  congr 1
  rw [← Finset.sum_neg_distrib]
  exact Finset.sum_congr rfl fun i _ => by rw [ccpGradE_eq h]; ring

/-! ### C91: the proximal gradient variant -/

/-- A pass of the gradient loop leaves a point of the domain unchanged exactly if the point minimises the convex problem
that the other variant gives to the solver. -/
theorem C91_fixed_iff (Sigma : Mat n) (Gk : Matrix (Fin n) (Fin k) ℝ) {e : Vec n} {G : Matrix (Fin n) (Fin k) ℝ}
    (h : (diagonal e - G * Gᵀ).PosDef) :
    ccpProxStep Sigma (Sigma * Gk) (e, G) = .ok (e, G) ↔
      ∀ e' G', (ccpBlock e' G').PosDef → ccpSurrogate Sigma Gk e G ≤ ccpSurrogate Sigma Gk e' G' := by
  have hiff : ccpProxStep Sigma (Sigma * Gk) (e, G) = .ok (e, G) ↔ CcpStationary Sigma Gk e G := by
    unfold ccpProxStep
    simp only [ccpCommonFactor_eq (e := e) (G := G) h, bind, Except.bind, pure, Except.pure, mul_one, one_smul]
    rw [Except.ok.injEq, Prod.mk.injEq, CcpStationary]
    refine and_congr ⟨fun h1 i => ?_, fun h1 => ?_⟩ ⟨fun h1 => ?_, fun h1 => ?_⟩
    · have := congrFun h1 i
      rw [ccpGradE_eq h] at this
      linarith
    · funext i
      rw [ccpGradE_eq h, h1 i]; ring
    · rw [sub_eq_self, ccpGradG, ← smul_sub, smul_eq_zero] at h1
      rcases h1 with h1 | h1
      · norm_num at h1
      · exact sub_eq_zero.mp h1
    · rw [ccpGradG, h1, sub_self, sub_zero]
  rw [hiff]
  constructor
  · exact fun hst e' G' h' => ccp_minimal hst h ((ccpBlock_posDef_iff _ _).mp h')
  · exact fun hm => ccp_stationary h fun e' G' h' => hm e' G' ((ccpBlock_posDef_iff _ _).mpr h')

private theorem prox_one {Sigma : Mat 1} {e : Vec 1} (he : e 0 ≠ 0) :
    ccpProxStep Sigma (Sigma * (0 : Matrix (Fin 1) (Fin k) ℝ)) (e, 0) = .ok (fun _ => e 0 + 1 / e 0 - Sigma 0 0, 0) := by
  have hcf : ccpCommonFactor e (0 : Matrix (Fin 1) (Fin k) ℝ) = .ok 0 := by
    unfold ccpCommonFactor
    rw [if_neg (by push Not; intro i; rwa [Subsingleton.elim i 0])]
    simp only [rowScale_eq, Matrix.mul_zero, sub_zero]
    rw [inv?_of_ne (by rw [Matrix.det_one]; exact one_ne_zero)]
    simp [bind, Except.bind, pure, Except.pure]
  unfold ccpProxStep
  simp only [hcf, bind, Except.bind, pure, Except.pure, mul_one, one_smul]
  rw [Except.ok.injEq, Prod.mk.injEq]
  constructor
  · funext i
    rw [Subsingleton.elim i 0]
    simp [ccpGradE]; ring
  · simp [ccpGradG]

private theorem prox_negative {Sigma : Mat 1} (hS : 0 < Sigma 0 0) (m : ℕ) : ∀ {e : Vec 1}, e 0 < 0 →
    ∃ e' : Vec 1, e' 0 < 0 ∧
      ccpProxLoop Sigma (Sigma * (0 : Matrix (Fin 1) (Fin k) ℝ)) m (e, 0) = .ok (e', 0) := by
  induction m with
  | zero => exact fun {e} he => ⟨e, he, rfl⟩
  | succ m ih =>
    intro e he
    have h1 : e 0 + 1 / e 0 - Sigma 0 0 < 0 := by
      have := one_div_neg.mpr he
      linarith
    obtain ⟨e', he', hl⟩ := ih (e := fun _ => e 0 + 1 / e 0 - Sigma 0 0) h1
    refine ⟨e', he', ?_⟩
    simp only [ccpProxLoop, prox_one he.ne, bind, Except.bind]
    exact hl

private theorem prox_negative_succ {Sigma : Mat 1} (hS : 0 < Sigma 0 0) (m : ℕ) {e : Vec 1} (hne : e 0 ≠ 0)
    (he : e 0 + 1 / e 0 - Sigma 0 0 < 0) :
    ∃ e' : Vec 1, e' 0 < 0 ∧
      ccpProxLoop Sigma (Sigma * (0 : Matrix (Fin 1) (Fin k) ℝ)) (m + 1) (e, 0) = .ok (e', 0) := by
  obtain ⟨e', he', hl⟩ := prox_negative (k := k) hS m (e := fun _ => e 0 + 1 / e 0 - Sigma 0 0) he
  refine ⟨e', he', ?_⟩
  simp only [ccpProxLoop, prox_one hne, bind, Except.bind]
  exact hl

/-- The fixed step size can leave the domain for good: for one asset with variance larger than `d + 1/d`, started with
zero loadings and idiosyncratic variance `d`, `iterate` of `_State2` succeeds and `build` returns a negative variance. -/
theorem C91_negative_variance {Sigma : Mat 1} {d : Vec 1} (hd : 0 < d 0) (hS : d 0 + 1 / d 0 < Sigma 0 0) :
    ∃ s s' x, ccpInit Sigma (0 : Matrix (Fin 1) (Fin k) ℝ) d = .ok s ∧ s.iterate2 = .ok s' ∧ s'.build = .ok x ∧
      x.F = 0 ∧ x.d 0 < 0 := by
  have hd' : ∀ i, 0 < d i := fun i => by rwa [Subsingleton.elim i 0]
  have hS0 : 0 < Sigma 0 0 := lt_trans (by have := one_div_pos.mpr hd; linarith) hS
  obtain ⟨s, L, h1, h2, _, he, hG, _⟩ := ccp_init Sigma (0 : Matrix (Fin 1) (Fin k) ℝ) hd'
  have hG0 : s.Gk = 0 := by rw [hG, Matrix.zero_mul, Matrix.mul_zero]
  have hPD : Sigma.PosDef := by
    have : Sigma = diagonal fun _ => Sigma 0 0 := by
      ext i j; rw [Subsingleton.elim i 0, Subsingleton.elim j 0]; simp
    rw [this, Matrix.posDef_diagonal_iff]; exact fun _ => hS0
  have hneg : s.ek 0 + 1 / s.ek 0 - Sigma 0 0 < 0 := by rw [he]; simp only [one_div_one_div]; linarith
  have hne : s.ek 0 ≠ 0 := by rw [he]; exact (one_div_pos.mpr hd).ne'
  obtain ⟨e', he', hl⟩ := prox_negative_succ (k := k) hS0 99 hne hneg
  have h100 : (99 + 1 : ℕ) = 100 := rfl
  rw [h100] at hl
  have hprox : ccpProx s.ek s.Gk s.Gk s.Sigma = .ok (e', 0) := by
    unfold ccpProx
    rw [hG0, h2, hl]
  have hob : ∃ v, ({ s with ek := e', Gk := 0 } : CcpState 1 k).objective = .ok v :=
    ⟨_, ccp_objective (s := { s with ek := e', Gk := 0 }) (by change s.Sigma.PosDef; rwa [h2])⟩
  obtain ⟨v, hob⟩ := hob
  refine ⟨s, { s with ek := e', Gk := 0 }, ⟨0, fun i => 1 / e' i⟩, h1, ?_, ?_, rfl, one_div_neg.mpr he'⟩
  · unfold CcpState.iterate2
    simp only [hprox, bind, Except.bind]
    rw [hob]
    rfl
  · unfold CcpState.build
    rw [if_neg (by push Not; intro i; rw [Subsingleton.elim i 0]; exact he'.ne)]
    simp only [rowScale_eq, Matrix.mul_zero, sub_zero]
    rw [inv?_of_ne (by rw [Matrix.det_one]; exact one_ne_zero), inv_one]
    obtain ⟨K, hK⟩ := exists_chol (M := (1 : Mat k)) Matrix.PosDef.one
    have hc : chol? (1 : Mat k) = .ok K := chol?_ok_iff.mpr (by rwa [symLower_of_symm Matrix.transpose_one])
    simp [bind, Except.bind, hc, pure, Except.pure]

/-- variance 3, `d = 1` -/
example : ((fun _ => 1 : Vec 1) 0) + 1 / ((fun _ => 1 : Vec 1) 0) < (diagonal fun _ => 3 : Mat 1) 0 0 := by norm_num

end CovPred
