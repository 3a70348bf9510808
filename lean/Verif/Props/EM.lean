import Verif.Lemmas.EM
import Verif.Props.Regularize

/-
`em_regularize_covariance` (regularization.py): properties C46-C48, C66, C67.
-/
set_option linter.unusedSectionVars false

namespace CovPred
open Matrix

variable {τ : Type} [LinearOrder τ] {n k : ℕ}

/-- the loop with one pass more -/
theorem emLoop_succ' (S : Mat n) (m : ℕ) (x : LowRankDiag n k) :
    emLoop S (m + 1) x = (emLoop S m x >>= fun y => emStep S y) := by
  induction m generalizing x with
  | zero =>
    show (emStep S x >>= fun y => Except.ok y) = emStep S x
    cases emStep S x <;> rfl
  | succ m ih =>
    show (emStep S x >>= fun y => emLoop S (m + 1) y) = ((emStep S x >>= fun y => emLoop S m y) >>= fun y => emStep S y)
    cases h : emStep S x with
    | error e => rfl
    | ok y => exact ih y

/-- any number of passes is well defined and keeps `d` positive -/
theorem emLoop_ok {S : Mat n} (hS : S.PosDef) (m : ℕ) (x : LowRankDiag n k) (hd : ∀ i, 0 < x.d i) :
    ∃ y, emLoop S m x = .ok y ∧ (∀ i, 0 < y.d i) ∧ factorLogLik S x.F x.d ≤ factorLogLik S y.F y.d := by
  induction m generalizing x with
  | zero => exact ⟨x, rfl, hd, le_rfl⟩
  | succ m ih =>
    obtain ⟨y, h1, h2, h3⟩ := ih { F := emF S x.F x.d, d := fun i => emPhi S x.F x.d i (emF S x.F x.d i) }
      (fun i => emPhi_pos hS x.F hd i (emF S x.F x.d i))
    refine ⟨y, ?_, h2, (em_monotone hS x.F hd).trans h3⟩
    show (emStep S x >>= fun y => emLoop S m y) = _
    rw [emStep_eq hS.posSemidef x hd]
    exact h1

/-- Positive definite matrices, each with an initial factor model with positive idiosyncratic variances. -/
def EmInput (sigmas : List (τ × Mat n)) (initial : List (τ × LowRankDiag n k)) : Prop :=
  ∀ p ∈ sigmas, p.2.PosDef ∧ ∃ x, initial.lookup p.1 = some x ∧ ∀ i, 0 < x.d i

/-- lifting a fact about one matrix to the generator -/
theorem em_lift {sigmas : Dict τ (Mat n)} {initial : Dict τ (LowRankDiag n k)}
    (P : τ × Mat n → LowRankDiag n k → Prop)
    (h : ∀ p ∈ sigmas, ∃ x y, initial.lookup p.1 = some x ∧ emLowRankApproximation p.2 x = .ok y ∧ P p y) :
    ∃ items, emRegularizeCovariance sigmas initial = (items, none) ∧
      List.Forall₂ (fun p q => q.1 = p.1 ∧ P p q.2) sigmas items := by
  apply genMap_ok
  intro p hp
  obtain ⟨x, y, h1, h2, h3⟩ := h p hp
  exact ⟨(p.1, y), by rw [h1]; simp only [h2]; rfl, rfl, h3⟩

/-- **C46** Every time gets a result, in order, without exception, and its idiosyncratic variances are positive. -/
theorem C46_well_defined {sigmas : Dict τ (Mat n)} {initial : Dict τ (LowRankDiag n k)} (h : EmInput sigmas initial) :
    ∃ items, emRegularizeCovariance sigmas initial = (items, none) ∧
      List.Forall₂ (fun p q => q.1 = p.1 ∧ (∀ i, 0 < q.2.d i) ∧ (factorCov q.2.F q.2.d).PosDef) sigmas items := by
  apply em_lift (P := fun _ y => (∀ i, 0 < y.d i) ∧ (factorCov y.F y.d).PosDef)
  intro p hp
  obtain ⟨hS, x, h1, h2⟩ := h p hp
  obtain ⟨y, e1, e2, _⟩ := emLoop_ok hS 5 x h2
  exact ⟨x, y, h1, e1, e2, factorCov_posDef y.F e2⟩

/-- **C46** The same for any number of passes, starting from any factor model with positive idiosyncratic variances. -/
theorem C46_any_number_of_passes {S : Mat n} (hS : S.PosDef) (x : LowRankDiag n k) (hd : ∀ i, 0 < x.d i) (m : ℕ) :
    ∃ y, emLoop S m x = .ok y ∧ ∀ i, 0 < y.d i := by
  obtain ⟨y, h1, h2, _⟩ := emLoop_ok hS m x hd
  exact ⟨y, h1, h2⟩

/-- **C46** A time without an initial factor model raises `KeyError` there; what comes before is yielded. -/
theorem C46_missing_initial {pre post : Dict τ (Mat n)} {initial : Dict τ (LowRankDiag n k)} (h : EmInput pre initial)
    (p : τ × Mat n) (hp : initial.lookup p.1 = none) :
    ∃ items, emRegularizeCovariance (pre ++ p :: post) initial = (items, some .keyError) ∧
      emRegularizeCovariance pre initial = (items, none) ∧ items.length = pre.length := by
  have hok : ∀ q ∈ pre, ∃ x y, initial.lookup q.1 = some x ∧ emLowRankApproximation q.2 x = .ok y := by
    intro q hq
    obtain ⟨hS, x, h1, h2⟩ := h q hq
    obtain ⟨y, e1, _, _⟩ := emLoop_ok hS 5 x h2
    exact ⟨x, y, h1, e1⟩
  clear h
  unfold emRegularizeCovariance
  induction pre with
  | nil => exact ⟨[], by simp [genMap, hp], rfl, rfl⟩
  | cons q l ih =>
    obtain ⟨its, g1, g2, g3⟩ := ih fun q hq => hok q (List.mem_cons_of_mem _ hq)
    obtain ⟨x, y, e1, e2⟩ := hok q List.mem_cons_self
    refine ⟨(q.1, y) :: its, ?_, ?_, by simp [g3]⟩
    · rw [List.cons_append, genMap_cons_ok (b := (q.1, y)) _ (by rw [e1]; simp only [e2]; rfl), g1]
    · rw [genMap_cons_ok (b := (q.1, y)) _ (by rw [e1]; simp only [e2]; rfl), g2]

/-- **C47** Each pass of the EM loop, from any state reached, does not decrease the likelihood. -/
theorem C47_each_pass {S : Mat n} (hS : S.PosDef) (x : LowRankDiag n k) (hd : ∀ i, 0 < x.d i) (m : ℕ) :
    ∃ y z, emLoop S m x = .ok y ∧ emLoop S (m + 1) x = .ok z ∧
      factorLogLik S y.F y.d ≤ factorLogLik S z.F z.d := by
  obtain ⟨y, h1, h2, _⟩ := emLoop_ok hS m x hd
  obtain ⟨z, h3, _, h5⟩ := emLoop_ok hS 1 y h2
  refine ⟨y, z, h1, ?_, h5⟩
  rw [emLoop_succ', h1]
  have : emLoop S 1 y = emStep S y := by
    show (emStep S y >>= fun y => Except.ok y) = emStep S y
    cases emStep S y <;> rfl
  rw [this] at h3
  exact h3

/-- **C47** The result is at least as likely as the initial factor model, at every time. -/
theorem C47_result {sigmas : Dict τ (Mat n)} {initial : Dict τ (LowRankDiag n k)} (h : EmInput sigmas initial) :
    ∃ items, emRegularizeCovariance sigmas initial = (items, none) ∧
      List.Forall₂ (fun p q => q.1 = p.1 ∧ ∀ x, initial.lookup p.1 = some x →
        factorLogLik p.2 x.F x.d ≤ factorLogLik p.2 q.2.F q.2.d) sigmas items := by
  apply em_lift (P := fun p y => ∀ x, initial.lookup p.1 = some x → factorLogLik p.2 x.F x.d ≤ factorLogLik p.2 y.F y.d)
  intro p hp
  obtain ⟨hS, x, h1, h2⟩ := h p hp
  obtain ⟨y, e1, _, e3⟩ := emLoop_ok hS 5 x h2
  refine ⟨x, y, h1, e1, fun x' hx' => ?_⟩
  rw [h1] at hx'
  cases hx'
  exact e3

/-- one matrix, exact factor model -/
theorem emLoop_fixed (x : LowRankDiag n k) (hd : ∀ i, 0 < x.d i) (m : ℕ) : emLoop (factorCov x.F x.d) m x = .ok x := by
  induction m with
  | zero => rfl
  | succ m ih =>
    show (emStep (factorCov x.F x.d) x >>= fun y => emLoop _ m y) = _
    rw [emStep_eq (factorCov_posDef x.F hd).posSemidef x hd]
    obtain ⟨h1, h2⟩ := em_fixed x.F hd
    have : ({ F := emF (factorCov x.F x.d) x.F x.d,
              d := fun i => emPhi (factorCov x.F x.d) x.F x.d i (emF (factorCov x.F x.d) x.F x.d i) } : LowRankDiag n k) = x := by
      cases x with
      | mk F d =>
        simp only at h1 h2 ⊢
        rw [LowRankDiag.mk.injEq]
        exact ⟨h1, funext h2⟩
    rw [this]
    exact ih

/-- **C48** Where the matrix already is the covariance of its initial factor model, that model is returned. -/
theorem C48_exact_model {sigmas : Dict τ (Mat n)} {initial : Dict τ (LowRankDiag n k)}
    (h : ∀ p ∈ sigmas, ∃ x, initial.lookup p.1 = some x ∧ (∀ i, 0 < x.d i) ∧ p.2 = factorCov x.F x.d) :
    ∃ items, emRegularizeCovariance sigmas initial = (items, none) ∧
      List.Forall₂ (fun p q => q.1 = p.1 ∧ initial.lookup p.1 = some q.2) sigmas items := by
  apply em_lift (P := fun p y => initial.lookup p.1 = some y)
  intro p hp
  obtain ⟨x, h1, h2, h3⟩ := h p hp
  refine ⟨x, x, h1, ?_, h1⟩
  rw [h3]
  exact emLoop_fixed x h2 5

/-! ### Change of units, rotation of the factors -/

/-- a factor model in other units -/
noncomputable def LowRankDiag.rescale (c : Vec n) (x : LowRankDiag n k) : LowRankDiag n k where
  F := diagonal c * x.F
  d := fun i => c i ^ 2 * x.d i

/-- a factor model with rotated factors -/
noncomputable def LowRankDiag.rotate (Q : Mat k) (x : LowRankDiag n k) : LowRankDiag n k where
  F := x.F * Q
  d := x.d

theorem rec'_rescale {c : Vec n} (hc : ∀ i, c i ≠ 0) {d : Vec n} :
    diagonal c * rec' (fun i => c i ^ 2 * d i) * diagonal c = rec' d := by
  rw [rec', rec', Matrix.diagonal_mul_diagonal, Matrix.diagonal_mul_diagonal]
  congr 1; funext i
  have := hc i
  rw [one_div, mul_inv, one_div]
  field_simp

theorem emStep_rescale {S : Mat n} (hS : S.PosDef) {c : Vec n} (hc : ∀ i, c i ≠ 0) (x : LowRankDiag n k)
    (hd : ∀ i, 0 < x.d i) :
    ∃ y, emStep S x = .ok y ∧ emStep (diagonal c * S * diagonal c) (x.rescale c) = .ok (y.rescale c) ∧
      ∀ i, 0 < y.d i := by
  have hd' : ∀ i, 0 < (x.rescale c).d i := fun i => mul_pos (sq_pos_of_ne_zero (hc i)) (hd i)
  have hS' : (diagonal c * S * diagonal c).PosSemidef := by
    have := conj_posSemidef hS.posSemidef (diagonal c)
    rwa [Matrix.diagonal_transpose] at this
  refine ⟨_, emStep_eq hS.posSemidef x hd, ?_, fun i => emPhi_pos hS x.F hd i _⟩
  rw [emStep_eq hS' _ hd']
  obtain ⟨F, d⟩ := x
  dsimp only [LowRankDiag.rescale]
  set d' : Vec n := fun i => c i ^ 2 * d i with hd'def
  have hcc : diagonal c * diagonal (fun i => (c i)⁻¹) = (1 : Mat n) := by
    rw [Matrix.diagonal_mul_diagonal, ← Matrix.diagonal_one]; congr 1; funext i; exact mul_inv_cancel₀ (hc i)
  have hA : emA (diagonal c * F) d' = emA F d := by
    rw [emA, emA, Matrix.transpose_mul, Matrix.diagonal_transpose, Matrix.mul_assoc Fᵀ, Matrix.mul_assoc Fᵀ,
      ← Matrix.mul_assoc _ (diagonal c) F, rec'_rescale hc, ← Matrix.mul_assoc]
  have hG : emG (diagonal c * F) d' = emG F d := by rw [emG, emG, hA]
  have hL : emL (diagonal c * F) d' * diagonal c = emL F d := by
    rw [emL, emL, hG, Matrix.transpose_mul, Matrix.diagonal_transpose, Matrix.mul_assoc (emG F d),
      Matrix.mul_assoc (emG F d), Matrix.mul_assoc Fᵀ, Matrix.mul_assoc Fᵀ, rec'_rescale hc, ← Matrix.mul_assoc]
  have hLT : diagonal c * (emL (diagonal c * F) d')ᵀ = (emL F d)ᵀ := by
    rw [← hL, Matrix.transpose_mul, Matrix.diagonal_transpose]
  have hX : emCxs (diagonal c * S * diagonal c) (diagonal c * F) d' = diagonal c * emCxs S F d := by
    rw [emCxs, emCxs, Matrix.mul_assoc, hLT, Matrix.mul_assoc]
  have hC : emCss (diagonal c * S * diagonal c) (diagonal c * F) d' = emCss S F d := by
    rw [emCss, emCss, hG, Matrix.mul_assoc _ (diagonal c), hLT, Matrix.mul_assoc (diagonal c), ← Matrix.mul_assoc, hL]
  have hF : emF (diagonal c * S * diagonal c) (diagonal c * F) d' = diagonal c * emF S F d := by
    rw [emF, emF, hX, hC, Matrix.mul_assoc]
  congr 2
  funext i
  rw [hF, emPhi, emPhi, hX, hC]
  have r1 : ∀ M : Matrix (Fin n) (Fin k) ℝ, (diagonal c * M) i = c i • M i := by
    intro M; funext j; rw [Matrix.diagonal_mul]; rfl
  rw [r1, r1, Matrix.mul_diagonal, Matrix.diagonal_mul, Matrix.mulVec_smul, smul_dotProduct, dotProduct_smul,
    smul_dotProduct, dotProduct_smul]
  simp only [smul_eq_mul]
  ring

theorem emLoop_rescale {S : Mat n} (hS : S.PosDef) {c : Vec n} (hc : ∀ i, c i ≠ 0) (m : ℕ) (x : LowRankDiag n k)
    (hd : ∀ i, 0 < x.d i) :
    ∃ y, emLoop S m x = .ok y ∧ emLoop (diagonal c * S * diagonal c) m (x.rescale c) = .ok (y.rescale c) := by
  induction m generalizing x with
  | zero => exact ⟨x, rfl, rfl⟩
  | succ m ih =>
    obtain ⟨y, h1, h2, h3⟩ := emStep_rescale hS hc x hd
    obtain ⟨z, h4, h5⟩ := ih y h3
    refine ⟨z, ?_, ?_⟩
    · show (emStep S x >>= fun y => emLoop S m y) = _
      rw [h1]; exact h4
    · show (emStep _ (x.rescale c) >>= fun y => emLoop _ m y) = _
      rw [h2]; exact h5

/-- the dictionaries in other units -/
noncomputable def rescaleSigmas (c : Vec n) (sigmas : Dict τ (Mat n)) : Dict τ (Mat n) :=
  sigmas.map fun p => (p.1, Matrix.of fun i j => c i * p.2 i j * c j)

/-- the initial factor models in other units -/
noncomputable def rescaleModels (c : Vec n) (l : List (τ × LowRankDiag n k)) : List (τ × LowRankDiag n k) :=
  l.map fun p => (p.1, p.2.rescale c)

theorem lookup_map_snd {A B : Type} (f : A → B) (l : List (τ × A)) (t : τ) :
    (l.map fun p => (p.1, f p.2)).lookup t = (l.lookup t).map f := by
  induction l with
  | nil => rfl
  | cons p l ih =>
    obtain ⟨a, b⟩ := p
    simp only [List.map_cons, List.lookup_cons, ih]
    cases t == a <;> rfl

theorem genMap_map {A A' B B' : Type} (f : A → Except Err B) (f' : A' → Except Err B') (g : A → A') (g' : B → B')
    (l : List A) (h : ∀ a ∈ l, ∃ b, f a = .ok b ∧ f' (g a) = .ok (g' b)) :
    genMap f' (l.map g) = ((genMap f l).1.map g', (genMap f l).2) := by
  induction l with
  | nil => rfl
  | cons a l ih =>
    obtain ⟨b, h1, h2⟩ := h a List.mem_cons_self
    rw [List.map_cons, genMap_cons_ok _ h1, genMap_cons_ok _ h2, ih fun x hx => h x (List.mem_cons_of_mem _ hx)]
    rfl

/-- **C66** Expressing the assets in other units (any non-zero factor per asset, in the matrices and in the initial
models) rescales the results: loadings by the factor, idiosyncratic variances by its square. -/
theorem C66_units {sigmas : Dict τ (Mat n)} {initial : Dict τ (LowRankDiag n k)} (h : EmInput sigmas initial)
    {c : Vec n} (hc : ∀ i, c i ≠ 0) :
    emRegularizeCovariance (rescaleSigmas c sigmas) (rescaleModels c initial) =
      (rescaleModels c (emRegularizeCovariance sigmas initial).1, (emRegularizeCovariance sigmas initial).2) := by
  unfold emRegularizeCovariance rescaleSigmas rescaleModels
  apply genMap_map
  intro p hp
  obtain ⟨hS, x, h1, h2⟩ := h p hp
  obtain ⟨y, e1, e2⟩ := emLoop_rescale hS hc 5 x h2
  have hm : (Matrix.of fun i j => c i * p.2 i j * c j : Mat n) = diagonal c * p.2 * diagonal c := by
    ext i j; rw [Matrix.mul_diagonal, Matrix.diagonal_mul, Matrix.of_apply]
  refine ⟨(p.1, y), ?_, ?_⟩
  · rw [h1]; simp only [emLowRankApproximation, e1]; rfl
  · dsimp only
    rw [lookup_map_snd, h1, hm]
    simp only [Option.map_some, emLowRankApproximation, e2]
    rfl

theorem emStep_rotate {S : Mat n} (hS : S.PosDef) {Q : Mat k} (hQ : Qᵀ * Q = 1) (x : LowRankDiag n k)
    (hd : ∀ i, 0 < x.d i) :
    ∃ y, emStep S x = .ok y ∧ emStep S (x.rotate Q) = .ok (y.rotate Q) ∧ ∀ i, 0 < y.d i := by
  refine ⟨_, emStep_eq hS.posSemidef x hd, ?_, fun i => emPhi_pos hS x.F hd i _⟩
  rw [emStep_eq hS.posSemidef (x.rotate Q) hd]
  obtain ⟨F, d⟩ := x
  dsimp only [LowRankDiag.rotate] at hd ⊢
  have hQ' : Q * Qᵀ = 1 := mul_eq_one_comm.mp hQ
  have hQi : Q⁻¹ = Qᵀ := Matrix.inv_eq_left_inv hQ
  have hQTi : Qᵀ⁻¹ = Q := Matrix.inv_eq_left_inv hQ'
  have hA : emA (F * Q) d = Qᵀ * emA F d * Q := by
    rw [emA, emA, Matrix.transpose_mul, Matrix.mul_add, Matrix.mul_one, Matrix.add_mul, hQ]
    simp only [Matrix.mul_assoc]
  have hconj : ∀ M : Mat k, (Qᵀ * M * Q)⁻¹ = Qᵀ * M⁻¹ * Q := by
    intro M
    rw [Matrix.mul_inv_rev, Matrix.mul_inv_rev, hQi, hQTi, Matrix.mul_assoc]
  have hG : emG (F * Q) d = Qᵀ * emG F d * Q := by rw [emG, emG, hA, hconj]
  have hL : emL (F * Q) d = Qᵀ * emL F d := by
    rw [emL, emL, hG, Matrix.transpose_mul]
    have : Qᵀ * emG F d * Q * (Qᵀ * Fᵀ) = Qᵀ * (emG F d * Fᵀ) := by
      rw [Matrix.mul_assoc (Qᵀ * emG F d), ← Matrix.mul_assoc Q, hQ', Matrix.one_mul, Matrix.mul_assoc]
    rw [this, Matrix.mul_assoc]
  have hX : emCxs S (F * Q) d = emCxs S F d * Q := by
    rw [emCxs, emCxs, hL, Matrix.transpose_mul, Matrix.transpose_transpose, Matrix.mul_assoc]
  have hC : emCss S (F * Q) d = Qᵀ * emCss S F d * Q := by
    rw [emCss, emCss, hL, hG, Matrix.transpose_mul, Matrix.transpose_transpose, Matrix.mul_add, Matrix.add_mul]
    simp only [Matrix.mul_assoc]
  have hF : emF S (F * Q) d = emF S F d * Q := by
    rw [emF, emF, hX, hC, hconj, Matrix.mul_assoc, ← Matrix.mul_assoc Q, ← Matrix.mul_assoc Q, hQ', Matrix.one_mul,
      Matrix.mul_assoc]
  congr 2
  funext i
  rw [hF, emPhi, emPhi, hX, hC]
  have r1 : ∀ M : Matrix (Fin n) (Fin k) ℝ, (M * Q) i = Qᵀ *ᵥ M i := by
    intro M; rw [Matrix.mulVec_transpose]; rfl
  rw [r1, r1, Matrix.mulVec_mulVec, Matrix.mul_assoc, hQ', Matrix.mul_one, ← Matrix.mulVec_mulVec]
  have r2 : ∀ u v : Vec k, (Qᵀ *ᵥ u) ⬝ᵥ (Qᵀ *ᵥ v) = u ⬝ᵥ v := by
    intro u v
    rw [Matrix.dotProduct_mulVec, ← Matrix.mulVec_transpose, Matrix.transpose_transpose, Matrix.mulVec_mulVec, hQ',
      Matrix.one_mulVec]
  rw [r2, r2]

theorem emLoop_rotate {S : Mat n} (hS : S.PosDef) {Q : Mat k} (hQ : Qᵀ * Q = 1) (m : ℕ) (x : LowRankDiag n k)
    (hd : ∀ i, 0 < x.d i) :
    ∃ y, emLoop S m x = .ok y ∧ emLoop S m (x.rotate Q) = .ok (y.rotate Q) := by
  induction m generalizing x with
  | zero => exact ⟨x, rfl, rfl⟩
  | succ m ih =>
    obtain ⟨y, h1, h2, h3⟩ := emStep_rotate hS hQ x hd
    obtain ⟨z, h4, h5⟩ := ih y h3
    refine ⟨z, ?_, ?_⟩
    · show (emStep S x >>= fun y => emLoop S m y) = _
      rw [h1]; exact h4
    · show (emStep _ (x.rotate Q) >>= fun y => emLoop _ m y) = _
      rw [h2]; exact h5

/-- **C67** Rotating the factors of the initial models (in particular flipping or permuting the eigenvectors they come
from) rotates the loadings in the same way; the idiosyncratic variances and the covariance `F Fᵀ + diag(d)` stay. -/
theorem C67_rotation {sigmas : Dict τ (Mat n)} {initial : Dict τ (LowRankDiag n k)} (h : EmInput sigmas initial)
    {Q : Mat k} (hQ : Qᵀ * Q = 1) :
    emRegularizeCovariance sigmas (initial.map fun p => (p.1, p.2.rotate Q)) =
      ((emRegularizeCovariance sigmas initial).1.map fun p => (p.1, p.2.rotate Q),
        (emRegularizeCovariance sigmas initial).2) ∧
      ∀ x : LowRankDiag n k, factorCov (x.rotate Q).F (x.rotate Q).d = factorCov x.F x.d := by
  constructor
  · unfold emRegularizeCovariance
    have := genMap_map (fun p : τ × Mat n => (match initial.lookup p.1 with
      | none => .error .keyError
      | some x => do
        let y ← emLowRankApproximation p.2 x
        pure (p.1, y) : Except Err (τ × LowRankDiag n k))) (fun p : τ × Mat n => (match (initial.map fun p => (p.1, p.2.rotate Q)).lookup p.1 with
      | none => .error .keyError
      | some x => do
        let y ← emLowRankApproximation p.2 x
        pure (p.1, y) : Except Err (τ × LowRankDiag n k))) id (fun p => (p.1, p.2.rotate Q)) sigmas (by
        intro p hp
        obtain ⟨hS, x, h1, h2⟩ := h p hp
        obtain ⟨y, e1, e2⟩ := emLoop_rotate hS hQ 5 x h2
        refine ⟨(p.1, y), ?_, ?_⟩
        · rw [h1]; simp only [emLowRankApproximation, e1]; rfl
        · dsimp only [id]
          rw [lookup_map_snd, h1]
          simp only [Option.map_some, emLowRankApproximation, e2]
          rfl)
    rw [List.map_id] at this
    exact this
  · intro x
    have hQ' : Q * Qᵀ = 1 := mul_eq_one_comm.mp hQ
    dsimp only [LowRankDiag.rotate, factorCov]
    rw [Matrix.transpose_mul, Matrix.mul_assoc, ← Matrix.mul_assoc Q, hQ', Matrix.one_mul]

/-! ### The hypotheses can be met -/

namespace Demo

/-- one factor with unit idiosyncratic variances -/
noncomputable def emInit : LowRankDiag 2 1 := { F := !![1; 2], d := fun _ => 1 }

theorem emInput : EmInput [((0 : ℕ), (!![4, 2; 2, 4] : Mat 2)), (7, !![4, 2; 2, 4])] [(0, emInit), (7, emInit)] := by
  intro p hp
  simp only [List.mem_cons, List.not_mem_nil, or_false] at hp
  rcases hp with rfl | rfl
  · exact ⟨posDef_422, emInit, rfl, fun i => by simp [emInit]⟩
  · exact ⟨posDef_422, emInit, rfl, fun i => by simp [emInit]⟩

example : ∃ items, emRegularizeCovariance [((0 : ℕ), (!![4, 2; 2, 4] : Mat 2)), (7, !![4, 2; 2, 4])]
    [(0, emInit), (7, emInit)] = (items, none) ∧ items.length = 2 := by
  obtain ⟨items, h, hf⟩ := C46_well_defined emInput
  exact ⟨items, h, hf.length_eq.symm⟩

/-- the initial model is not a fixed point here: the matrix is another one -/
example : factorCov emInit.F emInit.d ≠ !![4, 2; 2, 4] := by
  intro h
  have := congrFun (congrFun h 0) 0
  simp [factorCov, emInit, Matrix.vecMul, dotProduct] at this
  norm_num at this

example : emRegularizeCovariance [((3 : ℕ), (!![2, 2; 2, 5] : Mat 2))] [(3, emInit)] = ([(3, emInit)], none) := by
  obtain ⟨items, h, hf⟩ := C48_exact_model (sigmas := [((3 : ℕ), (!![2, 2; 2, 5] : Mat 2))]) (initial := [(3, emInit)]) (by
    intro p hp
    rw [List.mem_singleton] at hp
    subst hp
    refine ⟨emInit, rfl, fun i => by simp [emInit], ?_⟩
    ext i j
    fin_cases i <;> fin_cases j <;> simp [factorCov, emInit, Matrix.vecMul, dotProduct] <;> norm_num)
  rw [h]
  cases hf with
  | cons h1 h2 =>
    cases h2
    rename_i q
    obtain ⟨a, b⟩ := q
    have h3 := h1.2
    have h4 := h1.1
    simp only [List.lookup_cons, beq_self_eq_true, Option.some.injEq] at h3 h4
    rw [h3, h4]

example : ∃ items, emRegularizeCovariance
    ([((0 : ℕ), (!![4, 2; 2, 4] : Mat 2)), (7, !![4, 2; 2, 4])] ++ (1, !![1, 0; 0, 1]) :: [])
    [(0, emInit), (7, emInit)] = (items, some .keyError) ∧ items.length = 2 := by
  obtain ⟨items, h, _, hl⟩ := C46_missing_initial (post := []) emInput (1, !![1, 0; 0, 1]) rfl
  exact ⟨items, h, hl⟩

/-- other units: prices in cents for the second asset -/
example : ∀ i : Fin 2, (![1, 100] : Vec 2) i ≠ 0 := by intro i; fin_cases i <;> simp

/-- the sign flip is a rotation of the single factor -/
example : (-1 : Mat 1)ᵀ * (-1 : Mat 1) = 1 := by simp

end Demo

end CovPred
