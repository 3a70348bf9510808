import Verif.Model.EwmaVecHelpers
import Verif.Props.RegularizeMore

/-
Property C124: the vectorised helpers of `iterated_ewma_vec.py` agree with the library.
-/
set_option linter.unusedSectionVars false
namespace CovPred
open Matrix

variable {τ : Type} [LinearOrder τ] {n r : ℕ}

/-- the slice keeps the leading eigenpairs -/
private theorem row_approx {eigh : Eigh} (he : eigh.Correct) {R : Mat n} (hR : Rᵀ = R) (hn : 1 ≤ n) (r : Int) :
    ∃ (lam : Vec (sliceStop n r)) (Q : Matrix (Fin n) (Fin (sliceStop n r)) ℝ), TopEigen R lam Q ∧
      regularizeCorrelationRow eigh R r = approx R lam Q := by
  obtain ⟨_, U, mu, h1, h2, h3, h4, h5⟩ := he n R n hn le_rfl
  rw [symLower_of_symm hR] at h2
  have hle := sliceStop_le n r
  refine ⟨fun j => mu ⟨n - sliceStop n r + j, by omega⟩, Matrix.of fun i j => U i ⟨n - sliceStop n r + j, by omega⟩,
    ⟨hle, U, mu, h1, h2, h3, fun _ => rfl, fun _ _ => rfl⟩, ?_⟩
  unfold regularizeCorrelationRow approx
  dsimp only
  rw [← diag_conj_rev (Matrix.of fun i j => U i ⟨n - sliceStop n r + j, by omega⟩)]
  have e1 : (fun j : Fin (sliceStop n r) => (eigh n R n).1 (Fin.castLE (sliceStop_le n r) j).rev)
      = fun j => mu ⟨n - sliceStop n r + j.rev, by omega⟩ := by
    funext j
    rw [h4]
    congr 1
    ext
    simp only [Fin.val_rev, Fin.val_castLE]
    omega
  have e2 : (Matrix.of fun i (j : Fin (sliceStop n r)) => (Matrix.of fun i j => (eigh n R n).2 i (Fin.rev j) : Mat n) i
      (Fin.castLE (sliceStop_le n r) j) : Matrix (Fin n) (Fin (sliceStop n r)) ℝ)
      = Matrix.of fun i j => (Matrix.of fun i (j : Fin (sliceStop n r)) => U i ⟨n - sliceStop n r + j, by omega⟩ :
          Matrix (Fin n) (Fin (sliceStop n r)) ℝ) i j.rev := by
    ext i j
    simp only [Matrix.of_apply]
    rw [h5]
    congr 1
    ext
    simp only [Fin.val_rev, Fin.val_castLE]
    omega
  rw [e1, e2]

private theorem sliceStop_of_le {r : ℕ} (hr : r ≤ n) : sliceStop n (r : Int) = r := by
  unfold sliceStop
  rw [if_neg (by omega)]
  simp [hr]

private theorem row_agrees {eigh eigh' : Eigh} (he : eigh.Correct) (he' : eigh'.Correct) {R : Mat n} (hR : Rᵀ = R)
    (hgap : EigenGap R r) (h1 : 1 ≤ r) (hr : r ≤ n) :
    ∃ x, regularizeCorrelation eigh' R r = .ok x ∧ regularizeCorrelationRow eigh R r = x.approximation := by
  obtain ⟨lam, Q, ht, hx⟩ := row_approx he hR (by omega) (r : Int)
  have ht' := he' n R r h1 hr
  rw [symLower_of_symm hR] at ht'
  refine ⟨_, by unfold regularizeCorrelation; rw [if_neg (by omega)], ?_⟩
  dsimp only
  rw [hx, diag_conj_rev]
  have hs : ∀ (m : ℕ) (_ : m = r) (lam : Vec m) (Q : Matrix (Fin n) (Fin m) ℝ), TopEigen R lam Q →
      Q * diagonal lam * Qᵀ = (eigh' n R r).2 * diagonal (eigh' n R r).1 * (eigh' n R r).2ᵀ := by
    rintro m rfl lam Q h
    exact h.part_unique ht' fun _ => hgap
  unfold approx
  rw [hs _ (sliceStop_of_le hr) lam Q ht]

/-- **C124.** For a stack of symmetric matrices whose `r`-th eigenvalue is larger than the next, and `1 <= r <= n`, the
vectorised `_regularize_correlation` gives, matrix by matrix, the approximation of the library's function of that name,
whatever eigenvectors the two eigenvalue routines choose. -/
theorem C124_agrees {eigh eigh' : Eigh} (he : eigh.Correct) (he' : eigh'.Correct) (Rs : List (Mat n)) (hne : Rs ≠ [])
    (hR : ∀ R ∈ Rs, Rᵀ = R ∧ EigenGap R r) (h1 : 1 ≤ r) (hr : r ≤ n) :
    ∃ Ls, regularizeCorrelationVec eigh Rs r = .ok Ls ∧
      List.Forall₂ (fun R L => ∃ x, regularizeCorrelation eigh' R r = .ok x ∧ L = x.approximation) Rs Ls := by
  refine ⟨_, by unfold regularizeCorrelationVec; rw [if_neg hne], ?_⟩
  rw [List.forall₂_map_right_iff, List.forall₂_same]
  intro R h
  exact row_agrees he he' (hR R h).1 (hR R h).2 h1 hr

/-- **C124.** For every integer `r` the result is symmetric, has the diagonal of the input, and is positive (semi)definite if
the input is. -/
theorem C124_factor_form {eigh : Eigh} (he : eigh.Correct) (hn : 1 ≤ n) (Rs : List (Mat n)) (hne : Rs ≠ [])
    (hR : ∀ R ∈ Rs, Rᵀ = R) (r : Int) :
    ∃ Ls, regularizeCorrelationVec eigh Rs r = .ok Ls ∧
      List.Forall₂ (fun R L => Lᵀ = L ∧ (∀ i, L i i = R i i) ∧ (R.PosSemidef → L.PosSemidef) ∧ (R.PosDef → L.PosDef))
        Rs Ls := by
  refine ⟨_, by unfold regularizeCorrelationVec; rw [if_neg hne], ?_⟩
  rw [List.forall₂_map_right_iff, List.forall₂_same]
  intro R h
  obtain ⟨lam, Q, ht, hx⟩ := row_approx he (hR R h) hn r
  rw [hx]
  exact ⟨approx_symm _ _ _, approx_diag _ _ _, approx_posSemidef ht, approx_posDef ht⟩

/-- **C124.** Unlike the library's function this one accepts every rank: from `n` on nothing changes, rank zero keeps
only the diagonal, and a negative rank `-k` means `n - k`. Only an empty stack raises (`ValueError`). -/
theorem C124_any_rank {eigh : Eigh} (he : eigh.Correct) (hn : 1 ≤ n) (Rs : List (Mat n)) (hne : Rs ≠ [])
    (hR : ∀ R ∈ Rs, Rᵀ = R) :
    (∀ r : ℕ, n ≤ r → regularizeCorrelationVec eigh Rs r = .ok Rs) ∧
    regularizeCorrelationVec eigh Rs 0 = .ok (Rs.map fun R => diagonal fun i => R i i) ∧
    (∀ k : ℕ, 1 ≤ k → k ≤ n → regularizeCorrelationVec eigh Rs (-k) = regularizeCorrelationVec eigh Rs (n - k : ℕ)) ∧
    ∀ r, regularizeCorrelationVec eigh ([] : List (Mat n)) r = .error .valueError := by
  refine ⟨fun r hr => ?_, ?_, fun k h1 hk => ?_, fun r => if_pos rfl⟩
  · unfold regularizeCorrelationVec
    rw [if_neg hne]
    refine congrArg _ ((List.map_congr_left fun R h => ?_).trans (List.map_id Rs))
    obtain ⟨lam, Q, ht, hx⟩ := row_approx he (hR R h) hn (r : Int)
    rw [hx]
    have hs : ∀ (m : ℕ) (_ : m = n) (lam : Vec m) (Q : Matrix (Fin n) (Fin m) ℝ), TopEigen R lam Q → approx R lam Q = R := by
      rintro m rfl lam Q h
      exact approx_eq_self h.resid_full
    refine hs _ ?_ lam Q ht
    unfold sliceStop
    rw [if_neg (by omega)]
    simp [hr]
  · unfold regularizeCorrelationVec
    rw [if_neg hne]
    refine congrArg _ (List.map_congr_left fun R h => ?_)
    obtain ⟨lam, Q, ht, hx⟩ := row_approx he (hR R h) hn 0
    rw [hx]
    have hs : ∀ (m : ℕ) (_ : m = 0) (lam : Vec m) (Q : Matrix (Fin n) (Fin m) ℝ), approx R lam Q = diagonal fun i => R i i := by
      rintro m rfl lam Q
      have h0 : Q * diagonal lam * Qᵀ = 0 := by
        ext i j
        rw [diag_conj_apply]
        simp
      unfold approx
      rw [h0]
      simp
    exact hs _ (by unfold sliceStop; simp) lam Q
  · have : sliceStop n (-(k : Int)) = sliceStop n ((n - k : ℕ) : Int) := by
      unfold sliceStop
      rw [if_pos (by omega), if_neg (by omega)]
      omega
    unfold regularizeCorrelationVec
    have hrow : ∀ R : Mat n, regularizeCorrelationRow eigh R (-(k : Int)) = regularizeCorrelationRow eigh R ((n - k : ℕ) : Int) := by
      intro R
      have hg : ∀ (a b : ℕ) (_ : a = b) (ha : a ≤ n) (hb : b ≤ n) (lam : Vec n) (Q : Mat n),
          (Matrix.of fun i (j : Fin a) => Q i (Fin.castLE ha j) : Matrix (Fin n) (Fin a) ℝ) *
            diagonal (fun j : Fin a => lam (Fin.castLE ha j)) *
            (Matrix.of fun i (j : Fin a) => Q i (Fin.castLE ha j) : Matrix (Fin n) (Fin a) ℝ)ᵀ
          = (Matrix.of fun i (j : Fin b) => Q i (Fin.castLE hb j) : Matrix (Fin n) (Fin b) ℝ) *
            diagonal (fun j : Fin b => lam (Fin.castLE hb j)) *
            (Matrix.of fun i (j : Fin b) => Q i (Fin.castLE hb j) : Matrix (Fin n) (Fin b) ℝ)ᵀ := by
        rintro a b rfl _ _ lam Q
        rfl
      unfold regularizeCorrelationRow
      dsimp only
      rw [hg _ _ this (sliceStop_le n _) (sliceStop_le n _) (fun j => (eigh n R n).1 j.rev)
        (Matrix.of fun i j => (eigh n R n).2 i j.rev)]
    split
    · rfl
    · exact congrArg _ (List.map_congr_left fun R _ => hrow R)

/-- **C124.** `_refactor_to_corr` gives unit diagonals and keeps symmetry; its entries are `S_ij / sqrt (S_ii S_jj)`. -/
theorem C124_correlations (sigmas : List (Mat n)) (hs : ∀ S ∈ sigmas, Sᵀ = S ∧ ∀ i, 0 < S i i) :
    List.Forall₂ (fun S C => Cᵀ = C ∧ (∀ i, C i i = 1) ∧ ∀ i j, C i j = S i j / Real.sqrt (S i i * S j j))
      sigmas (refactorToCorr sigmas) := by
  unfold refactorToCorr
  rw [List.forall₂_map_right_iff, List.forall₂_same]
  intro S h
  refine ⟨corrOf_symm (hs S h).1, fun i => corrOf_diag ((hs S h).2 i), fun i j => ?_⟩
  rw [Real.sqrt_mul ((hs S h).2 i).le]
  rfl

/-- **C124.** Volatilities, correlations, regularisation and the Engle formula of the vectorised code, one after the other,
give the matrices of `regularize_covariance`. -/
theorem C124_pipeline {eigh eigh' : Eigh} (he : eigh.Correct) (he' : eigh'.Correct) (sigmas : Dict τ (Mat n))
    (hne : sigmas ≠ []) (hs : CovDict sigmas) (hgap : ∀ p ∈ sigmas, EigenGap (corrOf p.2) r) (h1 : 1 ≤ r) (hr : r ≤ n) :
    ∃ Rs, regularizeCorrelationVec eigh (refactorToCorr (sigmas.map Prod.snd)) r = .ok Rs ∧
      regularizeCovariance eigh' sigmas r =
        (List.zip (sigmas.map Prod.fst)
          ((engle (sigmas.map fun p => fun i => Real.sqrt (p.2 i i)) Rs).map RegOut.dense), none) := by
  refine ⟨_, by unfold regularizeCorrelationVec; rw [if_neg (by simp [refactorToCorr, hne])], ?_⟩
  obtain ⟨items, hi, hf⟩ := regularize_lift (eigh := eigh') (sigmas := sigmas) (fmt := false) (r := r)
    (P := fun S y => y = RegOut.dense (Matrix.of fun i j => Real.sqrt (S i i) *
      regularizeCorrelationRow eigh (corrOf S) r i j * Real.sqrt (S j j))) (by
      intro p hp
      obtain ⟨hS, hd⟩ := hs p hp
      obtain ⟨lam, Q, ht, hy⟩ := regularizeOne_dense he' hS hd h1 hr
      refine ⟨_, hy, ?_⟩
      obtain ⟨lam', Q', ht', hx⟩ := row_approx he (corrOf_symm hS) (by omega) (r : Int)
      have hs : ∀ (m : ℕ) (_ : m = r) (lam' : Vec m) (Q' : Matrix (Fin n) (Fin m) ℝ), TopEigen (corrOf p.2) lam' Q' →
          approx (corrOf p.2) lam Q = approx (corrOf p.2) lam' Q' := by
        rintro m rfl lam' Q' h
        unfold approx
        rw [ht.part_unique h fun _ => hgap p hp]
      rw [hx, hs _ (sliceStop_of_le hr) lam' Q' ht'])
  rw [hi]
  congr 1
  unfold refactorToCorr engle
  rw [List.map_map, List.map_map, List.zipWith_map, List.zipWith_self, List.map_map, List.zip_map', ]
  clear hi hs hgap hne
  induction hf with
  | nil => rfl
  | cons h _ ih =>
    rw [List.map_cons, ← ih]
    congr 1
    obtain ⟨a, b⟩ := h
    exact Prod.ext a b

/-- **C124.** The realised variances are the diagonals of the realised covariances, which are positive semidefinite. -/
theorem C124_realized (returns : List (Vec n)) :
    (getRealizedCovs returns).map (fun C i => C i i) = getRealizedVars returns ∧
      ∀ C ∈ getRealizedCovs returns, C.PosSemidef := by
  constructor
  · unfold getRealizedCovs getRealizedVars
    rw [List.map_map]
    refine List.map_congr_left fun r _ => ?_
    funext i
    simp [outerR, sq]
  · unfold getRealizedCovs
    intro C hC
    rw [List.mem_map] at hC
    obtain ⟨r, _, rfl⟩ := hC
    have := Matrix.posSemidef_vecMulVec_self_star r
    simpa [outerR, Matrix.vecMulVec] using this

/-! Non-vacuity: the covariance matrix with variances 4 and covariance 2 has correlation 1/2 and eigenvalues 1/2, 3/2. -/

example (eigh eigh' : Eigh) (he : eigh.Correct) (he' : eigh'.Correct) :
    ∃ Ls, regularizeCorrelationVec eigh [corrOf (!![4, 2; 2, 4] : Mat 2)] 1 = .ok Ls ∧
      List.Forall₂ (fun R L => ∃ x, regularizeCorrelation eigh' R 1 = .ok x ∧ L = x.approximation)
        [corrOf (!![4, 2; 2, 4] : Mat 2)] Ls := by
  have hS : (!![4, 2; 2, 4] : Mat 2)ᵀ = !![4, 2; 2, 4] := by
    ext i j; fin_cases i <;> fin_cases j <;> rfl
  refine C124_agrees (r := 1) he he' _ (by simp) (fun R h => ?_) le_rfl (by norm_num)
  rw [List.mem_singleton] at h
  subst h
  exact ⟨corrOf_symm hS, Demo.gap_422⟩

example (eigh : Eigh) (he : eigh.Correct) :
    regularizeCorrelationVec eigh [(!![1, 1 / 2; 1 / 2, 1] : Mat 2)] 7 = .ok [!![1, 1 / 2; 1 / 2, 1]] :=
  (C124_any_rank he (by norm_num) _ (by simp) (fun R h => by
    rw [List.mem_singleton] at h
    subst h
    ext i j; fin_cases i <;> fin_cases j <;> rfl)).1 7 (by norm_num)

end CovPred
