import Verif.Lemmas.Regularize
import Mathlib.LinearAlgebra.Matrix.Rank
import Mathlib.LinearAlgebra.Matrix.Diagonal

/-
Positive semidefiniteness, rank and uniqueness of the low-rank plus diagonal approximation.
-/
namespace CovPred
open Matrix

variable {n r : ℕ}

theorem mul_orth {U : Mat n} (h : Uᵀ * U = 1) : U * Uᵀ = 1 := mul_eq_one_comm.mp h

/-- eigenvalues of a positive semidefinite matrix -/
theorem eigen_nonneg {M U : Mat n} {mu : Vec n} (h1 : Uᵀ * U = 1) (h2 : M = U * diagonal mu * Uᵀ) (h : M.PosSemidef)
    (l : Fin n) : 0 ≤ mu l := by
  have := h.dotProduct_mulVec_nonneg (U *ᵥ Pi.single l 1)
  rw [star_trivial, h2, diag_conj_quad, Matrix.mulVec_mulVec, h1, Matrix.one_mulVec] at this
  rw [Finset.sum_eq_single l] at this
  · simpa using this
  · intro j _ hj; simp [hj]
  · intro hl; exact absurd (Finset.mem_univ l) hl

/-- eigenvalues of a positive definite matrix -/
theorem eigen_pos {M U : Mat n} {mu : Vec n} (h1 : Uᵀ * U = 1) (h2 : M = U * diagonal mu * Uᵀ) (h : M.PosDef)
    (l : Fin n) : 0 < mu l := by
  have hne : U *ᵥ Pi.single l (1 : ℝ) ≠ 0 := by
    intro h0
    have : Uᵀ *ᵥ (U *ᵥ Pi.single l (1 : ℝ)) = 0 := by rw [h0, Matrix.mulVec_zero]
    rw [Matrix.mulVec_mulVec, h1, Matrix.one_mulVec] at this
    have := congrFun this l
    simp at this
  have := h.dotProduct_mulVec_pos hne
  rw [star_trivial, h2, diag_conj_quad, Matrix.mulVec_mulVec, h1, Matrix.one_mulVec] at this
  rw [Finset.sum_eq_single l] at this
  · simpa using this
  · intro j _ hj; simp [hj]
  · intro hl; exact absurd (Finset.mem_univ l) hl

theorem isHermitian_of_symm {M : Mat n} (h : Mᵀ = M) : M.IsHermitian := by
  rw [Matrix.IsHermitian, Matrix.conjTranspose_eq_transpose_of_trivial, h]

/-- `Q diag(lam) Qᵀ` with non-negative `lam` is positive semidefinite -/
theorem diag_conj_posSemidef {m : ℕ} (Q : Matrix (Fin n) (Fin m) ℝ) {lam : Vec m} (h : ∀ l, 0 ≤ lam l) :
    (Q * diagonal lam * Qᵀ).PosSemidef := by
  refine Matrix.PosSemidef.of_dotProduct_mulVec_nonneg (isHermitian_of_symm (diag_conj_symm Q lam)) fun x => ?_
  rw [star_trivial, diag_conj_quad]
  exact Finset.sum_nonneg fun l _ => mul_nonneg (h l) (sq_nonneg _)

/-- the kept eigenvalues of a positive semidefinite matrix -/
theorem TopEigen.lam_nonneg {M : Mat n} {lam : Vec r} {Q : Matrix (Fin n) (Fin r) ℝ} (h : TopEigen M lam Q)
    (hM : M.PosSemidef) (j : Fin r) : 0 ≤ lam j := by
  obtain ⟨hr, U, mu, h1, h2, h3, h4, h5⟩ := h
  rw [h4]; exact eigen_nonneg h1 h2 hM _

/-- what is dropped is positive semidefinite -/
theorem TopEigen.resid_posSemidef {M : Mat n} {lam : Vec r} {Q : Matrix (Fin n) (Fin r) ℝ} (h : TopEigen M lam Q)
    (hM : M.PosSemidef) : (M - Q * diagonal lam * Qᵀ).PosSemidef := by
  obtain ⟨U, mu, h1, h2, h3, h4, h5⟩ := h.resid
  rw [h4]
  apply diag_conj_posSemidef
  intro l
  split
  · exact eigen_nonneg h1 h2 hM l
  · exact le_rfl

/-- The low-rank part plus the diagonal of the rest. -/
noncomputable def approx (M : Mat n) (lam : Vec r) (Q : Matrix (Fin n) (Fin r) ℝ) : Mat n :=
  Q * diagonal lam * Qᵀ + diagonal fun i => (M - Q * diagonal lam * Qᵀ) i i

theorem approx_symm (M : Mat n) (lam : Vec r) (Q : Matrix (Fin n) (Fin r) ℝ) : (approx M lam Q)ᵀ = approx M lam Q := by
  rw [approx, Matrix.transpose_add, diag_conj_symm, Matrix.diagonal_transpose]

theorem approx_diag (M : Mat n) (lam : Vec r) (Q : Matrix (Fin n) (Fin r) ℝ) (i : Fin n) : approx M lam Q i i = M i i := by
  rw [approx, Matrix.add_apply, Matrix.diagonal_apply_eq, Matrix.sub_apply]; ring

theorem approx_off (M : Mat n) (lam : Vec r) (Q : Matrix (Fin n) (Fin r) ℝ) {i j : Fin n} (h : i ≠ j) :
    approx M lam Q i j = (Q * diagonal lam * Qᵀ) i j := by
  rw [approx, Matrix.add_apply, Matrix.diagonal_apply_ne _ h, add_zero]

theorem approx_posSemidef {M : Mat n} {lam : Vec r} {Q : Matrix (Fin n) (Fin r) ℝ} (h : TopEigen M lam Q)
    (hM : M.PosSemidef) : (approx M lam Q).PosSemidef := by
  refine (diag_conj_posSemidef Q (h.lam_nonneg hM)).add ?_
  rw [Matrix.posSemidef_diagonal_iff]
  exact fun i => (h.resid_posSemidef hM).diag_nonneg

theorem approx_posDef {M : Mat n} {lam : Vec r} {Q : Matrix (Fin n) (Fin r) ℝ} (h : TopEigen M lam Q)
    (hM : M.PosDef) : (approx M lam Q).PosDef := by
  obtain ⟨U, mu, h1, h2, h3, h4, h5⟩ := h.resid
  have hpos := eigen_pos h1 h2 hM
  refine Matrix.PosDef.of_dotProduct_mulVec_pos (isHermitian_of_symm (approx_symm M lam Q)) fun x hx => ?_
  rw [star_trivial]
  set y := Uᵀ *ᵥ x with hy
  have hquad : x ⬝ᵥ (approx M lam Q *ᵥ x) =
      (∑ l : Fin n, (if (l : ℕ) < n - r then 0 else mu l) * y l ^ 2) + ∑ i, (M - Q * diagonal lam * Qᵀ) i i * x i ^ 2 := by
    rw [approx, Matrix.add_mulVec, dotProduct_add, h5, diag_conj_quad]
    congr 1
    rw [← h5]
    simp only [dotProduct, Matrix.mulVec_diagonal]
    exact Finset.sum_congr rfl fun i _ => by ring
  have hres : ∀ i, (M - Q * diagonal lam * Qᵀ) i i = ∑ l : Fin n, (if (l : ℕ) < n - r then mu l else 0) * U i l ^ 2 := by
    intro i
    rw [h4, diag_conj_apply]
    exact Finset.sum_congr rfl fun l _ => by ring
  have hn1 : 0 ≤ ∑ l : Fin n, (if (l : ℕ) < n - r then 0 else mu l) * y l ^ 2 := by
    apply Finset.sum_nonneg; intro l _; split
    · simp
    · exact mul_nonneg (hpos l).le (sq_nonneg _)
  have hn2' : ∀ i, 0 ≤ (M - Q * diagonal lam * Qᵀ) i i * x i ^ 2 := fun i =>
    mul_nonneg ((h.resid_posSemidef hM.posSemidef).diag_nonneg) (sq_nonneg _)
  have hn2 : 0 ≤ ∑ i, (M - Q * diagonal lam * Qᵀ) i i * x i ^ 2 := Finset.sum_nonneg fun i _ => hn2' i
  rw [hquad]
  rcases lt_or_eq_of_le hn1 with hlt | he1
  · linarith
  rcases lt_or_eq_of_le hn2 with hlt | he2
  · linarith
  exfalso
  -- the kept components of `x` vanish
  have hy0 : ∀ l : Fin n, ¬ (l : ℕ) < n - r → y l = 0 := by
    intro l hl
    have := (Finset.sum_eq_zero_iff_of_nonneg (fun l _ => by
      split
      · simp
      · exact mul_nonneg (hpos l).le (sq_nonneg _))).mp he1.symm l (Finset.mem_univ l)
    rw [if_neg hl] at this
    rcases mul_eq_zero.mp this with h0 | h0
    · exact absurd h0 (hpos l).ne'
    · exact pow_eq_zero_iff (by norm_num) |>.mp h0
  apply hx
  funext i
  by_contra hxi
  have := (Finset.sum_eq_zero_iff_of_nonneg (fun i _ => hn2' i)).mp he2.symm i (Finset.mem_univ i)
  have hr0 : (M - Q * diagonal lam * Qᵀ) i i = 0 := by
    rcases mul_eq_zero.mp this with h0 | h0
    · exact h0
    · exact absurd (pow_eq_zero_iff (by norm_num) |>.mp h0) hxi
  rw [hres i] at hr0
  have hU0 : ∀ l : Fin n, (l : ℕ) < n - r → U i l = 0 := by
    intro l hl
    have := (Finset.sum_eq_zero_iff_of_nonneg (fun l _ => by
      split
      · exact mul_nonneg (hpos l).le (sq_nonneg _)
      · simp)).mp hr0 l (Finset.mem_univ l)
    rw [if_pos hl] at this
    rcases mul_eq_zero.mp this with h0 | h0
    · exact absurd h0 (hpos l).ne'
    · exact pow_eq_zero_iff (by norm_num) |>.mp h0
  apply hxi
  have hx' : x = U *ᵥ y := by rw [hy, Matrix.mulVec_mulVec, mul_orth h1, Matrix.one_mulVec]
  rw [hx']
  show ∑ l, U i l * y l = 0
  apply Finset.sum_eq_zero
  intro l _
  by_cases hl : (l : ℕ) < n - r
  · rw [hU0 l hl, zero_mul]
  · rw [hy0 l hl, mul_zero]

/-- If the dropped eigenvalues vanish, nothing changes. -/
theorem approx_eq_self {M : Mat n} {lam : Vec r} {Q : Matrix (Fin n) (Fin r) ℝ}
    (h : M - Q * diagonal lam * Qᵀ = 0) : approx M lam Q = M := by
  have h' : Q * diagonal lam * Qᵀ = M := (sub_eq_zero.mp h).symm
  rw [approx, h]
  simp [h']

/-- All eigenvalues kept. -/
theorem TopEigen.resid_full {M : Mat n} {lam : Vec n} {Q : Matrix (Fin n) (Fin n) ℝ} (h : TopEigen M lam Q) :
    M - Q * diagonal lam * Qᵀ = 0 := by
  obtain ⟨U, mu, h1, h2, h3, h4, h5⟩ := h.resid
  rw [h4]
  have : (fun l : Fin n => if (l : ℕ) < n - n then mu l else 0) = 0 := by
    funext l; simp
  rw [this, show diagonal (0 : Vec n) = 0 from Matrix.diagonal_zero, Matrix.mul_zero, Matrix.zero_mul]

/-- A positive semidefinite matrix of rank at most `r` has no more than `r` non-zero eigenvalues. -/
theorem TopEigen.resid_rank {M : Mat n} {lam : Vec r} {Q : Matrix (Fin n) (Fin r) ℝ} (h : TopEigen M lam Q)
    (hM : M.PosSemidef) (hrank : M.rank ≤ r) : M - Q * diagonal lam * Qᵀ = 0 := by
  have hr : r ≤ n := h.1
  obtain ⟨U, mu, h1, h2, h3, h4, h5⟩ := h.resid
  have hnn := eigen_nonneg h1 h2 hM
  have hdet : IsUnit U.det := by
    rw [← Matrix.isUnit_iff_isUnit_det]
    exact IsUnit.of_mul_eq_one_right _ h1
  have hdetT : IsUnit Uᵀ.det := by rwa [Matrix.det_transpose]
  have hrk : M.rank = (Matrix.diagonal mu).rank := by
    rw [h2, Matrix.rank_mul_eq_left_of_isUnit_det _ _ hdetT, Matrix.rank_mul_eq_right_of_isUnit_det _ _ hdet]
  rw [Matrix.rank_diagonal] at hrk
  have hz : ∀ l : Fin n, (l : ℕ) < n - r → mu l = 0 := by
    intro l hl
    by_contra hne
    have hpos : 0 < mu l := lt_of_le_of_ne (hnn l) (Ne.symm hne)
    have hsub : Fintype.card {i : Fin n // l ≤ i} ≤ Fintype.card {i : Fin n // mu i ≠ 0} :=
      Fintype.card_subtype_mono _ _ (fun i hi => (lt_of_lt_of_le hpos (h3 hi)).ne') 
    have hcard : Fintype.card {i : Fin n // l ≤ i} = n - l := by
      rw [Fintype.card_subtype]
      have : (Finset.univ.filter fun i : Fin n => l ≤ i) = Finset.Ici l := by ext i; simp
      rw [this, Fin.card_Ici]
    omega
  rw [h4]
  have : (fun l : Fin n => if (l : ℕ) < n - r then mu l else 0) = 0 := by
    funext l
    by_cases hl : (l : ℕ) < n - r
    · rw [if_pos hl, hz l hl]; rfl
    · rw [if_neg hl]; rfl
  rw [this, show diagonal (0 : Vec n) = 0 from Matrix.diagonal_zero, Matrix.mul_zero, Matrix.zero_mul]

/-- conjugation by the volatilities -/
theorem scale_eq_conj (w : Vec n) (A : Mat n) :
    (Matrix.of fun i j => w i * A i j * w j : Mat n) = diagonal w * A * (diagonal w)ᴴ := by
  rw [Matrix.conjTranspose_eq_transpose_of_trivial, Matrix.diagonal_transpose]
  ext i j
  rw [Matrix.mul_diagonal, Matrix.diagonal_mul, Matrix.of_apply]

theorem scale_posSemidef (w : Vec n) {A : Mat n} (h : A.PosSemidef) :
    (Matrix.of fun i j => w i * A i j * w j : Mat n).PosSemidef := by
  rw [scale_eq_conj]; exact h.mul_mul_conjTranspose_same _

theorem scale_posDef {w : Vec n} (hw : ∀ i, 0 < w i) {A : Mat n} (h : A.PosDef) :
    (Matrix.of fun i j => w i * A i j * w j : Mat n).PosDef := by
  rw [scale_eq_conj]
  apply h.mul_mul_conjTranspose_same
  rw [Matrix.vecMul_injective_iff_isUnit, Matrix.isUnit_iff_isUnit_det, Matrix.det_diagonal]
  exact isUnit_iff_ne_zero.mpr (Finset.prod_pos fun i _ => hw i).ne'

theorem corrOf_posDef {S : Mat n} (h : S.PosDef) : (corrOf S).PosDef := by
  rw [corrOf_eq_conj]
  apply h.mul_mul_conjTranspose_same
  rw [Matrix.vecMul_injective_iff_isUnit, Matrix.isUnit_iff_isUnit_det, Matrix.det_diagonal]
  exact isUnit_iff_ne_zero.mpr (Finset.prod_pos fun i _ => inv_pos.mpr (Real.sqrt_pos.mpr h.diag_pos)).ne'

theorem corrOf_rank {S : Mat n} (h : ∀ i, 0 < S i i) : (corrOf S).rank = S.rank := by
  rw [corrOf_eq_conj, Matrix.conjTranspose_eq_transpose_of_trivial, Matrix.diagonal_transpose]
  have : IsUnit (diagonal fun i => (Real.sqrt (S i i))⁻¹ : Mat n).det := by
    rw [Matrix.det_diagonal]
    exact isUnit_iff_ne_zero.mpr (Finset.prod_pos fun i _ => inv_pos.mpr (Real.sqrt_pos.mpr (h i))).ne'
  rw [Matrix.rank_mul_eq_left_of_isUnit_det _ _ this, Matrix.rank_mul_eq_right_of_isUnit_det _ _ this]

end CovPred
