import Verif.Model.LinAlg
import Mathlib.Analysis.Matrix.LDL
import Mathlib.Analysis.Real.Sqrt
import Mathlib.Tactic.Linarith
import Mathlib.Tactic.Positivity

/-
Facts about Cholesky factors.
-/
namespace CovPred
open Matrix

variable {n : ℕ}

theorem LowerTri.isLT {L : Mat n} (h : LowerTri L) : L.BlockTriangular OrderDual.toDual := by
  intro i j hij
  exact h i j (OrderDual.toDual_lt_toDual.mp hij)

theorem LowerTri.of_isLT {L : Mat n} (h : L.BlockTriangular OrderDual.toDual) : LowerTri L := by
  intro i j hij
  exact h (OrderDual.toDual_lt_toDual.mpr hij)

theorem LowerTri.det {L : Mat n} (h : LowerTri L) : L.det = ∏ i, L i i := Matrix.det_of_isLowerTriangular L h.isLT

theorem LowerTri.mul {L M : Mat n} (h : LowerTri L) (h' : LowerTri M) : LowerTri (L * M) :=
  LowerTri.of_isLT (h.isLT.mul h'.isLT)

theorem LowerTri.inv {L : Mat n} (h : LowerTri L) (hd : L.det ≠ 0) : LowerTri L⁻¹ := by
  haveI := Matrix.invertibleOfIsUnitDet L (isUnit_iff_ne_zero.mpr hd)
  exact LowerTri.of_isLT (Matrix.blockTriangular_inv_of_blockTriangular h.isLT)

theorem LowerTri.mul_diag {L M : Mat n} (h : LowerTri L) (h' : LowerTri M) (i : Fin n) :
    (L * M) i i = L i i * M i i := by
  rw [Matrix.mul_apply]
  rw [Finset.sum_eq_single i]
  · intro k _ hk
    rcases lt_or_gt_of_ne hk with hlt | hgt
    · rw [h' k i hlt, mul_zero]
    · rw [h i k hgt, zero_mul]
  · intro hi; exact absurd (Finset.mem_univ i) hi

theorem IsChol.det_pos {L M : Mat n} (h : IsChol L M) : 0 < L.det := by
  rw [h.lower.det]; exact Finset.prod_pos fun i _ => h.pos i

theorem det_ne_of_tri {L : Mat n} (h : LowerTri L) (hp : ∀ i, 0 < L i i) : L.det ≠ 0 := by
  rw [h.det]; exact (Finset.prod_pos fun i _ => hp i).ne'

/-- Cholesky factors are unique. -/
theorem IsChol.unique {L L' M : Mat n} (h : IsChol L M) (h' : IsChol L' M) : L = L' := by
  have hd := h.det_pos.ne'
  have hd' := h'.det_pos.ne'
  have hu : IsUnit L.det := isUnit_iff_ne_zero.mpr hd
  have hu' : IsUnit L'.det := isUnit_iff_ne_zero.mpr hd'
  have huT : IsUnit Lᵀ.det := by rwa [Matrix.det_transpose]
  have huT' : IsUnit L'ᵀ.det := by rwa [Matrix.det_transpose]
  -- `Q = L'⁻¹ L` is lower triangular and equals `L'ᵀ (Lᵀ)⁻¹`
  set Q := L'⁻¹ * L with hQ
  have hlow : LowerTri Q := (h'.lower.inv hd').mul h.lower
  have heq : Q = L'ᵀ * Lᵀ⁻¹ := by
    have : L * Lᵀ = L' * L'ᵀ := h.eq.trans h'.eq.symm
    have h1 : Q * Lᵀ = L'ᵀ := by
      rw [hQ, Matrix.mul_assoc, this, ← Matrix.mul_assoc, Matrix.nonsing_inv_mul _ hu', Matrix.one_mul]
    rw [← h1, Matrix.mul_assoc, Matrix.mul_nonsing_inv _ huT, Matrix.mul_one]
  have hQQ : Q * Qᵀ = 1 := by
    conv_lhs => rhs; rw [heq]
    rw [hQ, Matrix.transpose_mul, Matrix.transpose_transpose, Matrix.transpose_nonsing_inv, Matrix.transpose_transpose,
      Matrix.mul_assoc, ← Matrix.mul_assoc L, Matrix.mul_nonsing_inv _ hu, Matrix.one_mul, Matrix.nonsing_inv_mul _ hu']
  have hup : LowerTri Qᵀ := by
    have : Qᵀ = L⁻¹ * L' := by
      rw [heq, Matrix.transpose_mul, Matrix.transpose_nonsing_inv, Matrix.transpose_transpose, Matrix.transpose_transpose]
    rw [this]
    exact (h.lower.inv hd).mul h'.lower
  have hpos : ∀ i, 0 < Q i i := by
    intro i
    have h1 : L' * Q = L := by rw [hQ, ← Matrix.mul_assoc, Matrix.mul_nonsing_inv _ hu', Matrix.one_mul]
    have h2 := h'.lower.mul_diag hlow i
    rw [h1] at h2
    have := h.pos i
    rw [h2] at this
    exact (pos_iff_pos_of_mul_pos this).mp (h'.pos i)
  have hone : Q = 1 := by
    ext i j
    rcases lt_trichotomy i j with hij | hij | hij
    · rw [hlow i j hij, Matrix.one_apply_ne hij.ne]
    · subst hij
      have h2 := hlow.mul_diag hup i
      rw [hQQ, Matrix.one_apply_eq, Matrix.transpose_apply] at h2
      rw [Matrix.one_apply_eq]
      nlinarith [hpos i]
    · have := hup j i hij
      rw [Matrix.transpose_apply] at this
      rw [this, Matrix.one_apply_ne hij.ne']
  have : L' * Q = L := by rw [hQ, ← Matrix.mul_assoc, Matrix.mul_nonsing_inv _ hu', Matrix.one_mul]
  rw [hone, Matrix.mul_one] at this
  exact this.symm

theorem posDef_of_mul {L : Mat n} (hd : L.det ≠ 0) : (L * Lᵀ).PosDef := by
  have := Matrix.PosDef.mul_conjTranspose_self L (by
    rw [Matrix.vecMul_injective_iff_isUnit, Matrix.isUnit_iff_isUnit_det]
    exact isUnit_iff_ne_zero.mpr hd)
  rwa [Matrix.conjTranspose_eq_transpose_of_trivial] at this

theorem IsChol.posDef {L M : Mat n} (h : IsChol L M) : M.PosDef := by
  rw [← h.eq]; exact posDef_of_mul h.det_pos.ne'

/-- A positive definite matrix has a Cholesky factor. -/
theorem exists_chol {M : Mat n} (h : M.PosDef) : ∃ L, IsChol L M := by
  classical
  set P := LDL.lowerInv h with hP
  have hPinv : IsUnit P.det := by
    have := LDL.invertibleLowerInv h
    exact Matrix.isUnit_det_of_invertible P
  have hPlow : LowerTri P := fun i j hij => LDL.lowerInv_triangular h hij
  have hLDL := LDL.lower_conj_diag h
  rw [LDL.lower, ← hP] at hLDL
  rw [Matrix.conjTranspose_eq_transpose_of_trivial] at hLDL
  have hlow : LowerTri P⁻¹ := hPlow.inv hPinv.ne_zero
  have hdiag : (LDL.diag h) = Matrix.diagonal (LDL.diagEntries h) := rfl
  have hdpos : ∀ i, 0 < LDL.diagEntries h i := by
    have h1 := LDL.diag_eq_lowerInv_conj h
    have h2 : (LDL.lowerInv h * M * (LDL.lowerInv h)ᴴ).PosDef := by
      apply Matrix.PosDef.mul_mul_conjTranspose_same h
      rw [Matrix.vecMul_injective_iff_isUnit, Matrix.isUnit_iff_isUnit_det]
      exact hPinv
    rw [← h1, hdiag, Matrix.posDef_diagonal_iff] at h2
    exact h2
  have hne : ∀ i, P⁻¹ i i ≠ 0 := by
    intro i hi
    have : (P⁻¹).det = 0 := by
      rw [hlow.det]; exact Finset.prod_eq_zero (Finset.mem_univ i) hi
    rw [Matrix.det_nonsing_inv] at this
    have h3 : P.det ≠ 0 := hPinv.ne_zero
    simp [Ring.inverse_eq_inv, h3] at this
  let s : Fin n → ℝ := fun i => if 0 < P⁻¹ i i then 1 else -1
  have hs : ∀ i, s i * s i = 1 := fun i => by simp only [s]; split <;> norm_num
  let d : Fin n → ℝ := fun i => Real.sqrt (LDL.diagEntries h i) * s i
  refine ⟨P⁻¹ * Matrix.diagonal d, ?_, ?_, ?_⟩
  · intro i j hij
    rw [Matrix.mul_diagonal, hlow i j hij, zero_mul]
  · intro i
    rw [Matrix.mul_diagonal]
    simp only [d, s]
    have := Real.sqrt_pos.mpr (hdpos i)
    split
    · next hp => positivity
    · next hp =>
      have : P⁻¹ i i < 0 := lt_of_le_of_ne (not_lt.mp hp) (hne i)
      nlinarith
  · rw [Matrix.transpose_mul, Matrix.diagonal_transpose, Matrix.mul_assoc, ← Matrix.mul_assoc (Matrix.diagonal d),
      Matrix.diagonal_mul_diagonal]
    have : (fun i => d i * d i) = LDL.diagEntries h := by
      funext i
      simp only [d]
      rw [show Real.sqrt (LDL.diagEntries h i) * s i * (Real.sqrt (LDL.diagEntries h i) * s i) =
        Real.sqrt (LDL.diagEntries h i) * Real.sqrt (LDL.diagEntries h i) * (s i * s i) by ring, hs, mul_one,
        Real.mul_self_sqrt (hdpos i).le]
    rw [this, ← Matrix.mul_assoc]
    exact hLDL

theorem exists_chol_iff {M : Mat n} : (∃ L, IsChol L M) ↔ M.PosDef :=
  ⟨fun ⟨_, h⟩ => h.posDef, exists_chol⟩

theorem symLower_of_symm {M : Mat n} (h : Mᵀ = M) : symLower M = M := by
  ext i j
  simp only [symLower, Matrix.of_apply]
  split
  · rfl
  · conv_rhs => rw [← h]
    rfl

theorem chol?_ok_iff {M L : Mat n} : chol? M = .ok L ↔ IsChol L (symLower M) := by
  unfold chol?
  split
  · next h =>
    constructor
    · intro e
      cases e
      exact h.choose_spec
    · intro hL
      rw [h.choose_spec.unique hL]
  · next h =>
    constructor
    · intro e; cases e
    · intro hL; exact absurd ⟨L, hL⟩ h

theorem chol?_error_iff {M : Mat n} : chol? M = .error .linAlgError ↔ ¬ (symLower M).PosDef := by
  rw [← exists_chol_iff]
  unfold chol?
  split
  · next h => simp [h]
  · next h => simp [h]

theorem chol?_cases (M : Mat n) : chol? M = .error .linAlgError ∨ ∃ L, chol? M = .ok L := by
  unfold chol?
  split
  · right; exact ⟨_, rfl⟩
  · left; rfl

theorem inv?_of_ne {M : Mat n} (h : M.det ≠ 0) : inv? M = .ok M⁻¹ := by
  unfold inv?; rw [if_neg h]

theorem inv?_of_eq {M : Mat n} (h : M.det = 0) : inv? M = .error .linAlgError := by
  unfold inv?; rw [if_pos h]

end CovPred
