import Verif.Model.Regularization
import Verif.Lemmas.LinAlg
import Mathlib.Analysis.Matrix.Spectrum
import Mathlib.Analysis.Matrix.PosDef

/-
Facts about the model of `regularization.py`: eigenvalue part.
-/
namespace CovPred
open Matrix

variable {n r : ℕ}

/-- The eigenvectors as a sum of rank-one terms. -/
theorem diag_conj_apply {m : ℕ} (Q : Matrix (Fin n) (Fin m) ℝ) (lam : Vec m) (i j : Fin n) :
    (Q * diagonal lam * Qᵀ) i j = ∑ l, Q i l * lam l * Q j l := by
  rw [Matrix.mul_apply]
  exact Finset.sum_congr rfl fun l _ => by rw [Matrix.mul_diagonal, Matrix.transpose_apply]

theorem diag_conj_symm {m : ℕ} (Q : Matrix (Fin n) (Fin m) ℝ) (lam : Vec m) :
    (Q * diagonal lam * Qᵀ)ᵀ = Q * diagonal lam * Qᵀ := by
  rw [Matrix.transpose_mul, Matrix.transpose_mul, Matrix.transpose_transpose, Matrix.diagonal_transpose, Matrix.mul_assoc]

/-- reversing the order of the eigenpairs changes nothing -/
theorem diag_conj_rev {m : ℕ} (Q : Matrix (Fin n) (Fin m) ℝ) (lam : Vec m) :
    (Matrix.of fun i j => Q i (Fin.rev j) : Matrix (Fin n) (Fin m) ℝ) * diagonal (fun j => lam j.rev) *
      (Matrix.of fun i j => Q i (Fin.rev j) : Matrix (Fin n) (Fin m) ℝ)ᵀ = Q * diagonal lam * Qᵀ := by
  ext i j
  rw [diag_conj_apply, diag_conj_apply]
  exact Equiv.sum_comp Fin.revPerm fun l => Q i l * lam l * Q j l

/-- quadratic form of `Q diag(lam) Qᵀ` -/
theorem diag_conj_quad {m : ℕ} (Q : Matrix (Fin n) (Fin m) ℝ) (lam : Vec m) (x : Vec n) :
    x ⬝ᵥ ((Q * diagonal lam * Qᵀ) *ᵥ x) = ∑ l, lam l * (Qᵀ *ᵥ x) l ^ 2 := by
  rw [← Matrix.mulVec_mulVec, ← Matrix.mulVec_mulVec, Matrix.dotProduct_mulVec, ← Matrix.mulVec_transpose]
  simp only [dotProduct, Matrix.mulVec_diagonal]
  exact Finset.sum_congr rfl fun l _ => by ring

/-- The spectral theorem, ascending. -/
theorem exists_eigen {M : Mat n} (h : Mᵀ = M) :
    ∃ (U : Mat n) (mu : Vec n), Uᵀ * U = 1 ∧ M = U * diagonal mu * Uᵀ ∧ Monotone mu := by
  have hM : M.IsHermitian := by rw [Matrix.IsHermitian, Matrix.conjTranspose_eq_transpose_of_trivial, h]
  obtain ⟨e, he⟩ : ∃ e : Fin n ≃ Fin n, Monotone (hM.eigenvalues ∘ e) := ⟨Tuple.sort hM.eigenvalues, Tuple.monotone_sort _⟩
  let V : Mat n := (hM.eigenvectorUnitary : Mat n)
  have hV1 : Vᵀ * V = 1 := by
    have := Unitary.coe_star_mul_self hM.eigenvectorUnitary
    rwa [Matrix.star_eq_conjTranspose, Matrix.conjTranspose_eq_transpose_of_trivial] at this
  have hV2 : M = V * diagonal hM.eigenvalues * Vᵀ := by
    have := hM.spectral_theorem
    rw [Unitary.conjStarAlgAut_apply] at this
    rw [Matrix.star_eq_conjTranspose, Matrix.conjTranspose_eq_transpose_of_trivial] at this
    exact this
  refine ⟨V.submatrix id e, hM.eigenvalues ∘ e, ?_, ?_, he⟩
  · have : (V.submatrix id e)ᵀ * V.submatrix id e = (Vᵀ * V).submatrix e e := by
      rw [Matrix.transpose_submatrix, Matrix.submatrix_mul Vᵀ V e id e Function.bijective_id]
    rw [this, hV1]
    exact Matrix.submatrix_one_equiv e
  · ext i j
    conv_lhs => rw [hV2]
    rw [diag_conj_apply, diag_conj_apply]
    exact (Equiv.sum_comp e fun l => V i l * hM.eigenvalues l * V j l).symm

theorem symLower_symm (M : Mat n) : (symLower M)ᵀ = symLower M := by
  ext i j
  simp only [symLower, Matrix.transpose_apply, Matrix.of_apply]
  rcases lt_trichotomy i j with h | h | h
  · rw [if_pos h.le, if_neg (not_le.mpr h)]
  · subst h; rfl
  · rw [if_neg (not_le.mpr h), if_pos h.le]

/-- every symmetric matrix has top eigenpairs -/
theorem exists_topEigen {M : Mat n} (h : Mᵀ = M) (hr : r ≤ n) :
    ∃ (lam : Vec r) (Q : Matrix (Fin n) (Fin r) ℝ), TopEigen M lam Q := by
  obtain ⟨U, mu, h1, h2, h3⟩ := exists_eigen h
  exact ⟨fun j => mu ⟨n - r + j, by omega⟩, Matrix.of fun i j => U i ⟨n - r + j, by omega⟩, hr, U, mu, h1, h2, h3,
    fun _ => rfl, fun _ _ => rfl⟩

open Classical in
/-- some eigenvalue routine that meets the contract -/
noncomputable def someEigh : Eigh := fun n M r =>
  if h : ∃ x : Vec r × Matrix (Fin n) (Fin r) ℝ, TopEigen (symLower M) x.1 x.2 then h.choose else (0, 0)

/-- the contract of `eigh` can be met -/
theorem someEigh_correct : Eigh.Correct someEigh := by
  intro n M r _ hr
  obtain ⟨lam, Q, h⟩ := exists_topEigen (symLower_symm M) hr
  have hex : ∃ x : Vec r × Matrix (Fin n) (Fin r) ℝ, TopEigen (symLower M) x.1 x.2 := ⟨(lam, Q), h⟩
  unfold someEigh
  rw [dif_pos hex]
  exact hex.choose_spec

/-- splitting the sum over all eigenpairs into the dropped and the kept ones -/
theorem sum_split (hr : r ≤ n) (f : Fin n → ℝ) :
    ∑ l, f l = ∑ l : Fin (n - r), f ⟨l, by omega⟩ + ∑ l : Fin r, f ⟨n - r + l, by omega⟩ := by
  have : ∀ m (hm : m = n - r + r) (g : Fin m → ℝ),
      ∑ l, g l = ∑ l : Fin (n - r), g ⟨l, by omega⟩ + ∑ l : Fin r, g ⟨n - r + l, by omega⟩ := by
    rintro m rfl g
    rw [Fin.sum_univ_add]
    rfl
  exact this n (by omega) f

/-- entry of a matrix in terms of its dropped and kept eigenpairs -/
theorem TopEigen.resid {M : Mat n} {lam : Vec r} {Q : Matrix (Fin n) (Fin r) ℝ} (h : TopEigen M lam Q) :
    ∃ (U : Mat n) (mu : Vec n), Uᵀ * U = 1 ∧ M = U * diagonal mu * Uᵀ ∧ Monotone mu ∧
      (M - Q * diagonal lam * Qᵀ =
        U * diagonal (fun l : Fin n => if (l : ℕ) < n - r then mu l else 0) * Uᵀ) ∧
      (Q * diagonal lam * Qᵀ =
        U * diagonal (fun l : Fin n => if (l : ℕ) < n - r then 0 else mu l) * Uᵀ) := by
  obtain ⟨hr, U, mu, h1, h2, h3, h4, h5⟩ := h
  have key : Q * diagonal lam * Qᵀ =
        U * diagonal (fun l : Fin n => if (l : ℕ) < n - r then 0 else mu l) * Uᵀ := by
    ext i j
    rw [diag_conj_apply, diag_conj_apply, sum_split hr]
    have e1 : ∑ l : Fin (n - r), U i ⟨l, by omega⟩ *
        (if ((⟨l, by omega⟩ : Fin n) : ℕ) < n - r then 0 else mu ⟨l, by omega⟩) * U j ⟨l, by omega⟩ = 0 := by
      apply Finset.sum_eq_zero
      intro l _
      rw [if_pos l.2]; ring
    rw [e1, zero_add]
    refine Finset.sum_congr rfl fun l _ => ?_
    rw [if_neg (by simp), h4, h5, h5]
  refine ⟨U, mu, h1, h2, h3, ?_, key⟩
  rw [key]
  conv_lhs => rw [h2]
  rw [← Matrix.sub_mul, ← Matrix.mul_sub, Matrix.diagonal_sub]
  congr 3
  funext l
  split <;> ring

theorem genMap_cons_ok {A B : Type} (f : A → Except Err B) {a : A} {b : B} (h : f a = .ok b) (l : List A) :
    genMap f (a :: l) = (b :: (genMap f l).1, (genMap f l).2) := by
  simp only [genMap, h]

/-- a generator that never fails -/
theorem genMap_ok {A B : Type} (f : A → Except Err B) (P : A → B → Prop) (l : List A)
    (h : ∀ a ∈ l, ∃ b, f a = .ok b ∧ P a b) : ∃ bs, genMap f l = (bs, none) ∧ List.Forall₂ P l bs := by
  induction l with
  | nil => exact ⟨[], rfl, List.Forall₂.nil⟩
  | cons a l ih =>
    obtain ⟨b, hb, hp⟩ := h a List.mem_cons_self
    obtain ⟨bs, hbs, hps⟩ := ih fun x hx => h x (List.mem_cons_of_mem _ hx)
    refine ⟨b :: bs, ?_, List.Forall₂.cons hp hps⟩
    simp only [genMap, hb, hbs]

/-- a generator that fails at an item yields what comes before it -/
theorem genMap_error {A B : Type} (f : A → Except Err B) (P : A → B → Prop) (pre : List A) (a : A) (post : List A) (e : Err)
    (h : ∀ x ∈ pre, ∃ b, f x = .ok b ∧ P x b) (ha : f a = .error e) :
    ∃ bs, genMap f (pre ++ a :: post) = (bs, some e) ∧ List.Forall₂ P pre bs := by
  induction pre with
  | nil => exact ⟨[], by simp [genMap, ha], List.Forall₂.nil⟩
  | cons x l ih =>
    obtain ⟨b, hb, hp⟩ := h x List.mem_cons_self
    obtain ⟨bs, hbs, hps⟩ := ih fun x hx => h x (List.mem_cons_of_mem _ hx)
    refine ⟨b :: bs, ?_, List.Forall₂.cons hp hps⟩
    simp only [List.cons_append, genMap, hb, hbs]

theorem corrOf_symm {S : Mat n} (h : Sᵀ = S) : (corrOf S)ᵀ = corrOf S := by
  ext i j
  have : S j i = S i j := congrFun (congrFun h i) j
  simp only [corrOf, Matrix.transpose_apply, Matrix.of_apply, this]
  ring

theorem corrOf_diag {S : Mat n} {i : Fin n} (h : 0 < S i i) : corrOf S i i = 1 := by
  simp only [corrOf, Matrix.of_apply]
  rw [Real.mul_self_sqrt h.le, div_self h.ne']

/-- Scaling rows and columns by the volatilities turns the correlation matrix back into the covariance matrix. -/
theorem corrOf_scale {S : Mat n} (h : ∀ i, 0 < S i i) (i j : Fin n) :
    Real.sqrt (S i i) * corrOf S i j * Real.sqrt (S j j) = S i j := by
  have hi := Real.sqrt_pos.mpr (h i)
  have hj := Real.sqrt_pos.mpr (h j)
  simp only [corrOf, Matrix.of_apply]
  field_simp

/-- the correlation matrix of a positive semidefinite matrix is positive semidefinite -/
theorem corrOf_eq_conj (S : Mat n) :
    corrOf S = diagonal (fun i => (Real.sqrt (S i i))⁻¹) * S * (diagonal fun i => (Real.sqrt (S i i))⁻¹)ᴴ := by
  rw [Matrix.conjTranspose_eq_transpose_of_trivial, Matrix.diagonal_transpose]
  ext i j
  rw [Matrix.mul_diagonal, Matrix.diagonal_mul]
  simp only [corrOf, Matrix.of_apply]
  rw [div_eq_mul_inv, mul_inv]; ring

theorem corrOf_posSemidef {S : Mat n} (h : S.PosSemidef) : (corrOf S).PosSemidef := by
  rw [corrOf_eq_conj]
  exact h.mul_mul_conjTranspose_same _

/-- The two outputs of one round, in terms of the eigenpairs of the correlation matrix. -/
theorem regularizeOne_eq {eigh : Eigh} (he : eigh.Correct) {S : Mat n} (hS : Sᵀ = S) (hd : ∀ i, 0 < S i i)
    (h1 : 1 ≤ r) (hr : r ≤ n) :
    ∃ (lam : Vec r) (Q : Matrix (Fin n) (Fin r) ℝ), TopEigen (corrOf S) lam Q ∧
      regularizeOne eigh S r false = .ok (.dense (Matrix.of fun i j =>
        Real.sqrt (S i i) * (Q * diagonal lam * Qᵀ + diagonal fun i => (corrOf S - Q * diagonal lam * Qᵀ) i i) i j *
          Real.sqrt (S j j))) ∧
      regularizeOne eigh S r true = .ok (.lowRank
        { F := Matrix.of fun i j => Real.sqrt (S i i) * Q i j.rev * Real.sqrt (lam j.rev)
          d := fun i => Real.sqrt (S i i) * (corrOf S - Q * diagonal lam * Qᵀ) i i * Real.sqrt (S i i) }) := by
  have hR : (Matrix.of fun i j => 1 / Real.sqrt (S i i) * S i j * (1 / Real.sqrt (S j j)) : Mat n) = corrOf S := by
    ext i j
    simp only [corrOf, Matrix.of_apply]
    rw [div_eq_mul_inv (S i j), mul_inv]; ring
  have hno : ¬ ∃ i, S i i ≤ 0 := by
    rintro ⟨i, hi⟩
    exact absurd (hd i) (not_lt.mpr hi)
  have hrr : ¬ (r < 1 ∨ n < r) := by omega
  have ht := he n (corrOf S) r h1 hr
  rw [symLower_of_symm (corrOf_symm hS)] at ht
  refine ⟨_, _, ht, ?_, ?_⟩
  · unfold regularizeOne
    rw [if_neg hno]
    simp only [hR]
    unfold regularizeCorrelation
    rw [if_neg hrr]
    simp only [diag_conj_rev]
    rfl
  · unfold regularizeOne
    rw [if_neg hno]
    simp only [hR]
    unfold regularizeCorrelation
    rw [if_neg hrr]
    simp only [diag_conj_rev, bind, Except.bind, pure, Except.pure, if_true, Matrix.diagonal_apply_eq, Matrix.of_apply]

end CovPred
