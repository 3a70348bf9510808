import Verif.Lemmas.RegularizeMore
import Mathlib.LinearAlgebra.Matrix.Charpoly.Basic

/-
Uniqueness of eigenvalues and of the leading part of a symmetric matrix; the best approximation of rank `r`.
-/
namespace CovPred
open Matrix

variable {n r : ℕ}

/-- sorted eigenvalues are unique -/
theorem eigen_unique {U V : Mat n} {mu nu : Vec n} (hU : Uᵀ * U = 1) (hV : Vᵀ * V = 1)
    (h : U * diagonal mu * Uᵀ = V * diagonal nu * Vᵀ) (hmu : Monotone mu) (hnu : Monotone nu) : mu = nu := by
  have hchar : ∀ {W : Mat n} {x : Vec n}, Wᵀ * W = 1 → (W * diagonal x * Wᵀ).charpoly = ∏ i, (Polynomial.X - Polynomial.C (x i)) := by
    intro W x hW
    have hW' := mul_orth hW
    have := Matrix.charpoly_units_conj (⟨W, Wᵀ, hW', hW⟩ : (Mat n)ˣ) (diagonal x)
    have e : ((⟨W, Wᵀ, hW', hW⟩ : (Mat n)ˣ) : Mat n) = W := rfl
    rw [e, Matrix.inv_eq_left_inv hW] at this
    rw [this, Matrix.charpoly_diagonal]
  have h1 := hchar hU (x := mu)
  have h2 := hchar hV (x := nu)
  rw [h, h2] at h1
  have hroots : ∀ x : Vec n, (∏ i, (Polynomial.X - Polynomial.C (x i))).roots = Finset.univ.val.map x := by
    intro x
    have : (∏ i, (Polynomial.X - Polynomial.C (x i))) = ((Finset.univ.val.map x).map fun a => Polynomial.X - Polynomial.C a).prod := by
      rw [Multiset.map_map]; rfl
    rw [this, Polynomial.roots_multiset_prod_X_sub_C]
  have h3 := congrArg Polynomial.roots h1
  rw [hroots, hroots] at h3
  have hperm : (List.ofFn nu).Perm (List.ofFn mu) := by
    rw [← Multiset.coe_eq_coe]
    have e : ∀ x : Vec n, ((List.ofFn x : List ℝ) : Multiset ℝ) = Finset.univ.val.map x := by
      intro x
      rw [Fin.univ_val_map]
    rw [e, e, h3]
  have := List.Perm.eq_of_pairwise (le := fun a b : ℝ => a ≤ b) (fun a b _ _ h1 h2 => le_antisymm h1 h2)
    (List.pairwise_ofFn.mpr fun i j hij => hnu hij.le) (List.pairwise_ofFn.mpr fun i j hij => hmu hij.le) hperm
  exact (List.ofFn_injective this).symm

/-- functions of a symmetric matrix do not depend on the eigenbasis -/
theorem spectral_fun {U V : Mat n} {mu : Vec n} (hU : Uᵀ * U = 1) (hV : Vᵀ * V = 1)
    (h : U * diagonal mu * Uᵀ = V * diagonal mu * Vᵀ) (f : Vec n) (hf : ∀ i j, mu i = mu j → f i = f j) :
    U * diagonal f * Uᵀ = V * diagonal f * Vᵀ := by
  have hU' := mul_orth hU
  have hV' := mul_orth hV
  set W := Vᵀ * U with hW
  have h1 : W * diagonal mu = diagonal mu * W := by
    have : Vᵀ * (U * diagonal mu * Uᵀ) * U = Vᵀ * (V * diagonal mu * Vᵀ) * U := by rw [h]
    rw [hW]
    calc Vᵀ * U * diagonal mu = Vᵀ * (U * diagonal mu * Uᵀ) * U := by
          simp only [Matrix.mul_assoc]; rw [hU, Matrix.mul_one]
      _ = Vᵀ * (V * diagonal mu * Vᵀ) * U := this
      _ = diagonal mu * (Vᵀ * U) := by
          simp only [← Matrix.mul_assoc]; rw [hV, Matrix.one_mul]
  have h2 : W * diagonal f = diagonal f * W := by
    ext i j
    have := congrFun (congrFun h1 i) j
    rw [Matrix.mul_diagonal, Matrix.diagonal_mul] at this ⊢
    by_cases hw : W i j = 0
    · rw [hw]; ring
    · have : mu i = mu j := by
        have h3 : W i j * (mu j - mu i) = 0 := by linarith
        rcases mul_eq_zero.mp h3 with h4 | h4
        · exact absurd h4 hw
        · linarith
      rw [hf i j this]; ring
  have hVW : V * W = U := by rw [hW, ← Matrix.mul_assoc, hV', Matrix.one_mul]
  have hWU : W * Uᵀ = Vᵀ := by rw [hW, Matrix.mul_assoc, hU', Matrix.mul_one]
  calc U * diagonal f * Uᵀ = V * (W * diagonal f) * Uᵀ := by rw [← Matrix.mul_assoc, hVW]
    _ = V * (diagonal f * W) * Uᵀ := by rw [h2]
    _ = V * diagonal f * Vᵀ := by rw [← Matrix.mul_assoc, Matrix.mul_assoc _ W, hWU]

/-- the `r` largest eigenvalues are unique -/
theorem TopEigen.lam_unique {M : Mat n} {lam lam' : Vec r} {Q Q' : Matrix (Fin n) (Fin r) ℝ} (h : TopEigen M lam Q)
    (h' : TopEigen M lam' Q') : lam = lam' := by
  obtain ⟨hr, U, mu, h1, h2, h3, h4, _⟩ := h
  obtain ⟨_, V, nu, g1, g2, g3, g4, _⟩ := h'
  have := eigen_unique h1 g1 (h2.symm.trans g2) h3 g3
  funext j
  rw [h4, g4, this]

/-- If the `r`-th and the next eigenvalue differ, the leading part is unique. -/
theorem TopEigen.part_unique {M : Mat n} {lam lam' : Vec r} {Q Q' : Matrix (Fin n) (Fin r) ℝ} (h : TopEigen M lam Q)
    (h' : TopEigen M lam' Q')
    (hgap : 0 < r → EigenGap M r) :
    Q * diagonal lam * Qᵀ = Q' * diagonal lam' * Q'ᵀ := by
  have hr : r ≤ n := h.1
  rcases Nat.eq_zero_or_pos r with h0 | h0
  · subst h0
    ext i j
    rw [diag_conj_apply, diag_conj_apply, Finset.univ_eq_empty, Finset.sum_empty, Finset.sum_empty]
  obtain ⟨U, mu, h1, h2, h3, _, h5⟩ := h.resid
  obtain ⟨V, nu, g1, g2, g3, _, g5⟩ := h'.resid
  have hmn : mu = nu := eigen_unique h1 g1 (h2.symm.trans g2) h3 g3
  subst hmn
  rw [h5, g5]
  apply spectral_fun h1 g1 (h2.symm.trans g2)
  intro i j hij
  rcases Nat.lt_or_ge r n with hlt | hge
  · have hgap' : mu ⟨n - r - 1, by omega⟩ < mu ⟨n - r, by omega⟩ := by
      have := hgap h0 (fun j => mu ⟨n - (r + 1) + j, by omega⟩) (Matrix.of fun i j => U i ⟨n - (r + 1) + j, by omega⟩)
        ⟨hlt, U, mu, h1, h2, h3, fun _ => rfl, fun _ _ => rfl⟩
      have e0 : (⟨n - (r + 1) + ((0 : Fin (r + 1)) : ℕ), by omega⟩ : Fin n) = ⟨n - r - 1, by omega⟩ := by
        apply Fin.ext; simp; omega
      have e1 : (⟨n - (r + 1) + ((1 : Fin (r + 1)) : ℕ), by omega⟩ : Fin n) = ⟨n - r, by omega⟩ := by
        apply Fin.ext
        have : ((1 : Fin (r + 1)) : ℕ) = 1 := by
          rw [Fin.val_one']; exact Nat.mod_eq_of_lt (by omega)
        simp only [this]; omega
      rw [e0, e1] at this
      exact this
    by_cases hi : (i : ℕ) < n - r
    · by_cases hj : (j : ℕ) < n - r
      · rw [if_pos hi, if_pos hj]
      · exfalso
        have a1 : mu i ≤ mu ⟨n - r - 1, by omega⟩ := h3 (by rw [Fin.le_def]; simp only; omega)
        have a2 : mu ⟨n - r, by omega⟩ ≤ mu j := h3 (by rw [Fin.le_def]; simp only; omega)
        linarith
    · by_cases hj : (j : ℕ) < n - r
      · exfalso
        have a1 : mu j ≤ mu ⟨n - r - 1, by omega⟩ := h3 (by rw [Fin.le_def]; simp only; omega)
        have a2 : mu ⟨n - r, by omega⟩ ≤ mu i := h3 (by rw [Fin.le_def]; simp only; omega)
        linarith
      · rw [if_neg hi, if_neg hj, hij]
  · rw [if_neg (by omega), if_neg (by omega), hij]

/-- change of orthonormal basis -/
theorem TopEigen.conj {M : Mat n} {lam : Vec r} {Q : Matrix (Fin n) (Fin r) ℝ} (h : TopEigen M lam Q) {O : Mat n}
    (hO : Oᵀ * O = 1) : TopEigen (O * M * Oᵀ) lam (O * Q) := by
  obtain ⟨hr, U, mu, h1, h2, h3, h4, h5⟩ := h
  refine ⟨hr, O * U, mu, ?_, ?_, h3, h4, ?_⟩
  · rw [Matrix.transpose_mul, Matrix.mul_assoc, ← Matrix.mul_assoc Oᵀ, hO, Matrix.one_mul, h1]
  · rw [h2, Matrix.transpose_mul]; simp only [Matrix.mul_assoc]
  · intro i j
    rw [Matrix.mul_apply, Matrix.mul_apply]
    exact Finset.sum_congr rfl fun l _ => by rw [h5]

theorem EigenGap.conj {M : Mat n} (h : EigenGap M r) {O : Mat n} (hO : Oᵀ * O = 1) : EigenGap (O * M * Oᵀ) r := by
  intro e E hE
  have hO' : Oᵀᵀ * Oᵀ = 1 := by rw [Matrix.transpose_transpose]; exact mul_orth hO
  have := hE.conj hO'
  have e1 : Oᵀ * (O * M * Oᵀ) * Oᵀᵀ = M := by
    rw [Matrix.transpose_transpose]
    have : Oᵀ * (O * M * Oᵀ) * O = (Oᵀ * O) * M * (Oᵀ * O) := by simp only [Matrix.mul_assoc]
    rw [this, hO, Matrix.one_mul, Matrix.mul_one]
  rw [e1] at this
  exact h e _ this

/-! ### Best approximation -/

theorem frob_eq_trace (X : Mat n) : frob X = (X * Xᵀ).trace := by
  simp only [frob, Matrix.trace, Matrix.diag_apply, Matrix.mul_apply, Matrix.transpose_apply, sq]

/-- an orthogonal projection does not increase the norm -/
theorem frob_mul_proj (X P : Mat n) (hs : Pᵀ = P) (hp : P * P = P) : frob (X * P) ≤ frob X := by
  have h1 : frob X - frob (X * P) = frob (X * (1 - P)) := by
    rw [frob_eq_trace, frob_eq_trace, frob_eq_trace, Matrix.transpose_mul, Matrix.transpose_mul, hs, Matrix.transpose_sub,
      Matrix.transpose_one, hs, ← Matrix.trace_sub]
    congr 1
    have e1 : X * P * (P * Xᵀ) = X * P * Xᵀ := by
      rw [Matrix.mul_assoc, ← Matrix.mul_assoc P P, hp, Matrix.mul_assoc]
    have e2 : (1 - P) * (1 - P) = 1 - P := by
      rw [Matrix.sub_mul, Matrix.one_mul, Matrix.mul_sub, Matrix.mul_one, hp]; abel
    rw [e1, Matrix.mul_assoc X (1 - P), ← Matrix.mul_assoc (1 - P), e2, Matrix.sub_mul, Matrix.one_mul, Matrix.mul_sub,
      Matrix.mul_assoc]
  have h2 : 0 ≤ frob (X * (1 - P)) := Finset.sum_nonneg fun i _ => Finset.sum_nonneg fun j _ => sq_nonneg _
  linarith

/-- a matrix of rank at most `r` vanishes on a projection of trace `n - r` -/
theorem exists_kernel_proj {B : Mat n} (hr : r ≤ n) (hB : B.rank ≤ r) :
    ∃ P : Mat n, Pᵀ = P ∧ P * P = P ∧ B * P = 0 ∧ P.trace = (n - r : ℕ) := by
  have hpsd : (Bᵀ * B).PosSemidef := by
    have := Matrix.posSemidef_conjTranspose_mul_self B
    rwa [Matrix.conjTranspose_eq_transpose_of_trivial] at this
  have hsym : (Bᵀ * B)ᵀ = Bᵀ * B := by rw [Matrix.transpose_mul, Matrix.transpose_transpose]
  obtain ⟨lam, Q, hT⟩ := exists_topEigen (r := r) hsym hr
  have hrk : (Bᵀ * B).rank ≤ r := by rw [Matrix.rank_transpose_mul_self]; exact hB
  have h0 := hT.resid_rank hpsd hrk
  obtain ⟨Z, s, h1, h2, h3, h4, _⟩ := hT.resid
  have h1' := mul_orth h1
  set a : Vec n := fun l => if (l : ℕ) < n - r then 1 else 0 with ha
  refine ⟨Z * diagonal a * Zᵀ, diag_conj_symm Z a, ?_, ?_, ?_⟩
  · have : Z * diagonal a * Zᵀ * (Z * diagonal a * Zᵀ) = Z * (diagonal a * (Zᵀ * Z) * diagonal a) * Zᵀ := by
      simp only [Matrix.mul_assoc]
    rw [this, h1, Matrix.mul_one, Matrix.diagonal_mul_diagonal]
    congr 3; funext l; simp only [ha]; split <;> simp
  · set P := Z * diagonal a * Zᵀ with hP
    have hz : Bᵀ * B * P = 0 := by
      have e1 : Bᵀ * B * P = Z * (diagonal s * (Zᵀ * Z) * diagonal a) * Zᵀ := by
        rw [hP]; conv_lhs => rw [h2]
        simp only [Matrix.mul_assoc]
      have e2 : diagonal s * diagonal a = diagonal fun l : Fin n => if (l : ℕ) < n - r then s l else 0 := by
        rw [Matrix.diagonal_mul_diagonal]; congr 1; funext l; simp only [ha]; split <;> simp
      rw [e1, h1, Matrix.mul_one, e2, ← h4, h0]
    have hz2 : (B * P)ᵀ * (B * P) = 0 := by
      rw [Matrix.transpose_mul, Matrix.mul_assoc, ← Matrix.mul_assoc Bᵀ, hz, Matrix.mul_zero]
    have := Matrix.conjTranspose_mul_self_eq_zero (A := B * P)
    rw [Matrix.conjTranspose_eq_transpose_of_trivial] at this
    exact this.mp hz2
  · rw [Matrix.trace_mul_comm, ← Matrix.mul_assoc, h1, Matrix.one_mul, Matrix.trace_diagonal, ha]
    rw [Finset.sum_ite, Finset.sum_const_zero, add_zero, Finset.sum_const, nsmul_eq_mul, mul_one]
    congr 1
    rw [Fin.card_filter_val_lt]
    omega

/-- the weighted sum of squares of sorted non-negative numbers is at least the sum of the smallest ones -/
theorem sum_smallest {mu b : Vec n} (hmono : Monotone mu) (hnn : ∀ l, 0 ≤ mu l) (hb0 : ∀ l, 0 ≤ b l) (hb1 : ∀ l, b l ≤ 1)
    (hsum : ∑ l, b l = (n - r : ℕ)) :
    ∑ l : Fin n, (if (l : ℕ) < n - r then mu l ^ 2 else 0) ≤ ∑ l, mu l ^ 2 * b l := by
  rcases Nat.eq_zero_or_pos (n - r) with h0 | hpos
  · rw [h0]
    have : ∑ l : Fin n, (if (l : ℕ) < 0 then mu l ^ 2 else 0) = 0 := Finset.sum_eq_zero fun l _ => by simp
    rw [this]
    exact Finset.sum_nonneg fun l _ => mul_nonneg (sq_nonneg _) (hb0 l)
  · set c := mu ⟨n - r - 1, by omega⟩ ^ 2 with hc
    have hcard : ∑ l : Fin n, (if (l : ℕ) < n - r then (1 : ℝ) else 0) = (n - r : ℕ) := by
      rw [Finset.sum_ite, Finset.sum_const_zero, add_zero, Finset.sum_const, nsmul_eq_mul, mul_one]
      congr 1
      rw [Fin.card_filter_val_lt]
      omega
    have key : 0 ≤ ∑ l : Fin n, (mu l ^ 2 - c) * (b l - if (l : ℕ) < n - r then 1 else 0) := by
      apply Finset.sum_nonneg
      intro l _
      by_cases hl : (l : ℕ) < n - r
      · rw [if_pos hl]
        have : mu l ≤ mu ⟨n - r - 1, by omega⟩ := hmono (by rw [Fin.le_def]; simp only; omega)
        have h2 : mu l ^ 2 ≤ c := by rw [hc]; exact pow_le_pow_left₀ (hnn l) this 2
        exact mul_nonneg_of_nonpos_of_nonpos (by linarith) (by linarith [hb1 l])
      · rw [if_neg hl, sub_zero]
        have : mu ⟨n - r - 1, by omega⟩ ≤ mu l := hmono (by rw [Fin.le_def]; simp only; omega)
        have h2 : c ≤ mu l ^ 2 := by rw [hc]; exact pow_le_pow_left₀ (hnn _) this 2
        exact mul_nonneg (by linarith) (hb0 l)
    have expand : ∑ l : Fin n, (mu l ^ 2 - c) * (b l - if (l : ℕ) < n - r then 1 else 0) =
        ∑ l, mu l ^ 2 * b l - ∑ l : Fin n, (if (l : ℕ) < n - r then mu l ^ 2 else 0) -
          (c * ∑ l, b l - c * ∑ l : Fin n, (if (l : ℕ) < n - r then (1 : ℝ) else 0)) := by
      rw [Finset.mul_sum, Finset.mul_sum, ← Finset.sum_sub_distrib, ← Finset.sum_sub_distrib, ← Finset.sum_sub_distrib]
      refine Finset.sum_congr rfl fun l _ => ?_
      split <;> ring
    rw [expand, hsum, hcard] at key
    linarith

/-- **Eckart-Young**: no matrix of rank at most `r` is closer to a positive semidefinite matrix than its leading part. -/
theorem TopEigen.best {M : Mat n} {lam : Vec r} {Q : Matrix (Fin n) (Fin r) ℝ} (h : TopEigen M lam Q) (hM : M.PosSemidef)
    {B : Mat n} (hB : B.rank ≤ r) : frob (M - Q * diagonal lam * Qᵀ) ≤ frob (M - B) := by
  obtain ⟨P, p1, p2, p3, p4⟩ := exists_kernel_proj h.1 hB
  obtain ⟨U, mu, h1, h2, h3, h4, _⟩ := h.resid
  have h1' := mul_orth h1
  have hnn := eigen_nonneg h1 h2 hM
  have hlow : frob (M - Q * diagonal lam * Qᵀ) = ∑ l : Fin n, (if (l : ℕ) < n - r then mu l ^ 2 else 0) := by
    rw [h4, frob_eq_trace, diag_conj_symm]
    have : ∀ x : Vec n, U * diagonal x * Uᵀ * (U * diagonal x * Uᵀ) = U * (diagonal x * (Uᵀ * U) * diagonal x) * Uᵀ := by
      intro x; simp only [Matrix.mul_assoc]
    rw [this, h1, Matrix.mul_one, Matrix.diagonal_mul_diagonal, Matrix.trace_mul_comm, ← Matrix.mul_assoc, h1, Matrix.one_mul,
      Matrix.trace_diagonal]
    refine Finset.sum_congr rfl fun l _ => ?_
    split <;> ring
  have hMP : frob (M * P) = ∑ l, mu l ^ 2 * (Uᵀ * P * U) l l := by
    have hs : Mᵀ = M := by rw [← Matrix.conjTranspose_eq_transpose_of_trivial]; exact hM.isHermitian
    rw [frob_eq_trace, Matrix.transpose_mul, p1, hs, Matrix.mul_assoc, ← Matrix.mul_assoc P, p2]
    have e1 : (M * (P * M)).trace = (diagonal mu * diagonal mu * (Uᵀ * P * U)).trace := by
      conv_lhs => rw [h2]
      rw [show U * diagonal mu * Uᵀ * (P * (U * diagonal mu * Uᵀ)) = (U * diagonal mu * Uᵀ * P * U) * (diagonal mu * Uᵀ) by
        simp only [Matrix.mul_assoc], Matrix.trace_mul_comm]
      rw [show diagonal mu * Uᵀ * (U * diagonal mu * Uᵀ * P * U) = diagonal mu * (Uᵀ * U) * diagonal mu * (Uᵀ * P * U) by
        simp only [Matrix.mul_assoc], h1, Matrix.mul_one]
    rw [e1, Matrix.diagonal_mul_diagonal]
    simp only [Matrix.trace, Matrix.diag_apply, Matrix.diagonal_mul]
    exact Finset.sum_congr rfl fun l _ => by ring
  have hPpsd : P.PosSemidef := by
    have := Matrix.posSemidef_conjTranspose_mul_self P
    rwa [Matrix.conjTranspose_eq_transpose_of_trivial, p1, p2] at this
  have hPpsd' : (1 - P).PosSemidef := by
    have := Matrix.posSemidef_conjTranspose_mul_self (1 - P)
    rw [Matrix.conjTranspose_eq_transpose_of_trivial, Matrix.transpose_sub, Matrix.transpose_one, p1] at this
    have e2 : (1 - P) * (1 - P) = 1 - P := by
      rw [Matrix.sub_mul, Matrix.one_mul, Matrix.mul_sub, Matrix.mul_one, p2]; abel
    rwa [e2] at this
  have hconj : ∀ X : Mat n, X.PosSemidef → (Uᵀ * X * U).PosSemidef := by
    intro X hX
    have := hX.conjTranspose_mul_mul_same U
    rwa [Matrix.conjTranspose_eq_transpose_of_trivial] at this
  have hb0 : ∀ l, 0 ≤ (Uᵀ * P * U) l l := fun l => (hconj P hPpsd).diag_nonneg
  have hb1 : ∀ l, (Uᵀ * P * U) l l ≤ 1 := by
    intro l
    have := (hconj _ hPpsd').diag_nonneg (i := l)
    rw [Matrix.mul_sub, Matrix.mul_one, Matrix.sub_mul, h1, Matrix.sub_apply, Matrix.one_apply_eq] at this
    linarith
  have hsum : ∑ l, (Uᵀ * P * U) l l = (n - r : ℕ) := by
    have : (Uᵀ * P * U).trace = P.trace := by
      rw [Matrix.trace_mul_comm, ← Matrix.mul_assoc, h1', Matrix.one_mul]
    rw [← p4, ← this]; rfl
  calc frob (M - Q * diagonal lam * Qᵀ) = _ := hlow
    _ ≤ _ := sum_smallest h3 hnn hb0 hb1 hsum
    _ = frob (M * P) := hMP.symm
    _ = frob ((M - B) * P) := by rw [Matrix.sub_mul, p3, sub_zero]
    _ ≤ frob (M - B) := frob_mul_proj _ _ p1 p2

end CovPred
