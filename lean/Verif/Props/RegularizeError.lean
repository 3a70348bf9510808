import Verif.Props.RegularizeMore
import Mathlib.LinearAlgebra.Matrix.Rank

/-
Property C200: how far `regularize_covariance` moves the covariances (regularization.py:16-76).
-/
set_option linter.unusedSectionVars false
namespace CovPred
open Matrix

variable {τ : Type} [LinearOrder τ] {n r : ℕ}

/-- Up to `c`, the matrix `M` is not larger than some matrix of rank at most `r`: `wᵀ (M - B) w ≤ c |w|²` for all `w`. (For symmetric `M` and `r < n` this
means that the `(r+1)`-th largest eigenvalue of `M` is at most `c`.) -/
def NearRank (M : Mat n) (r : ℕ) (c : ℝ) : Prop := ∃ B : Mat n, B.rank ≤ r ∧ ∀ w : Vec n, w ⬝ᵥ ((M - B) *ᵥ w) ≤ c * (w ⬝ᵥ w)

/-- `C` differs from the covariance `S` by at most `c` in terms of correlations, and for every portfolio `w` the variance differs by at most `c` times the
variance it would have if the assets were uncorrelated. -/
def CovError (S C : Mat n) (c : ℝ) : Prop :=
  (∀ i j, |C i j - S i j| ≤ c * (Real.sqrt (S i i) * Real.sqrt (S j j))) ∧ ∀ w : Vec n, |w ⬝ᵥ (C *ᵥ w) - w ⬝ᵥ (S *ᵥ w)| ≤ c * ∑ i, S i i * w i ^ 2

private theorem orth_norm {U : Mat n} (h : Uᵀ * U = 1) (x : Vec n) : (Uᵀ *ᵥ x) ⬝ᵥ (Uᵀ *ᵥ x) = x ⬝ᵥ x := by
  rw [Matrix.dotProduct_mulVec, Matrix.vecMul_transpose, Matrix.mulVec_mulVec, mul_orth h, Matrix.one_mulVec]

private theorem quad_conj (U : Mat n) (mu : Vec n) (x : Vec n) : x ⬝ᵥ ((U * diagonal mu * Uᵀ) *ᵥ x) = ∑ l, mu l * (Uᵀ *ᵥ x) l ^ 2 := by
  rw [← Matrix.mulVec_mulVec, ← Matrix.mulVec_mulVec, Matrix.dotProduct_mulVec, ← Matrix.mulVec_transpose]
  unfold dotProduct
  refine Finset.sum_congr rfl fun l _ => ?_
  rw [Matrix.mulVec_diagonal]
  ring

/-- the largest dropped eigenvalue is at most `c` if the matrix is near one of rank `r` -/
private theorem dropped_le {M U : Mat n} {mu : Vec n} (h1 : Uᵀ * U = 1) (h2 : M = U * diagonal mu * Uᵀ) (h3 : Monotone mu) {c : ℝ}
    (hc : NearRank M r c) (l : Fin n) (hl : (l : ℕ) < n - r) : mu l ≤ c := by
  obtain ⟨B, hB, hle⟩ := hc
  -- a vector in the span of the last `r + 1` eigenvectors that `B` maps to zero
  set V : Matrix (Fin n) (Fin (r + 1)) ℝ := Matrix.of fun i j => U i ⟨n - (r + 1) + j, by omega⟩ with hV
  have hrank : (B * V).rank ≤ r := (Matrix.rank_mul_le_left B V).trans hB
  have hker : ∃ a : Vec (r + 1), a ≠ 0 ∧ (B * V) *ᵥ a = 0 := by
    by_contra hno
    push Not at hno
    have hinj : Function.Injective (B * V).mulVec := by
      intro a b hab
      by_contra hne
      exact hno (a - b) (sub_ne_zero.2 hne) (by rw [Matrix.mulVec_sub, hab, sub_self])
    have := (Matrix.mulVec_injective_iff.1 hinj).rank_matrix
    rw [Matrix.rank_transpose, Fintype.card_fin] at this
    omega
  obtain ⟨a, ha, haz⟩ := hker
  set v := V *ᵥ a with hv
  have hBv : B *ᵥ v = 0 := by rw [hv, Matrix.mulVec_mulVec]; exact haz
  -- its coordinates in the eigenbasis
  have hUV : ∀ (k : Fin n) (j : Fin (r + 1)), (Uᵀ * V) k j = if k = ⟨n - (r + 1) + j, by omega⟩ then 1 else 0 := by
    intro k j
    have := congrFun (congrFun h1 k) ⟨n - (r + 1) + j, by omega⟩
    rw [Matrix.mul_apply, Matrix.one_apply] at this
    rw [Matrix.mul_apply, ← this]
    rfl
  have hcoord : ∀ k : Fin n, (k : ℕ) < n - (r + 1) → (Uᵀ *ᵥ v) k = 0 := by
    intro k hk
    rw [hv, Matrix.mulVec_mulVec]
    unfold Matrix.mulVec dotProduct
    refine Finset.sum_eq_zero fun j _ => ?_
    dsimp only
    rw [hUV, if_neg (by rintro rfl; simp at hk), zero_mul]
  have hvne : v ⬝ᵥ v ≠ 0 := by
    have hVV : Vᵀ * V = 1 := by
      ext i j
      have := hUV ⟨n - (r + 1) + i, by omega⟩ j
      rw [Matrix.one_apply]
      have e : (Vᵀ * V) i j = (Uᵀ * V) ⟨n - (r + 1) + i, by omega⟩ j := rfl
      rw [e, this]
      congr 1
      simp [Fin.ext_iff]
    have : v ⬝ᵥ v = a ⬝ᵥ a := by
      rw [hv, Matrix.dotProduct_mulVec, ← Matrix.mulVec_transpose, Matrix.mulVec_mulVec, hVV, Matrix.one_mulVec]
    rw [this]
    intro h0
    exact ha (dotProduct_self_eq_zero.1 h0)
  have hvpos : 0 < v ⬝ᵥ v := lt_of_le_of_ne (Finset.sum_nonneg fun i _ => mul_self_nonneg _) hvne.symm
  have hlow : mu l * (v ⬝ᵥ v) ≤ v ⬝ᵥ (M *ᵥ v) := by
    rw [h2, quad_conj, ← orth_norm h1 v]
    unfold dotProduct
    rw [Finset.mul_sum]
    refine Finset.sum_le_sum fun k _ => ?_
    by_cases hk : (k : ℕ) < n - (r + 1)
    · have := hcoord k hk
      change mu l * ((Uᵀ *ᵥ v) k * (Uᵀ *ᵥ v) k) ≤ mu k * (Uᵀ *ᵥ v) k ^ 2
      rw [this]
      simp
    · have hkl : mu l ≤ mu k := h3 (by rw [Fin.le_def]; omega)
      have := mul_le_mul_of_nonneg_right hkl (sq_nonneg ((Uᵀ *ᵥ v) k))
      change mu l * ((Uᵀ *ᵥ v) k * (Uᵀ *ᵥ v) k) ≤ mu k * (Uᵀ *ᵥ v) k ^ 2
      linarith
  have hup := hle v
  rw [Matrix.sub_mulVec, hBv, sub_zero] at hup
  exact le_of_mul_le_mul_right (hlow.trans hup) hvpos

/-- what is dropped lies between 0 and `c` -/
private theorem resid_le {M : Mat n} (hM : M.PosSemidef) {lam : Vec r} {Q : Matrix (Fin n) (Fin r) ℝ} (h : TopEigen M lam Q) {c : ℝ} (hc0 : 0 ≤ c)
    (hc : ∀ (U : Mat n) (mu : Vec n), Uᵀ * U = 1 → M = U * diagonal mu * Uᵀ → Monotone mu → ∀ l : Fin n, (l : ℕ) < n - r → mu l ≤ c) (x : Vec n) :
    0 ≤ x ⬝ᵥ ((M - Q * diagonal lam * Qᵀ) *ᵥ x) ∧ x ⬝ᵥ ((M - Q * diagonal lam * Qᵀ) *ᵥ x) ≤ c * (x ⬝ᵥ x) := by
  refine ⟨by simpa using (h.resid_posSemidef hM).dotProduct_mulVec_nonneg x, ?_⟩
  obtain ⟨U, mu, h1, h2, h3, h4, _⟩ := h.resid
  rw [h4, quad_conj, ← orth_norm h1 x]
  unfold dotProduct
  rw [Finset.mul_sum]
  refine Finset.sum_le_sum fun l _ => ?_
  have : (if (l : ℕ) < n - r then mu l else 0) ≤ c := by
    split
    · next hl => exact hc U mu h1 h2 h3 l hl
    · exact hc0
  have := mul_le_mul_of_nonneg_right this (sq_nonneg ((Uᵀ *ᵥ x) l))
  change _ ≤ c * ((Uᵀ *ᵥ x) l * (Uᵀ *ᵥ x) l)
  linarith

/-- the error of the approximation of a correlation matrix -/
private theorem approx_error {M : Mat n} (hM : M.PosSemidef) {lam : Vec r} {Q : Matrix (Fin n) (Fin r) ℝ} {c : ℝ}
    (hE : ∀ x : Vec n, 0 ≤ x ⬝ᵥ ((M - Q * diagonal lam * Qᵀ) *ᵥ x) ∧ x ⬝ᵥ ((M - Q * diagonal lam * Qᵀ) *ᵥ x) ≤ c * (x ⬝ᵥ x)) :
    (∀ i j, |approx M lam Q i j - M i j| ≤ c) ∧ ∀ x : Vec n, |x ⬝ᵥ (approx M lam Q *ᵥ x) - x ⬝ᵥ (M *ᵥ x)| ≤ c * (x ⬝ᵥ x) := by
  set E := M - Q * diagonal lam * Qᵀ with hEd
  have hMs : Mᵀ = M := by have := hM.isHermitian; rwa [Matrix.IsHermitian, Matrix.conjTranspose_eq_transpose_of_trivial] at this
  have hEs : Eᵀ = E := by rw [hEd, Matrix.transpose_sub, hMs, diag_conj_symm]
  have hap : approx M lam Q = M + (diagonal (fun i => E i i) - E) := by
    unfold approx
    rw [hEd]
    abel
  have hdiag : ∀ i, 0 ≤ E i i ∧ E i i ≤ c := by
    intro i
    have := hE (Pi.single i 1)
    simpa using this
  refine ⟨fun i j => ?_, fun x => ?_⟩
  · rw [hap, Matrix.add_apply, Matrix.sub_apply]
    by_cases hij : i = j
    · subst hij
      rw [Matrix.diagonal_apply_eq]
      simp only [sub_self, add_zero, abs_zero]
      exact (hdiag i).1.trans (hdiag i).2
    · rw [Matrix.diagonal_apply_ne _ hij, zero_sub, add_sub_cancel_left, abs_neg]
      have hji : E j i = E i j := congrFun (congrFun hEs i) j
      have hp := (hE (Pi.single i 1 + Pi.single j 1)).1
      have hm := (hE (Pi.single i 1 - Pi.single j 1)).1
      rw [Matrix.mulVec_add, dotProduct_add, add_dotProduct, add_dotProduct] at hp
      rw [Matrix.mulVec_sub, dotProduct_sub, sub_dotProduct, sub_dotProduct] at hm
      simp only [Matrix.mulVec_single_one, single_one_dotProduct, Matrix.col_apply] at hp hm
      rw [abs_le]
      constructor <;> linarith [(hdiag i).2, (hdiag j).2]
  · have e : x ⬝ᵥ (approx M lam Q *ᵥ x) - x ⬝ᵥ (M *ᵥ x) = ∑ i, E i i * x i ^ 2 - x ⬝ᵥ (E *ᵥ x) := by
      rw [hap, Matrix.add_mulVec, dotProduct_add, Matrix.sub_mulVec, dotProduct_sub]
      have : x ⬝ᵥ (diagonal (fun i => E i i) *ᵥ x) = ∑ i, E i i * x i ^ 2 := by
        unfold dotProduct
        refine Finset.sum_congr rfl fun i _ => ?_
        rw [Matrix.mulVec_diagonal]; ring
      rw [this]; ring
    have hd1 : 0 ≤ ∑ i, E i i * x i ^ 2 := Finset.sum_nonneg fun i _ => mul_nonneg (hdiag i).1 (sq_nonneg _)
    have hd2 : ∑ i, E i i * x i ^ 2 ≤ c * (x ⬝ᵥ x) := by
      unfold dotProduct
      rw [Finset.mul_sum]
      refine Finset.sum_le_sum fun i _ => ?_
      have := mul_le_mul_of_nonneg_right (hdiag i).2 (sq_nonneg (x i))
      change _ ≤ c * (x i * x i)
      linarith
    rw [e, abs_le]
    constructor <;> linarith [(hE x).1, (hE x).2]

private theorem cov_error {S : Mat n} (hpsd : S.PosSemidef) (hd : ∀ i, 0 < S i i) {lam : Vec r} {Q : Matrix (Fin n) (Fin r) ℝ} {c : ℝ}
    (hE : ∀ x : Vec n, 0 ≤ x ⬝ᵥ ((corrOf S - Q * diagonal lam * Qᵀ) *ᵥ x) ∧
      x ⬝ᵥ ((corrOf S - Q * diagonal lam * Qᵀ) *ᵥ x) ≤ c * (x ⬝ᵥ x)) :
    CovError S (Matrix.of fun i j => Real.sqrt (S i i) * approx (corrOf S) lam Q i j * Real.sqrt (S j j)) c := by
  obtain ⟨h1, h2⟩ := approx_error (corrOf_posSemidef hpsd) hE
  refine ⟨fun i j => ?_, fun w => ?_⟩
  · rw [Matrix.of_apply, ← corrOf_scale hd i j]
    have e : Real.sqrt (S i i) * approx (corrOf S) lam Q i j * Real.sqrt (S j j) - Real.sqrt (S i i) * corrOf S i j * Real.sqrt (S j j)
        = (Real.sqrt (S i i) * Real.sqrt (S j j)) * (approx (corrOf S) lam Q i j - corrOf S i j) := by ring
    rw [e, abs_mul, abs_of_nonneg (by positivity), mul_comm]
    exact mul_le_mul_of_nonneg_right (h1 i j) (by positivity)
  · set x : Vec n := fun i => Real.sqrt (S i i) * w i with hx
    have hq : ∀ (A : Mat n), w ⬝ᵥ ((Matrix.of fun i j => Real.sqrt (S i i) * A i j * Real.sqrt (S j j) : Mat n) *ᵥ w) = x ⬝ᵥ (A *ᵥ x) := by
      intro A
      unfold dotProduct Matrix.mulVec dotProduct
      refine Finset.sum_congr rfl fun i _ => ?_
      rw [Finset.mul_sum, Finset.mul_sum]
      refine Finset.sum_congr rfl fun j _ => ?_
      dsimp only
      rw [Matrix.of_apply, hx]
      ring
    have hS : S = Matrix.of fun i j => Real.sqrt (S i i) * corrOf S i j * Real.sqrt (S j j) := by
      ext i j
      rw [Matrix.of_apply, corrOf_scale hd]
    have hxx : x ⬝ᵥ x = ∑ i, S i i * w i ^ 2 := by
      unfold dotProduct
      refine Finset.sum_congr rfl fun i _ => ?_
      have := Real.mul_self_sqrt (hd i).le
      calc x i * x i = (Real.sqrt (S i i) * Real.sqrt (S i i)) * w i ^ 2 := by rw [hx]; ring
        _ = _ := by rw [this]
    have e1 : w ⬝ᵥ (S *ᵥ w) = x ⬝ᵥ (corrOf S *ᵥ x) := by
      rw [← hq (corrOf S), ← hS]
    rw [hq, e1, ← hxx]
    exact h2 x

/-- **C200.** If the correlations are within `c` of a matrix of rank at most `r`, so are the results of `regularize_covariance(sigmas, r)`: no correlation
changes by more than `c`, and no portfolio's variance by more than `c` times the variance it would have without correlations. Together the squares of
the changes of the correlations are at most the squared Frobenius distance of the correlation matrix to any matrix of rank at most `r`. -/
theorem C200_error {eigh : Eigh} (he : eigh.Correct) {sigmas : Dict τ (Mat n)} (hs : ∀ p ∈ sigmas, p.2.PosSemidef ∧ ∀ i, 0 < p.2 i i) (h1 : 1 ≤ r)
    (hr : r ≤ n) :
    ∃ items, regularizeCovariance eigh sigmas r = (items, none) ∧
      List.Forall₂ (fun p q => q.1 = p.1 ∧ ∃ C : Mat n, q.2 = RegOut.dense C ∧
        (∀ c, 0 ≤ c → NearRank (corrOf p.2) r c → CovError p.2 C c) ∧
        ∀ B : Mat n, B.rank ≤ r → frob (corrOf C - corrOf p.2) ≤ frob (corrOf p.2 - B)) sigmas items := by
  apply regularize_lift (P := fun S y => ∃ C : Mat n, y = RegOut.dense C ∧ (∀ c, 0 ≤ c → NearRank (corrOf S) r c → CovError S C c) ∧
    ∀ B : Mat n, B.rank ≤ r → frob (corrOf C - corrOf S) ≤ frob (corrOf S - B))
  intro p hp
  obtain ⟨hpsd, hd⟩ := hs p hp
  have hS : p.2ᵀ = p.2 := by
    rw [← Matrix.conjTranspose_eq_transpose_of_trivial]; exact hpsd.isHermitian
  obtain ⟨lam, Q, ht, hy⟩ := regularizeOne_dense he hS hd h1 hr
  refine ⟨_, hy, _, rfl, fun c hc0 hc => ?_, fun B hB => ?_⟩
  · exact cov_error hpsd hd (resid_le (corrOf_posSemidef hpsd) ht hc0 fun U mu g1 g2 g3 l hl => dropped_le g1 g2 g3 hc l hl)
  · refine le_trans ?_ (ht.best (corrOf_posSemidef hpsd) hB)
    have hcorr : corrOf (Matrix.of fun i j => Real.sqrt (p.2 i i) * approx (corrOf p.2) lam Q i j * Real.sqrt (p.2 j j)) = approx (corrOf p.2) lam Q := by
      have hdg : ∀ i, (Matrix.of fun i j => Real.sqrt (p.2 i i) * approx (corrOf p.2) lam Q i j * Real.sqrt (p.2 j j) : Mat n) i i = p.2 i i := by
        intro i
        rw [Matrix.of_apply, approx_diag, corrOf_scale hd]
      ext i j
      rw [corrOf, Matrix.of_apply, hdg, hdg, Matrix.of_apply]
      have hi := (Real.sqrt_pos.mpr (hd i)).ne'
      have hj := (Real.sqrt_pos.mpr (hd j)).ne'
      field_simp
    rw [hcorr]
    unfold frob
    refine Finset.sum_le_sum fun i _ => Finset.sum_le_sum fun j _ => ?_
    by_cases hij : i = j
    · subst hij
      rw [Matrix.sub_apply, approx_diag, sub_self]
      simpa using sq_nonneg _
    · rw [Matrix.sub_apply, Matrix.sub_apply, approx_off _ _ _ hij]
      exact le_of_eq (by ring)

/-- **C200.** In any case `c = n / (r + 1)` will do: with `r` factors for `n` assets no correlation changes by more than `n / (r + 1)`, and no portfolio's
variance by more than this fraction of the variance it would have without correlations. -/
theorem C200_worst_case {eigh : Eigh} (he : eigh.Correct) {sigmas : Dict τ (Mat n)} (hs : ∀ p ∈ sigmas, p.2.PosSemidef ∧ ∀ i, 0 < p.2 i i) (h1 : 1 ≤ r)
    (hr : r ≤ n) :
    ∃ items, regularizeCovariance eigh sigmas r = (items, none) ∧
      List.Forall₂ (fun p q => q.1 = p.1 ∧ ∃ C : Mat n, q.2 = RegOut.dense C ∧ CovError p.2 C (n / (r + 1))) sigmas items := by
  apply regularize_lift (P := fun S y => ∃ C : Mat n, y = RegOut.dense C ∧ CovError S C (n / (r + 1)))
  intro p hp
  obtain ⟨hpsd, hd⟩ := hs p hp
  have hS : p.2ᵀ = p.2 := by
    rw [← Matrix.conjTranspose_eq_transpose_of_trivial]; exact hpsd.isHermitian
  obtain ⟨lam, Q, ht, hy⟩ := regularizeOne_dense he hS hd h1 hr
  refine ⟨_, hy, _, rfl, cov_error hpsd hd (resid_le (corrOf_posSemidef hpsd) ht (by positivity) fun U mu g1 g2 g3 l hl => ?_)⟩
  rw [le_div_iff₀ (by positivity)]
  have hnn := eigen_nonneg g1 g2 (corrOf_posSemidef hpsd)
  have htr : ∑ k, mu k = n := by
    have e1 : (corrOf p.2).trace = n := by
      unfold Matrix.trace
      simp only [Matrix.diag_apply, corrOf_diag (hd _)]
      simp
    rw [← e1, g2, Matrix.trace_mul_comm, ← Matrix.mul_assoc, g1, Matrix.one_mul, Matrix.trace_diagonal]
  rw [← htr]
  have hcard : ((Finset.univ.filter fun k : Fin n => n - (r + 1) ≤ (k : ℕ)).card : ℝ) = r + 1 := by
    have : (Finset.univ.filter fun k : Fin n => n - (r + 1) ≤ (k : ℕ)) = Finset.Ici (⟨n - (r + 1), by omega⟩ : Fin n) := by
      ext k
      simp [Fin.le_def]
    rw [this, Fin.card_Ici]
    have : n - (n - (r + 1)) = r + 1 := by omega
    simp only [this]
    push_cast
    ring
  calc mu l * (r + 1) = ∑ k ∈ Finset.univ.filter fun k : Fin n => n - (r + 1) ≤ (k : ℕ), mu l := by
        rw [Finset.sum_const, nsmul_eq_mul, hcard]; ring
    _ ≤ ∑ k ∈ Finset.univ.filter fun k : Fin n => n - (r + 1) ≤ (k : ℕ), mu k := by
        refine Finset.sum_le_sum fun k hk => g3 ?_
        rw [Finset.mem_filter] at hk
        rw [Fin.le_def]
        have := hk.2
        omega
    _ ≤ ∑ k, mu k := Finset.sum_le_sum_of_subset_of_nonneg (Finset.filter_subset _ _) fun k _ _ => hnn k

/-! ### The hypotheses can be met -/

namespace Demo

/-- the correlation matrix of `[[4, 2], [2, 4]]` is within one half of a matrix of rank one -/
theorem nearRank_422 : NearRank (corrOf (!![4, 2; 2, 4] : Mat 2)) 1 (1 / 2) := by
  refine ⟨(1 / 2 : ℝ) • !![1, 1; 1, 1], ?_, fun w => ?_⟩
  · refine le_trans ?_ rank_ones
    have : ((1 / 2 : ℝ) • !![1, 1; 1, 1] : Mat 2) = diagonal (fun _ => 1 / 2) * !![1, 1; 1, 1] := by
      ext i j
      rw [Matrix.diagonal_mul, Matrix.smul_apply, smul_eq_mul]
    rw [this]
    exact Matrix.rank_mul_le_right _ _
  · rw [corr_422]
    simp [Matrix.mulVec, dotProduct, Fin.sum_univ_two]
    nlinarith

/-- One factor for `[[4, 2], [2, 4]]`: the correlation changes by at most one half (it becomes 3/4). -/
example : ∃ C : Mat 2, regularizeCovariance someEigh [((0 : ℕ), (!![4, 2; 2, 4] : Mat 2))] 1 = ([(0, RegOut.dense C)], none) ∧
    CovError !![4, 2; 2, 4] C (1 / 2) := by
  obtain ⟨items, h, hf⟩ := C200_error someEigh_correct (sigmas := [((0 : ℕ), (!![4, 2; 2, 4] : Mat 2))]) (r := 1)
    (fun p hp => by rw [List.mem_singleton] at hp; subst hp; exact regSigmas_ok _ List.mem_cons_self) le_rfl (by norm_num)
  cases hf with
  | cons h1 h2 =>
    cases h2
    obtain ⟨k, C, hC, hE, -⟩ := h1
    refine ⟨C, ?_, hE _ (by norm_num) nearRank_422⟩
    rw [h]
    congr 2
    exact Prod.ext k hC

example : ∃ items, regularizeCovariance someEigh regSigmas 1 = (items, none) ∧ items.length = 2 := by
  obtain ⟨items, h, hf⟩ := C200_worst_case someEigh_correct regSigmas_ok (r := 1) le_rfl (by norm_num)
  exact ⟨items, h, hf.length_eq.symm⟩

end Demo

end CovPred
