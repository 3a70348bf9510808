import Verif.Props.RegularizeError
import Verif.Lemmas.Continuity

/-
Property C201: how the results of `regularize_covariance` depend on the covariances it gets (regularization.py:16-76).
-/
set_option linter.unusedSectionVars false
namespace CovPred
open Matrix Filter

variable {τ : Type} [LinearOrder τ] {n r : ℕ}

/-- The `r`-th largest eigenvalue of the symmetric matrix `M` exceeds the next one by at least `g` (for `r >= 1`; no condition for `r = n`). -/
def EigenGapBy (M : Mat n) (r : ℕ) (g : ℝ) : Prop :=
  ∀ (lam : Vec (r + 1)) (Q : Matrix (Fin n) (Fin (r + 1)) ℝ), TopEigen M lam Q → lam 0 + g ≤ lam 1

/-- The Frobenius distance of two matrices. -/
noncomputable def frobDist (A B : Mat n) : ℝ := Real.sqrt (frob (A - B))

private theorem frob_nonneg (X : Mat n) : 0 ≤ frob X := Finset.sum_nonneg fun _ _ => Finset.sum_nonneg fun _ _ => sq_nonneg _

private theorem inner_le (X Y : Mat n) : ∑ i, ∑ j, X i j * Y i j ≤ Real.sqrt (frob X) * Real.sqrt (frob Y) := by
  unfold frob
  rw [← Finset.sum_product', ← Finset.sum_product', ← Finset.sum_product']
  exact Real.sum_mul_le_sqrt_mul_sqrt _ _ _

private theorem frob_add_le (X Y : Mat n) : Real.sqrt (frob (X + Y)) ≤ Real.sqrt (frob X) + Real.sqrt (frob Y) := by
  have e : frob (X + Y) = frob X + frob Y + 2 * ∑ i, ∑ j, X i j * Y i j := by
    unfold frob
    rw [Finset.mul_sum, ← Finset.sum_add_distrib, ← Finset.sum_add_distrib]
    refine Finset.sum_congr rfl fun i _ => ?_
    rw [Finset.mul_sum, ← Finset.sum_add_distrib, ← Finset.sum_add_distrib]
    refine Finset.sum_congr rfl fun j _ => ?_
    rw [Matrix.add_apply]; ring
  apply Real.sqrt_le_iff.2 ⟨by positivity, ?_⟩
  have := inner_le X Y
  have hx := Real.sq_sqrt (frob_nonneg X)
  have hy := Real.sq_sqrt (frob_nonneg Y)
  rw [e]
  nlinarith

private theorem frob_mul_le (X Y : Mat n) : frob (X * Y) ≤ frob X * frob Y := by
  unfold frob
  have : ∑ i, ∑ j, Y i j ^ 2 = ∑ j, ∑ i, Y i j ^ 2 := Finset.sum_comm
  rw [this, Finset.sum_mul_sum]
  refine Finset.sum_le_sum fun i _ => Finset.sum_le_sum fun j _ => ?_
  rw [Matrix.mul_apply]
  exact Finset.sum_mul_sq_le_sq_mul_sq _ _ _

/-- the indicator of the leading eigenvalues -/
private def lead (n r : ℕ) : Vec n := fun l => if (l : ℕ) < n - r then 0 else 1

private theorem lead_sum (hr : r ≤ n) : ∑ l, lead n r l = r := by
  unfold lead
  have : (Finset.univ.filter fun l : Fin n => ¬ (l : ℕ) < n - r).card = r := by
    by_cases h0 : r = 0
    · subst h0
      rw [Finset.card_eq_zero, Finset.filter_eq_empty_iff]
      intro l _
      have := l.2
      simp
    · have hs : (Finset.univ.filter fun l : Fin n => ¬ (l : ℕ) < n - r) = Finset.Ici (⟨n - r, by omega⟩ : Fin n) := by
        ext k
        simp [Fin.le_def]
      rw [hs, Fin.card_Ici]
      simp only
      omega
  have e : ∀ l : Fin n, (if (l : ℕ) < n - r then (0 : ℝ) else 1) = if ¬ (l : ℕ) < n - r then 1 else 0 := by
    intro l; split <;> simp_all
  rw [Finset.sum_congr rfl fun l _ => e l, Finset.sum_boole, this]

private theorem lead_sq (l : Fin n) : lead n r l * lead n r l = lead n r l := by
  unfold lead; split <;> ring

/-- the projection to the leading eigenvectors -/
private noncomputable def proj (r : ℕ) (U : Mat n) : Mat n := U * diagonal (lead n r) * Uᵀ

private theorem proj_symm (U : Mat n) : (proj r U)ᵀ = proj r U := diag_conj_symm _ _

private theorem proj_mul {U : Mat n} (h : Uᵀ * U = 1) (mu : Vec n) :
    U * diagonal mu * Uᵀ * proj r U = U * diagonal (fun l => mu l * lead n r l) * Uᵀ := by
  unfold proj
  calc U * diagonal mu * Uᵀ * (U * diagonal (lead n r) * Uᵀ) = U * (diagonal mu * (Uᵀ * U) * diagonal (lead n r)) * Uᵀ := by
        simp only [Matrix.mul_assoc]
    _ = _ := by rw [h, Matrix.mul_one, Matrix.diagonal_mul_diagonal]

private theorem proj_idem {U : Mat n} (h : Uᵀ * U = 1) : proj r U * proj r U = proj r U := by
  have := proj_mul (r := r) h (lead n r)
  rw [show (fun l => lead n r l * lead n r l) = lead n r from funext lead_sq] at this
  exact this

private theorem trace_conj (U : Mat n) (mu : Vec n) (X : Mat n) : (U * diagonal mu * Uᵀ * X).trace = ∑ l, mu l * (Uᵀ * X * U) l l := by
  rw [Matrix.mul_assoc, Matrix.mul_assoc, Matrix.trace_mul_comm, Matrix.mul_assoc]
  unfold Matrix.trace
  refine Finset.sum_congr rfl fun l _ => ?_
  rw [Matrix.diag_apply, Matrix.diagonal_mul]

private theorem proj_trace {U : Mat n} (h : Uᵀ * U = 1) (hr : r ≤ n) : (proj r U).trace = r := by
  unfold proj
  rw [Matrix.trace_mul_comm, ← Matrix.mul_assoc, h, Matrix.one_mul, Matrix.trace_diagonal, lead_sum hr]

/-- The trace of `M P` is largest for the leading projection, and by how much at least. -/
private theorem trace_lead {U V : Mat n} (hU : Uᵀ * U = 1) (hV : Vᵀ * V = 1) (hr : r ≤ n) (mu : Vec n) {a g : ℝ}
    (hlow : ∀ l : Fin n, (l : ℕ) < n - r → mu l ≤ a) (htop : ∀ l : Fin n, ¬ (l : ℕ) < n - r → a + g ≤ mu l) :
    g * (r - (proj r U * proj r V).trace) ≤ (U * diagonal mu * Uᵀ * proj r U).trace - (U * diagonal mu * Uᵀ * proj r V).trace := by
  set p : Vec n := fun l => (Uᵀ * proj r V * U) l l with hp
  have hW : ∀ l, p l = ∑ k, lead n r k * (Uᵀ * V) l k ^ 2 := by
    intro l
    have e : Uᵀ * proj r V * U = (Uᵀ * V) * diagonal (lead n r) * (Uᵀ * V)ᵀ := by
      unfold proj
      rw [Matrix.transpose_mul, Matrix.transpose_transpose]
      simp only [Matrix.mul_assoc]
    rw [hp]
    dsimp only
    rw [e, diag_conj_apply]
    exact Finset.sum_congr rfl fun k _ => by ring
  have hrow : ∀ l, ∑ k, (Uᵀ * V) l k ^ 2 = 1 := by
    intro l
    have e : (Uᵀ * V) * (Uᵀ * V)ᵀ = 1 := by
      rw [Matrix.transpose_mul, Matrix.transpose_transpose, Matrix.mul_assoc, ← Matrix.mul_assoc V, mul_orth hV, Matrix.one_mul, hU]
    have := congrFun (congrFun e l) l
    rw [Matrix.mul_apply, Matrix.one_apply_eq] at this
    rw [← this]
    exact Finset.sum_congr rfl fun k _ => by rw [Matrix.transpose_apply]; ring
  have hlead : ∀ k, 0 ≤ lead n r k ∧ lead n r k ≤ 1 := by
    intro k; unfold lead; split <;> norm_num
  have hp0 : ∀ l, 0 ≤ p l := fun l => by
    rw [hW]; exact Finset.sum_nonneg fun k _ => mul_nonneg (hlead k).1 (sq_nonneg _)
  have hp1 : ∀ l, p l ≤ 1 := fun l => by
    rw [hW, ← hrow l]
    refine Finset.sum_le_sum fun k _ => ?_
    have := mul_le_mul_of_nonneg_right (hlead k).2 (sq_nonneg ((Uᵀ * V) l k))
    linarith
  have hps : ∑ l, p l = r := by
    rw [← proj_trace hV hr]
    have : (Uᵀ * proj r V * U).trace = (proj r V).trace := by
      rw [Matrix.trace_mul_comm, ← Matrix.mul_assoc, mul_orth hU, Matrix.one_mul]
    rw [← this]; rfl
  have e1 : (U * diagonal mu * Uᵀ * proj r V).trace = ∑ l, mu l * p l := trace_conj U mu _
  have e2 : (proj r U * proj r V).trace = ∑ l, lead n r l * p l := trace_conj U _ _
  have e3 : (U * diagonal mu * Uᵀ * proj r U).trace = ∑ l, mu l * lead n r l := by
    rw [proj_mul hU, Matrix.trace_mul_comm, ← Matrix.mul_assoc, hU, Matrix.one_mul, Matrix.trace_diagonal]
  rw [e1, e2, e3, ← Finset.sum_sub_distrib]
  have key : ∀ l, a * (lead n r l - p l) + g * (lead n r l - lead n r l * p l) ≤ mu l * lead n r l - mu l * p l := by
    intro l
    unfold lead
    split
    · next h =>
      have := mul_le_mul_of_nonneg_right (hlow l h) (hp0 l)
      linarith
    · next h =>
      have := mul_le_mul_of_nonneg_right (htop l h) (sub_nonneg.2 (hp1 l))
      linarith
  have := Finset.sum_le_sum fun l (_ : l ∈ Finset.univ) => key l
  rw [Finset.sum_add_distrib, ← Finset.mul_sum, ← Finset.mul_sum, Finset.sum_sub_distrib, Finset.sum_sub_distrib, hps, lead_sum hr] at this
  linarith

private theorem exists_level {mu : Vec n} (hmu : Monotone mu) (hr : r ≤ n) {g : ℝ} (hg : 0 ≤ g)
    (hgap : ∀ (_ : r < n) (_ : 0 < r), mu ⟨n - r - 1, by omega⟩ + g ≤ mu ⟨n - r, by omega⟩) (h1 : 1 ≤ r) :
    ∃ a, (∀ l : Fin n, (l : ℕ) < n - r → mu l ≤ a) ∧ ∀ l : Fin n, ¬ (l : ℕ) < n - r → a + g ≤ mu l := by
  by_cases h : r < n
  · refine ⟨mu ⟨n - r - 1, by omega⟩, fun l hl => hmu (by rw [Fin.le_def]; simp only; omega), fun l hl => ?_⟩
    exact (hgap h h1).trans (hmu (by rw [Fin.le_def]; simp only; omega))
  · have : r = n := by omega
    subst this
    refine ⟨mu ⟨0, by omega⟩ - g, fun l hl => by omega, fun l _ => ?_⟩
    have : mu ⟨0, by omega⟩ ≤ mu l := hmu (by rw [Fin.le_def]; exact Nat.zero_le _)
    linarith

/-- the leading part depends on the matrix in a Lipschitz way -/
private theorem part_dist {M M' : Mat n} {lam lam' : Vec r} {Q Q' : Matrix (Fin n) (Fin r) ℝ} (h : TopEigen M lam Q)
    (h' : TopEigen M' lam' Q') (h1 : 1 ≤ r) {g : ℝ} (hg : 0 < g) (hgap : EigenGapBy M r g) (hb : frob M' ≤ (n : ℝ) ^ 2) :
    frobDist (Q' * diagonal lam' * Q'ᵀ) (Q * diagonal lam * Qᵀ) ≤ (1 + 2 * n / g) * frobDist M' M := by
  have hr := h.1
  obtain ⟨U, mu, u1, u2, u3, -, u5⟩ := h.resid
  obtain ⟨V, nu, v1, v2, v3, -, v5⟩ := h'.resid
  have eU : Q * diagonal lam * Qᵀ = M * proj r U := by
    rw [u5, u2, proj_mul u1]
    congr 3
    funext l
    unfold lead
    split <;> ring
  have eV : Q' * diagonal lam' * Q'ᵀ = M' * proj r V := by
    rw [v5, v2, proj_mul v1]
    congr 3
    funext l
    unfold lead
    split <;> ring
  obtain ⟨a, a1, a2⟩ := exists_level u3 hr hg.le (fun hlt _ => by
    have := hgap (fun j => mu ⟨n - (r + 1) + j, by omega⟩) (Matrix.of fun i j => U i ⟨n - (r + 1) + j, by omega⟩)
      ⟨by omega, U, mu, u1, u2, u3, fun _ => rfl, fun _ _ => rfl⟩
    have i0 : (⟨n - (r + 1) + ((0 : Fin (r + 1)) : ℕ), by simp; omega⟩ : Fin n) = ⟨n - r - 1, by omega⟩ := by
      rw [Fin.ext_iff]; simp only [Fin.val_zero]; omega
    have hv1 : ((1 : Fin (r + 1)) : ℕ) = 1 := by
      obtain ⟨k, rfl⟩ : ∃ k, r = k + 1 := ⟨r - 1, by omega⟩
      rfl
    have i1 : (⟨n - (r + 1) + ((1 : Fin (r + 1)) : ℕ), by omega⟩ : Fin n) = ⟨n - r, by omega⟩ := by
      rw [Fin.ext_iff]; simp only [hv1]; omega
    rw [i0, i1] at this
    exact this) h1
  obtain ⟨b, b1, b2⟩ := exists_level v3 hr le_rfl (fun hlt _ => by
    rw [add_zero]; exact v3 (by rw [Fin.le_def]; simp only; omega)) h1
  have k1 := trace_lead u1 v1 hr mu a1 a2
  have k2 := trace_lead v1 u1 hr nu b1 b2
  rw [← u2] at k1
  rw [← v2, zero_mul] at k2
  set P := proj r U with hP
  set P' := proj r V with hP'
  have hPs : Pᵀ = P := proj_symm U
  have hPs' : P'ᵀ = P' := proj_symm V
  have hs : frob (P - P') = 2 * (r - (P * P').trace) := by
    rw [frob_eq_trace, Matrix.transpose_sub, hPs, hPs', Matrix.sub_mul, Matrix.mul_sub, Matrix.mul_sub, Matrix.trace_sub, Matrix.trace_sub,
      Matrix.trace_sub, proj_idem u1, proj_idem v1, proj_trace u1 hr, proj_trace v1 hr, Matrix.trace_mul_comm P' P]
    ring
  have hin : ((M - M') * (P - P')).trace ≤ Real.sqrt (frob (M - M')) * Real.sqrt (frob (P - P')) := by
    refine le_trans (le_of_eq ?_) (inner_le _ _)
    unfold Matrix.trace
    refine Finset.sum_congr rfl fun i _ => ?_
    rw [Matrix.diag_apply, Matrix.mul_apply]
    refine Finset.sum_congr rfl fun j _ => ?_
    have : (P - P')ᵀ = P - P' := by rw [Matrix.transpose_sub, hPs, hPs']
    rw [show (P - P') j i = (P - P') i j from congrFun (congrFun this i) j]
  rw [Matrix.sub_mul, Matrix.mul_sub, Matrix.mul_sub, Matrix.trace_sub, Matrix.trace_sub, Matrix.trace_sub] at hin
  set s := Real.sqrt (frob (P - P')) with hsd
  set d := Real.sqrt (frob (M - M')) with hdd
  have hs2 : s * s = frob (P - P') := Real.mul_self_sqrt (frob_nonneg _)
  have hsle : s ≤ 2 / g * d := by
    have hquad : g / 2 * (s * s) ≤ d * s := by
      rw [hs2, hs]
      have : g / 2 * (2 * (r - (P * P').trace)) = g * (r - (P * P').trace) := by ring
      rw [this]
      linarith
    rcases eq_or_lt_of_le (Real.sqrt_nonneg (frob (P - P'))) with h0 | h0
    · rw [hsd, ← h0]; positivity
    · have : g / 2 * s ≤ d := le_of_mul_le_mul_right (by linarith) h0
      rw [div_mul_eq_mul_div, le_div_iff₀ hg]
      linarith
  have hsplit : M' * P' - M * P = (M' - M) * P + M' * (P' - P) := by
    rw [Matrix.sub_mul, Matrix.mul_sub]; abel
  have hcomm : ∀ X Y : Mat n, frob (X - Y) = frob (Y - X) := by
    intro X Y
    unfold frob
    exact Finset.sum_congr rfl fun i _ => Finset.sum_congr rfl fun j _ => by rw [Matrix.sub_apply, Matrix.sub_apply]; ring
  have t1 : Real.sqrt (frob ((M' - M) * P)) ≤ d := by
    rw [hdd, hcomm M M']
    exact Real.sqrt_le_sqrt (frob_mul_proj _ _ hPs (proj_idem u1))
  have t2 : Real.sqrt (frob (M' * (P' - P))) ≤ n * s := by
    have : Real.sqrt (frob (M' * (P' - P))) ≤ Real.sqrt ((n : ℝ) ^ 2 * frob (P' - P)) :=
      Real.sqrt_le_sqrt ((frob_mul_le _ _).trans (mul_le_mul_of_nonneg_right hb (frob_nonneg _)))
    rwa [Real.sqrt_mul (by positivity), Real.sqrt_sq (by positivity), hcomm] at this
  unfold frobDist
  rw [eU, eV, hsplit, hcomm M' M]
  have hn : (0 : ℝ) ≤ n := by positivity
  calc _ ≤ d + n * s := (frob_add_le _ _).trans (add_le_add t1 t2)
    _ ≤ d + n * (2 / g * d) := by linarith [mul_le_mul_of_nonneg_left hsle hn]
    _ = _ := by ring

private theorem corr_le_one {S : Mat n} (hpsd : S.PosSemidef) (hd : ∀ i, 0 < S i i) (i j : Fin n) : corrOf S i j ^ 2 ≤ 1 := by
  have hM := corrOf_posSemidef hpsd
  have hs : (corrOf S)ᵀ = corrOf S := by have := hM.isHermitian; rwa [Matrix.IsHermitian, Matrix.conjTranspose_eq_transpose_of_trivial] at this
  by_cases hij : i = j
  · subst hij; rw [corrOf_diag (hd i)]; norm_num
  have hp := hM.dotProduct_mulVec_nonneg (Pi.single i 1 + Pi.single j 1)
  have hm := hM.dotProduct_mulVec_nonneg (Pi.single i 1 - Pi.single j 1)
  rw [star_trivial] at hp hm
  rw [Matrix.mulVec_add, dotProduct_add, add_dotProduct, add_dotProduct] at hp
  rw [Matrix.mulVec_sub, dotProduct_sub, sub_dotProduct, sub_dotProduct] at hm
  simp only [Matrix.mulVec_single_one, single_one_dotProduct, Matrix.col_apply, corrOf_diag (hd _)] at hp hm
  have hji : corrOf S j i = corrOf S i j := congrFun (congrFun hs i) j
  rw [sq_le_one_iff_abs_le_one, abs_le]
  constructor <;> linarith

private theorem dense_corr {S : Mat n} (hd : ∀ i, 0 < S i i) (lam : Vec r) (Q : Matrix (Fin n) (Fin r) ℝ) :
    (∀ i, (Matrix.of fun i j => Real.sqrt (S i i) * approx (corrOf S) lam Q i j * Real.sqrt (S j j) : Mat n) i i = S i i) ∧
    corrOf (Matrix.of fun i j => Real.sqrt (S i i) * approx (corrOf S) lam Q i j * Real.sqrt (S j j)) = approx (corrOf S) lam Q := by
  have hdg : ∀ i, (Matrix.of fun i j => Real.sqrt (S i i) * approx (corrOf S) lam Q i j * Real.sqrt (S j j) : Mat n) i i = S i i := by
    intro i
    rw [Matrix.of_apply, approx_diag, corrOf_scale hd]
  refine ⟨hdg, ?_⟩
  ext i j
  rw [corrOf, Matrix.of_apply, hdg, hdg, Matrix.of_apply]
  have hi := (Real.sqrt_pos.mpr (hd i)).ne'
  have hj := (Real.sqrt_pos.mpr (hd j)).ne'
  field_simp

private theorem stable_aux {eigh eigh' : Eigh} (he : eigh.Correct) (he' : eigh'.Correct) {t t' : τ} {S S' : Mat n} (hS : S.PosSemidef) (hS' : S'.PosSemidef)
    (hd : ∀ i, 0 < S i i) (hd' : ∀ i, 0 < S' i i) (h1 : 1 ≤ r) (hr : r ≤ n) {g : ℝ} (hg : 0 < g) (hgap : EigenGapBy (corrOf S) r g) :
    ∃ C C' : Mat n, regularizeCovariance eigh [(t, S)] r = ([(t, RegOut.dense C)], none) ∧
      regularizeCovariance eigh' [(t', S')] r = ([(t', RegOut.dense C')], none) ∧
      (∀ i, C i i = S i i ∧ C' i i = S' i i) ∧ C.PosSemidef ∧
      frobDist (corrOf C') (corrOf C) ≤ (1 + 2 * n / g) * frobDist (corrOf S') (corrOf S) := by
  have hsym : ∀ {A : Mat n}, A.PosSemidef → Aᵀ = A := fun h => by
    rw [← Matrix.conjTranspose_eq_transpose_of_trivial]; exact h.isHermitian
  obtain ⟨lam, Q, ht, hy⟩ := regularizeOne_dense he (hsym hS) hd h1 hr
  obtain ⟨lam', Q', ht', hy'⟩ := regularizeOne_dense he' (hsym hS') hd' h1 hr
  refine ⟨_, _, ?_, ?_, fun i => ⟨(dense_corr hd lam Q).1 i, (dense_corr hd' lam' Q').1 i⟩,
    scale_posSemidef _ (approx_posSemidef ht (corrOf_posSemidef hS)), ?_⟩
  · unfold regularizeCovariance
    rw [genMap_cons_ok (b := (t, RegOut.dense _)) _ (by dsimp only; rw [hy]; rfl)]
    rfl
  · unfold regularizeCovariance
    rw [genMap_cons_ok (b := (t', RegOut.dense _)) _ (by dsimp only; rw [hy']; rfl)]
    rfl
  · rw [(dense_corr hd lam Q).2, (dense_corr hd' lam' Q').2]
    refine le_trans ?_ (part_dist ht ht' h1 hg hgap ?_)
    · unfold frobDist frob
      refine Real.sqrt_le_sqrt (Finset.sum_le_sum fun i _ => Finset.sum_le_sum fun j _ => ?_)
      rw [Matrix.sub_apply, Matrix.sub_apply]
      by_cases hij : i = j
      · subst hij
        rw [approx_diag, approx_diag, corrOf_diag (hd i), corrOf_diag (hd' i)]
        simpa using sq_nonneg _
      · rw [approx_off _ _ _ hij, approx_off _ _ _ hij]
    · unfold frob
      calc ∑ i, ∑ j, corrOf S' i j ^ 2 ≤ ∑ i : Fin n, ∑ j : Fin n, (1 : ℝ) :=
            Finset.sum_le_sum fun i _ => Finset.sum_le_sum fun j _ => corr_le_one hS' hd' i j
        _ = (n : ℝ) ^ 2 := by simp; ring

/-- **C201.** If for the covariance `S` the `r`-th largest eigenvalue of the correlation matrix exceeds the next one by `g`, and another covariance `S'` is
regularised too (with the same or another eigenvalue routine), then the variances of the results are those of `S` and `S'`, and the correlations of the
results differ by at most `1 + 2 n / g` times what those of `S` and `S'` differ by. -/
theorem C201_stable {eigh eigh' : Eigh} (he : eigh.Correct) (he' : eigh'.Correct) {t t' : τ} {S S' : Mat n} (hS : S.PosSemidef) (hS' : S'.PosSemidef)
    (hd : ∀ i, 0 < S i i) (hd' : ∀ i, 0 < S' i i) (h1 : 1 ≤ r) (hr : r ≤ n) {g : ℝ} (hg : 0 < g) (hgap : EigenGapBy (corrOf S) r g) :
    ∃ C C' : Mat n, regularizeCovariance eigh [(t, S)] r = ([(t, RegOut.dense C)], none) ∧
      regularizeCovariance eigh' [(t', S')] r = ([(t', RegOut.dense C')], none) ∧
      (∀ i, C i i = S i i ∧ C' i i = S' i i) ∧
      frobDist (corrOf C') (corrOf C) ≤ (1 + 2 * n / g) * frobDist (corrOf S') (corrOf S) := by
  obtain ⟨C, C', a1, a2, a3, -, a4⟩ := stable_aux he he' (t := t) (t' := t') hS hS' hd hd' h1 hr hg hgap
  exact ⟨C, C', a1, a2, a3, a4⟩

private theorem exists_gap {M : Mat n} (hM : Mᵀ = M) (h : EigenGap M r) : ∃ g, 0 < g ∧ EigenGapBy M r g := by
  by_cases hr : r + 1 ≤ n
  · obtain ⟨lam, Q, ht⟩ := exists_topEigen hM hr
    refine ⟨lam 1 - lam 0, sub_pos.2 (h lam Q ht), fun lam' Q' ht' => ?_⟩
    rw [ht'.lam_unique ht]
    linarith
  · exact ⟨1, one_pos, fun lam Q ht => absurd ht.1 hr⟩

/-- **C201.** Where the `r`-th and the next largest eigenvalue of the correlation matrix differ, the result depends continuously on the covariance: for every
`e > 0` there is `d > 0` such that any covariance whose entries are within `d` has a result whose entries are within `e`, whichever eigenvalue routines
are used. -/
theorem C201_continuous {S : Mat n} (hS : S.PosSemidef) (hd : ∀ i, 0 < S i i) (h1 : 1 ≤ r) (hr : r ≤ n) (hgap : EigenGap (corrOf S) r) {e : ℝ} (he : 0 < e) :
    ∃ d > 0, ∀ (eigh eigh' : Eigh), eigh.Correct → eigh'.Correct → ∀ (t t' : τ) (S' : Mat n), S'.PosSemidef → (∀ i j, |S' i j - S i j| < d) →
      ∃ C C' : Mat n, regularizeCovariance eigh [(t, S)] r = ([(t, RegOut.dense C)], none) ∧
        regularizeCovariance eigh' [(t', S')] r = ([(t', RegOut.dense C')], none) ∧ ∀ i j, |C' i j - C i j| < e := by
  have hsym : (corrOf S)ᵀ = corrOf S := by
    rw [← Matrix.conjTranspose_eq_transpose_of_trivial]; exact (corrOf_posSemidef hS).isHermitian
  obtain ⟨g, hg, hgb⟩ := exists_gap hsym hgap
  set L := 1 + 2 * n / g with hL
  have hL0 : 0 ≤ L := by positivity
  -- the bound for the change of one entry
  let F : Fin n → Fin n → (Fin n → Fin n → ℝ) → ℝ := fun i j A =>
    Real.sqrt (A i i) * Real.sqrt (A j j) * (L * frobDist (corrOf (A : Mat n)) (corrOf S)) +
      |Real.sqrt (A i i) * Real.sqrt (A j j) - Real.sqrt (S i i) * Real.sqrt (S j j)|
  have hent : ∀ i j, Tendsto (fun A : Fin n → Fin n → ℝ => A i j) (nhds S) (nhds (S i j)) := fun i j =>
    ((continuous_apply j).comp (continuous_apply i)).tendsto (X := Fin n → Fin n → ℝ) S
  have hvol : ∀ i j, Tendsto (fun A : Fin n → Fin n → ℝ => Real.sqrt (A i i) * Real.sqrt (A j j)) (nhds S) (nhds (Real.sqrt (S i i) * Real.sqrt (S j j))) :=
    fun i j => (hent i i).sqrt.mul (hent j j).sqrt
  have hcorr : ∀ i j, Tendsto (fun A : Fin n → Fin n → ℝ => corrOf (A : Mat n) i j) (nhds S) (nhds (corrOf S i j)) := fun i j =>
    (hent i j).div (hvol i j) (mul_pos (Real.sqrt_pos.2 (hd i)) (Real.sqrt_pos.2 (hd j))).ne'
  have hdist : Tendsto (fun A : Fin n → Fin n → ℝ => frobDist (corrOf (A : Mat n)) (corrOf S)) (nhds S) (nhds 0) := by
    have : Tendsto (fun A : Fin n → Fin n → ℝ => ∑ i, ∑ j, (corrOf (A : Mat n) i j - corrOf S i j) ^ 2) (nhds S)
        (nhds (∑ i, ∑ j, (corrOf S i j - corrOf S i j) ^ 2)) :=
      tendsto_finsetSum _ fun i _ => tendsto_finsetSum _ fun j _ => ((hcorr i j).sub tendsto_const_nhds).pow 2
    have h2 := this.sqrt
    simp only [sub_self, ne_eq, OfNat.ofNat_ne_zero, not_false_eq_true, zero_pow, Finset.sum_const_zero, Real.sqrt_zero] at h2
    exact h2
  have hF : ∀ i j, Tendsto (F i j) (nhds S) (nhds 0) := by
    intro i j
    have := ((hvol i j).mul (hdist.const_mul L)).add ((hvol i j).sub_const (Real.sqrt (S i i) * Real.sqrt (S j j))).abs
    simpa using this
  have hev : ∀ᶠ A in nhds (S : Fin n → Fin n → ℝ), (∀ i j, F i j A < e) ∧ ∀ i, 0 < A i i :=
    (eventually_all.2 fun i => eventually_all.2 fun j => (hF i j).eventually (gt_mem_nhds he)).and
      (eventually_all.2 fun i => (hent i i).eventually (lt_mem_nhds (hd i)))
  obtain ⟨d, hd0, hball⟩ := Metric.eventually_nhds_iff.1 hev
  refine ⟨d, hd0, fun eigh eigh' hc hc' t t' S' hS' hclose => ?_⟩
  obtain ⟨hlt, hpos⟩ := @hball (S' : Fin n → Fin n → ℝ) ((dist_pi_lt_iff hd0).2 fun i => (dist_pi_lt_iff hd0).2 fun j => by
    rw [Real.dist_eq]; exact hclose i j)
  obtain ⟨C, C', a1, a2, a3, a4, a5⟩ := stable_aux hc hc' (t := t) (t' := t') hS hS' hd hpos h1 hr hg hgb
  refine ⟨C, C', a1, a2, fun i j => lt_of_le_of_lt ?_ (hlt i j)⟩
  have hdC : ∀ i, 0 < C i i := fun i => by rw [(a3 i).1]; exact hd i
  have hdC' : ∀ i, 0 < C' i i := fun i => by rw [(a3 i).2]; exact hpos i
  rw [← corrOf_scale hdC i j, ← corrOf_scale hdC' i j, (a3 i).1, (a3 j).1, (a3 i).2, (a3 j).2]
  have hc1 : |corrOf C i j| ≤ 1 := (sq_le_one_iff_abs_le_one _).1 (corr_le_one a4 hdC i j)
  have hdiff : |corrOf C' i j - corrOf C i j| ≤ L * frobDist (corrOf S') (corrOf S) := by
    refine le_trans ?_ a5
    unfold frobDist
    refine Real.abs_le_sqrt ?_
    unfold frob
    refine le_trans ?_ (Finset.single_le_sum (fun i _ => Finset.sum_nonneg fun j _ => sq_nonneg _) (Finset.mem_univ i))
    exact Finset.single_le_sum (f := fun j => (corrOf C' - corrOf C) i j ^ 2) (fun j _ => sq_nonneg _) (Finset.mem_univ j)
  set s' := Real.sqrt (S' i i) * Real.sqrt (S' j j) with hs'
  set s := Real.sqrt (S i i) * Real.sqrt (S j j) with hs
  have hs0 : 0 ≤ s' := by positivity
  have e1 : Real.sqrt (S' i i) * corrOf C' i j * Real.sqrt (S' j j) - Real.sqrt (S i i) * corrOf C i j * Real.sqrt (S j j)
      = s' * (corrOf C' i j - corrOf C i j) + (s' - s) * corrOf C i j := by rw [hs, hs']; ring
  rw [e1]
  refine (abs_add_le _ _).trans (add_le_add ?_ ?_)
  · rw [abs_mul, abs_of_nonneg hs0]
    exact mul_le_mul_of_nonneg_left hdiff hs0
  · rw [abs_mul]
    exact (mul_le_mul_of_nonneg_left hc1 (abs_nonneg _)).trans (le_of_eq (mul_one _))

/-! ### Two assets and one factor -/

private noncomputable def U2s (s : ℝ) : Mat 2 := !![Real.sqrt 2 / 2, Real.sqrt 2 / 2; -(s * (Real.sqrt 2 / 2)), s * (Real.sqrt 2 / 2)]

private theorem half2 : Real.sqrt 2 / 2 * (Real.sqrt 2 / 2) = 1 / 2 := by
  have := Real.mul_self_sqrt (show (0 : ℝ) ≤ 2 by norm_num)
  linarith

private theorem two_aux {eigh : Eigh} (he : eigh.Correct) {a b c s : ℝ} (ha : 0 < a) (hc : 0 < c) (hs : s * s = 1) (hb : 0 < s * b) (t : τ) :
    regularizeCovariance eigh [(t, (!![a, b; b, c] : Mat 2))] 1 =
      ([(t, RegOut.dense !![a, (b + s * Real.sqrt (a * c)) / 2; (b + s * Real.sqrt (a * c)) / 2, c])], none) := by
  set S : Mat 2 := !![a, b; b, c] with hSd
  have hS : Sᵀ = S := by
    ext i j; fin_cases i <;> fin_cases j <;> rfl
  have hd : ∀ i, 0 < S i i := fun i => by fin_cases i <;> simp [hSd, ha, hc]
  set q := Real.sqrt a * Real.sqrt c with hq
  have hq0 : 0 < q := mul_pos (Real.sqrt_pos.2 ha) (Real.sqrt_pos.2 hc)
  have hqe : Real.sqrt (a * c) = q := Real.sqrt_mul ha.le c
  set x := b / q with hx
  have hsx : 0 < s * x := by
    rw [hx, ← mul_div_assoc]; exact div_pos hb hq0
  have hcorr : corrOf S = !![1, x; x, 1] := by
    have haa := Real.mul_self_sqrt ha.le
    have hcc := Real.mul_self_sqrt hc.le
    ext i j
    fin_cases i <;> fin_cases j <;> simp [corrOf, hSd, hx, hq, ha.ne', hc.ne', haa, hcc]
    rw [mul_comm]
  have hh := half2
  set w := Real.sqrt 2 / 2 with hw
  have horth : (U2s s)ᵀ * U2s s = 1 := by
    ext i j
    fin_cases i <;> fin_cases j <;> simp [U2s, Matrix.mul_apply, Fin.sum_univ_two, ← hw] <;> nlinarith
  have heig : corrOf S = U2s s * diagonal ![1 - s * x, 1 + s * x] * (U2s s)ᵀ := by
    rw [hcorr]
    ext i j
    rw [diag_conj_apply]
    fin_cases i <;> fin_cases j <;> simp [U2s, Fin.sum_univ_two, ← hw]
    · linear_combination (-2 : ℝ) * hh
    · linear_combination (-2 * x * s * s) * hh + (-x) * hs
    · linear_combination (-2 * x * s * s) * hh + (-x) * hs
    · linear_combination (-2 * s * s) * hh + (-1) * hs
  have hmono : Monotone (![1 - s * x, 1 + s * x] : Vec 2) := by
    intro i j hij
    fin_cases i <;> fin_cases j <;> simp at hij ⊢ <;> linarith
  have htop : TopEigen (corrOf S) (![1 + s * x] : Vec 1) (Matrix.of fun i _ => U2s s i 1) :=
    ⟨by norm_num, U2s s, _, horth, heig, hmono, fun j => by fin_cases j; rfl, fun i j => by fin_cases j; rfl⟩
  have hgap : EigenGap (corrOf S) 1 := by
    intro lam Q h
    have h' : TopEigen (corrOf S) (![1 - s * x, 1 + s * x] : Vec 2) (U2s s) :=
      ⟨le_rfl, U2s s, _, horth, heig, hmono, fun j => by fin_cases j <;> rfl, fun i j => by fin_cases j <;> rfl⟩
    rw [h.lam_unique h']
    simp
    linarith
  obtain ⟨lam, Q, ht, hy⟩ := regularizeOne_denseOf he hS hd (r := 1) le_rfl (by norm_num)
  have hpart := ht.part_unique htop fun _ => hgap
  unfold regularizeCovariance
  rw [genMap_cons_ok (b := (t, (RegOut.dense !![a, (b + s * Real.sqrt (a * c)) / 2; (b + s * Real.sqrt (a * c)) / 2, c] : RegOut 2 1))) _ ?_]
  · rfl
  · dsimp only
    rw [hy, hpart]
    show Except.ok (t, RegOut.dense _) = _
    congr 3
    have hqx : q * x = b := by rw [hx]; field_simp
    ext i j
    simp only [denseOf, Matrix.of_apply, diag_conj_apply]
    fin_cases i <;> fin_cases j <;> simp [U2s, hSd, ← hw]
    · rw [hqe]
      linear_combination (s * q * (1 + s * x)) * hh + (q * x / 2) * hs + (1 / 2 : ℝ) * hqx
    · rw [hqe]
      linear_combination (s * q * (1 + s * x)) * hh + (q * x / 2) * hs + (1 / 2 : ℝ) * hqx

/-- **C201.** Without the gap this fails: with one factor for two assets of variances `a`, `c`, the covariance `b > 0`, however small, becomes `(√(ac) + b) / 2`,
and `-b` becomes `-(√(ac) + b) / 2`. So two covariance matrices that differ by `2 b` in one entry have results that differ by more than `√(ac)`: almost no
correlation becomes a correlation above one half or below minus one half. -/
theorem C201_two_assets {eigh : Eigh} (he : eigh.Correct) {a b c : ℝ} (ha : 0 < a) (hc : 0 < c) (hb : 0 < b) (t : τ) :
    regularizeCovariance eigh [(t, (!![a, b; b, c] : Mat 2))] 1 =
      ([(t, RegOut.dense !![a, (Real.sqrt (a * c) + b) / 2; (Real.sqrt (a * c) + b) / 2, c])], none) ∧
    regularizeCovariance eigh [(t, (!![a, -b; -b, c] : Mat 2))] 1 =
      ([(t, RegOut.dense !![a, -((Real.sqrt (a * c) + b) / 2); -((Real.sqrt (a * c) + b) / 2), c])], none) := by
  constructor
  · rw [two_aux he ha hc (s := 1) (by norm_num) (by linarith) t]
    rw [show (b + 1 * Real.sqrt (a * c)) / 2 = (Real.sqrt (a * c) + b) / 2 by ring]
  · rw [two_aux he ha hc (s := -1) (b := -b) (by norm_num) (by linarith) t]
    rw [show (-b + -1 * Real.sqrt (a * c)) / 2 = -((Real.sqrt (a * c) + b) / 2) by ring]

/-! ### The hypotheses can be met -/

namespace Demo

theorem gapBy_422 : EigenGapBy (corrOf (!![4, 2; 2, 4] : Mat 2)) 1 1 := by
  intro lam Q h
  have h' : TopEigen (corrOf (!![4, 2; 2, 4] : Mat 2)) (![1 / 2, 3 / 2] : Vec 2) U2 :=
    ⟨le_rfl, U2, _, U2_orth, corr_422_eigen, mono2, fun j => by fin_cases j <;> rfl, fun i j => by fin_cases j <;> rfl⟩
  rw [h.lam_unique h']
  norm_num

/-- The results for `[[4, 2], [2, 4]]` and the singular `[[1, 1], [1, 1]]`. -/
example : ∃ C C' : Mat 2, regularizeCovariance someEigh [((0 : ℕ), (!![4, 2; 2, 4] : Mat 2))] 1 = ([(0, RegOut.dense C)], none) ∧
    regularizeCovariance someEigh [((1 : ℕ), (!![1, 1; 1, 1] : Mat 2))] 1 = ([(1, RegOut.dense C')], none) ∧
    frobDist (corrOf C') (corrOf C) ≤ (1 + 2 * (2 : ℕ) / 1) * frobDist (corrOf (!![1, 1; 1, 1] : Mat 2)) (corrOf (!![4, 2; 2, 4] : Mat 2)) := by
  obtain ⟨C, C', a1, a2, -, a4⟩ := C201_stable someEigh_correct someEigh_correct (t := (0 : ℕ)) (t' := 1) (S := (!![4, 2; 2, 4] : Mat 2))
    (S' := !![1, 1; 1, 1]) posDef_422.posSemidef posSemidef_ones (fun i => by fin_cases i <;> simp) (fun i => by fin_cases i <;> simp) le_rfl
    (by norm_num) one_pos gapBy_422
  exact ⟨C, C', a1, a2, a4⟩

/-- A correlation of 1/100 becomes 0.505 (variances 1). -/
example : regularizeCovariance someEigh [((0 : ℕ), (!![1, 1 / 100; 1 / 100, 1] : Mat 2))] 1 =
    ([(0, RegOut.dense !![1, 101 / 200; 101 / 200, 1])], none) := by
  rw [(C201_two_assets someEigh_correct one_pos one_pos (b := 1 / 100) (by norm_num) (0 : ℕ)).1]
  norm_num

end Demo

end CovPred
