import Verif.Lemmas.Eigen
import Verif.Props.EM

/-
`regularize_covariance` (regularization.py): uniqueness, changes of units and of the asset order, best approximation
(C63-C65).
-/
set_option linter.unusedSectionVars false

namespace CovPred
open Matrix

variable {τ : Type} [LinearOrder τ] {n r : ℕ}

/-- the dense output as a function of the leading part of the correlation matrix -/
noncomputable def denseOf (S X : Mat n) : Mat n :=
  Matrix.of fun i j => if i = j then S i i else Real.sqrt (S i i) * X i j * Real.sqrt (S j j)

theorem regularizeOne_denseOf {eigh : Eigh} (he : eigh.Correct) {S : Mat n} (hS : Sᵀ = S) (hd : ∀ i, 0 < S i i)
    (h1 : 1 ≤ r) (hr : r ≤ n) :
    ∃ (lam : Vec r) (Q : Matrix (Fin n) (Fin r) ℝ), TopEigen (corrOf S) lam Q ∧
      regularizeOne eigh S r false = .ok (.dense (denseOf S (Q * diagonal lam * Qᵀ))) := by
  obtain ⟨lam, Q, ht, hy⟩ := regularizeOne_dense he hS hd h1 hr
  refine ⟨lam, Q, ht, hy.trans (congrArg _ (congrArg _ ?_))⟩
  ext i j
  simp only [denseOf, Matrix.of_apply]
  split
  · next h => subst h; rw [approx_diag, corrOf_scale hd]
  · next h => rw [approx_off _ _ _ h]

/-- **C63** If at every time the `r`-th eigenvalue of the correlation matrix is larger than the next, the result does
not depend on which eigenvectors the eigenvalue routine returns. -/
theorem C63_independent_of_eigenvectors {eigh eigh' : Eigh} (he : eigh.Correct) (he' : eigh'.Correct)
    {sigmas : Dict τ (Mat n)} (hs : CovDict sigmas) (hgap : ∀ p ∈ sigmas, EigenGap (corrOf p.2) r) (h1 : 1 ≤ r) (hr : r ≤ n) :
    regularizeCovariance eigh sigmas r = regularizeCovariance eigh' sigmas r := by
  have := genMap_map (fun p : τ × Mat n => (do
    let x ← regularizeOne eigh p.2 r false
    pure (p.1, x) : Except Err (τ × RegOut n r))) (fun p : τ × Mat n => (do
    let x ← regularizeOne eigh' p.2 r false
    pure (p.1, x) : Except Err (τ × RegOut n r))) id id sigmas (by
      intro p hp
      obtain ⟨hS, hd⟩ := hs p hp
      obtain ⟨lam, Q, ht, hy⟩ := regularizeOne_denseOf he hS hd h1 hr
      obtain ⟨lam', Q', ht', hy'⟩ := regularizeOne_denseOf he' hS hd h1 hr
      refine ⟨_, by rw [hy]; rfl, ?_⟩
      dsimp only [id]
      rw [hy', ht'.part_unique ht fun _ => hgap p hp]
      rfl)
  rw [List.map_id, List.map_id] at this
  exact this.symm

/-- rescaling the outputs -/
noncomputable def RegOut.rescale (c : Vec n) : RegOut n r → RegOut n r
  | .dense C => .dense (Matrix.of fun i j => c i * C i j * c j)
  | .lowRank x => .lowRank (x.rescale c)

/-- one matrix in other units -/
theorem regularizeOne_units (eigh : Eigh) (S : Mat n) {c : Vec n} (hc : ∀ i, 0 < c i) (fmt : Bool) :
    regularizeOne eigh (Matrix.of fun i j => c i * S i j * c j) r fmt =
      (regularizeOne eigh S r fmt).map (RegOut.rescale c) := by
  by_cases hbad : ∃ i, S i i ≤ 0
  · have hbad' : ∃ i, (Matrix.of fun i j => c i * S i j * c j : Mat n) i i ≤ 0 := by
      obtain ⟨i, hi⟩ := hbad
      refine ⟨i, ?_⟩
      rw [Matrix.of_apply]
      have := hc i
      have h2 : c i * S i i * c i = c i * c i * S i i := by ring
      rw [h2]
      exact mul_nonpos_of_nonneg_of_nonpos (mul_pos this this).le hi
    unfold regularizeOne
    rw [if_pos hbad, if_pos hbad']
    rfl
  · have hpos : ∀ i, 0 < S i i := fun i => by
      by_contra h; exact hbad ⟨i, not_lt.mp h⟩
    have hbad' : ¬ ∃ i, (Matrix.of fun i j => c i * S i j * c j : Mat n) i i ≤ 0 := by
      rintro ⟨i, hi⟩
      rw [Matrix.of_apply] at hi
      have := mul_pos (mul_pos (hc i) (hpos i)) (hc i)
      linarith
    have hv : ∀ i, Real.sqrt ((Matrix.of fun i j => c i * S i j * c j : Mat n) i i) = c i * Real.sqrt (S i i) := by
      intro i
      rw [Matrix.of_apply, show c i * S i i * c i = c i ^ 2 * S i i by ring, Real.sqrt_mul (sq_nonneg _),
        Real.sqrt_sq (hc i).le]
    have hR : (Matrix.of fun i j => 1 / (c i * Real.sqrt (S i i)) * (Matrix.of fun i j => c i * S i j * c j : Mat n) i j *
        (1 / (c j * Real.sqrt (S j j))) : Mat n) =
        Matrix.of fun i j => 1 / Real.sqrt (S i i) * S i j * (1 / Real.sqrt (S j j)) := by
      ext i j
      simp only [Matrix.of_apply]
      have h1 := (hc i).ne'
      have h2 := (hc j).ne'
      have h3 := (Real.sqrt_pos.mpr (hpos i)).ne'
      have h4 := (Real.sqrt_pos.mpr (hpos j)).ne'
      field_simp
    unfold regularizeOne
    rw [if_neg hbad, if_neg hbad']
    simp only [hv, hR]
    cases regularizeCorrelation eigh (Matrix.of fun i j => 1 / Real.sqrt (S i i) * S i j * (1 / Real.sqrt (S j j)) : Mat n) r with
    | error e => rfl
    | ok x =>
      cases fmt
      · show Except.ok (RegOut.dense _) = Except.ok (RegOut.dense _)
        congr 2
        ext i j
        simp only [Matrix.of_apply]
        ring
      · show Except.ok (RegOut.lowRank _) = Except.ok (RegOut.lowRank _)
        congr 3
        · ext i j
          rw [Matrix.diagonal_mul]
          simp only [Matrix.of_apply]
          ring
        · funext i; ring

/-- mapping a generator with exceptions -/
theorem genMap_map' {A A' B B' : Type} (f : A → Except Err B) (f' : A' → Except Err B') (g : A → A') (g' : B → B')
    (l : List A) (h : ∀ a ∈ l, f' (g a) = (f a).map g') :
    genMap f' (l.map g) = ((genMap f l).1.map g', (genMap f l).2) := by
  induction l with
  | nil => rfl
  | cons a l ih =>
    have h2 := h a List.mem_cons_self
    have ih := ih fun x hx => h x (List.mem_cons_of_mem _ hx)
    cases hf : f a with
    | error e =>
      rw [hf] at h2
      simp only [List.map_cons, genMap, h2, hf, Except.map, List.map_nil]
    | ok b =>
      rw [hf] at h2
      rw [List.map_cons, genMap_cons_ok _ hf, genMap_cons_ok (b := g' b) _ (by rw [h2]; rfl), ih]
      rfl

/-- **C64** Change of units, for every input (also those that raise), rank, format and eigenvalue routine: multiplying
each asset by a positive factor multiplies the results accordingly. -/
theorem C64_units (eigh : Eigh) (sigmas : Dict τ (Mat n)) {c : Vec n} (hc : ∀ i, 0 < c i) (fmt : Bool) :
    regularizeCovariance eigh (rescaleSigmas c sigmas) r fmt =
      ((regularizeCovariance eigh sigmas r fmt).1.map fun p => (p.1, p.2.rescale c),
        (regularizeCovariance eigh sigmas r fmt).2) := by
  unfold regularizeCovariance rescaleSigmas
  apply genMap_map'
  intro p _
  dsimp only
  rw [regularizeOne_units eigh p.2 hc fmt]
  cases regularizeOne eigh p.2 r fmt <;> rfl

theorem corrOf_flip {S : Mat n} {c : Vec n} (hc : ∀ i, c i = 1 ∨ c i = -1) :
    corrOf (Matrix.of fun i j => c i * S i j * c j) = diagonal c * corrOf S * (diagonal c)ᵀ := by
  have hcc : ∀ i, c i * S i i * c i = S i i := by
    intro i; rcases hc i with h | h <;> rw [h] <;> ring
  ext i j
  rw [Matrix.diagonal_transpose, Matrix.mul_diagonal, Matrix.diagonal_mul]
  simp only [corrOf, Matrix.of_apply, hcc]
  ring

/-- **C64** Changing the sign of some assets (a short instead of a long position) changes the signs of the result
accordingly (given the eigenvalue gap that makes the result unique). -/
theorem C64_signs {eigh eigh' : Eigh} (he : eigh.Correct) (he' : eigh'.Correct) {sigmas : Dict τ (Mat n)}
    (hs : CovDict sigmas) (hgap : ∀ p ∈ sigmas, EigenGap (corrOf p.2) r) (h1 : 1 ≤ r) (hr : r ≤ n)
    {c : Vec n} (hc : ∀ i, c i = 1 ∨ c i = -1) :
    regularizeCovariance eigh' (rescaleSigmas c sigmas) r =
      ((regularizeCovariance eigh sigmas r).1.map fun p => (p.1, p.2.rescale c), (regularizeCovariance eigh sigmas r).2) := by
  unfold regularizeCovariance rescaleSigmas
  apply genMap_map'
  intro p hp
  obtain ⟨hS, hd⟩ := hs p hp
  have hcc : ∀ i, c i * p.2 i i * c i = p.2 i i := by
    intro i; rcases hc i with h | h <;> rw [h] <;> ring
  have hO : (diagonal c : Mat n)ᵀ * diagonal c = 1 := by
    rw [Matrix.diagonal_transpose, Matrix.diagonal_mul_diagonal, ← Matrix.diagonal_one]
    congr 1; funext i; rcases hc i with h | h <;> rw [h] <;> norm_num
  have hS' : (Matrix.of fun i j => c i * p.2 i j * c j : Mat n)ᵀ = Matrix.of fun i j => c i * p.2 i j * c j := by
    ext i j
    have : p.2 j i = p.2 i j := congrFun (congrFun hS i) j
    simp only [Matrix.transpose_apply, Matrix.of_apply, this]; ring
  have hd' : ∀ i, 0 < (Matrix.of fun i j => c i * p.2 i j * c j : Mat n) i i := by
    intro i; rw [Matrix.of_apply, hcc]; exact hd i
  obtain ⟨lam, Q, ht, hy⟩ := regularizeOne_denseOf he hS hd h1 hr
  obtain ⟨lam', Q', ht', hy'⟩ := regularizeOne_denseOf he' hS' hd' h1 hr
  rw [corrOf_flip hc] at ht'
  have hpart := ht'.part_unique (ht.conj hO) fun _ => (hgap p hp).conj hO
  dsimp only
  rw [hy', hy, hpart]
  show Except.ok (p.1, RegOut.dense _) = Except.ok (p.1, RegOut.dense _)
  congr 3
  ext i j
  simp only [denseOf, Matrix.of_apply, hcc]
  split
  · next h => subst h; exact (hcc i).symm
  · have e1 : (diagonal c * Q * diagonal lam * (diagonal c * Q)ᵀ) i j = c i * (Q * diagonal lam * Qᵀ) i j * c j := by
      rw [Matrix.transpose_mul, Matrix.diagonal_transpose,
        show diagonal c * Q * diagonal lam * (Qᵀ * diagonal c) = diagonal c * (Q * diagonal lam * Qᵀ) * diagonal c by
          simp only [Matrix.mul_assoc], Matrix.mul_diagonal, Matrix.diagonal_mul]
    rw [e1]; ring

/-- renaming the assets of the outputs -/
def RegOut.reorder (σ : Equiv.Perm (Fin n)) : RegOut n r → RegOut n r
  | .dense C => .dense (C.submatrix σ σ)
  | .lowRank x => .lowRank { F := x.F.submatrix σ id, d := x.d ∘ σ }

/-- **C64** The order of the assets does not matter (given the eigenvalue gap). -/
theorem C64_order {eigh eigh' : Eigh} (he : eigh.Correct) (he' : eigh'.Correct) {sigmas : Dict τ (Mat n)}
    (hs : CovDict sigmas) (hgap : ∀ p ∈ sigmas, EigenGap (corrOf p.2) r) (h1 : 1 ≤ r) (hr : r ≤ n)
    (σ : Equiv.Perm (Fin n)) :
    regularizeCovariance eigh' (sigmas.map fun p => (p.1, p.2.submatrix σ σ)) r =
      ((regularizeCovariance eigh sigmas r).1.map fun p => (p.1, p.2.reorder σ), (regularizeCovariance eigh sigmas r).2) := by
  unfold regularizeCovariance
  apply genMap_map'
  intro p hp
  obtain ⟨hS, hd⟩ := hs p hp
  set O : Mat n := (1 : Mat n).submatrix σ id with hOdef
  have hOmul : ∀ {m : ℕ} (X : Matrix (Fin n) (Fin m) ℝ), O * X = X.submatrix σ id := by
    intro m X
    ext i j
    rw [Matrix.mul_apply, hOdef]
    simp [Matrix.one_apply]
  have hconj : ∀ X : Mat n, O * X * Oᵀ = X.submatrix σ σ := by
    intro X
    have : O * X * Oᵀ = (O * (O * X)ᵀ)ᵀ := by rw [Matrix.transpose_mul, Matrix.transpose_transpose]
    rw [this, hOmul, hOmul]; rfl
  have hO : Oᵀ * O = 1 := by
    apply mul_orth
    rw [Matrix.transpose_transpose]
    have := hconj 1
    rw [Matrix.mul_one] at this
    rw [this, Matrix.submatrix_one_equiv]
  have hS' : (p.2.submatrix σ σ)ᵀ = p.2.submatrix σ σ := by rw [Matrix.transpose_submatrix, hS]
  have hd' : ∀ i, 0 < p.2.submatrix σ σ i i := fun i => hd (σ i)
  obtain ⟨lam, Q, ht, hy⟩ := regularizeOne_denseOf he hS hd h1 hr
  obtain ⟨lam', Q', ht', hy'⟩ := regularizeOne_denseOf he' hS' hd' h1 hr
  have hcorr : corrOf (p.2.submatrix σ σ) = O * corrOf p.2 * Oᵀ := by rw [hconj]; rfl
  rw [hcorr] at ht'
  have hpart := ht'.part_unique (ht.conj hO) fun _ => (hgap p hp).conj hO
  dsimp only
  rw [hy', hy, hpart]
  show Except.ok (p.1, RegOut.dense _) = Except.ok (p.1, RegOut.dense _)
  congr 3
  have e1 : O * Q * diagonal lam * (O * Q)ᵀ = (Q * diagonal lam * Qᵀ).submatrix σ σ := by
    rw [← hconj, Matrix.transpose_mul]; simp only [Matrix.mul_assoc]
  rw [e1]
  ext i j
  simp only [denseOf, Matrix.of_apply, Matrix.submatrix_apply, EmbeddingLike.apply_eq_iff_eq]

/-- **C65** The factor part is the best one: in the low-rank format, no matrix of rank at most `r` is closer (in
Frobenius norm) to the correlation matrix than the correlations `F Fᵀ / (vola volaᵀ)` of the factor part. -/
theorem C65_best_low_rank {eigh : Eigh} (he : eigh.Correct) {sigmas : Dict τ (Mat n)}
    (hs : ∀ p ∈ sigmas, p.2.PosSemidef ∧ ∀ i, 0 < p.2 i i) (h1 : 1 ≤ r) (hr : r ≤ n) :
    ∃ items, regularizeCovariance eigh sigmas r true = (items, none) ∧
      List.Forall₂ (fun p q => q.1 = p.1 ∧ ∃ x : LowRankDiag n r, q.2 = RegOut.lowRank x ∧
        ∀ B : Mat n, B.rank ≤ r →
          frob (corrOf p.2 - Matrix.of fun i j => (x.F * x.Fᵀ) i j / (Real.sqrt (p.2 i i) * Real.sqrt (p.2 j j))) ≤
            frob (corrOf p.2 - B)) sigmas items := by
  apply regularize_lift (P := fun S y => ∃ x : LowRankDiag n r, y = RegOut.lowRank x ∧
        ∀ B : Mat n, B.rank ≤ r →
          frob (corrOf S - Matrix.of fun i j => (x.F * x.Fᵀ) i j / (Real.sqrt (S i i) * Real.sqrt (S j j))) ≤
            frob (corrOf S - B))
  intro p hp
  obtain ⟨hpsd, hd⟩ := hs p hp
  have hS : p.2ᵀ = p.2 := by
    rw [← Matrix.conjTranspose_eq_transpose_of_trivial]; exact hpsd.isHermitian
  obtain ⟨lam, Q, ht, _, hy'⟩ := regularizeOne_eq he hS hd h1 hr
  have hlam := ht.lam_nonneg (corrOf_posSemidef hpsd)
  refine ⟨_, hy', _, rfl, fun B hB => ?_⟩
  have e0 : (Matrix.of fun i j => ((Matrix.of fun i j => Real.sqrt (p.2 i i) * Q i j.rev * Real.sqrt (lam j.rev) : Matrix (Fin n) (Fin r) ℝ) *
      (Matrix.of fun i j => Real.sqrt (p.2 i i) * Q i j.rev * Real.sqrt (lam j.rev) : Matrix (Fin n) (Fin r) ℝ)ᵀ) i j /
        (Real.sqrt (p.2 i i) * Real.sqrt (p.2 j j)) : Mat n) = Q * diagonal lam * Qᵀ := by
    ext i j
    have hi := (Real.sqrt_pos.mpr (hd i)).ne'
    have hj := (Real.sqrt_pos.mpr (hd j)).ne'
    rw [Matrix.of_apply, Matrix.mul_apply, diag_conj_apply, Finset.sum_div]
    refine (Finset.sum_congr rfl fun l _ => ?_).trans (Equiv.sum_comp Fin.revPerm fun l => Q i l * lam l * Q j l)
    simp only [Matrix.of_apply, Matrix.transpose_apply, Fin.revPerm_apply]
    have := Real.mul_self_sqrt (hlam l.rev)
    rw [div_eq_iff (mul_ne_zero hi hj)]
    calc _ = Real.sqrt (p.2 i i) * Q i l.rev * (Real.sqrt (lam l.rev) * Real.sqrt (lam l.rev)) * Q j l.rev * Real.sqrt (p.2 j j) := by ring
      _ = _ := by rw [this]; ring
  rw [e0]
  exact ht.best (corrOf_posSemidef hpsd) hB

/-! ### The hypotheses can be met; a value -/

namespace Demo

theorem sqrt_half : Real.sqrt 2 / 2 * (Real.sqrt 2 / 2) = 1 / 2 := by
  have := Real.mul_self_sqrt (show (0 : ℝ) ≤ 2 by norm_num)
  linarith

/-- an orthonormal eigenbasis -/
noncomputable def U2 : Mat 2 := !![Real.sqrt 2 / 2, Real.sqrt 2 / 2; -(Real.sqrt 2 / 2), Real.sqrt 2 / 2]

theorem U2_orth : U2ᵀ * U2 = 1 := by
  have := sqrt_half
  ext i j
  fin_cases i <;> fin_cases j <;> simp [U2, Matrix.mul_apply, Fin.sum_univ_two] <;> linarith

theorem corr_422 : corrOf (!![4, 2; 2, 4] : Mat 2) = !![1, 1 / 2; 1 / 2, 1] := by
  have h4 : Real.sqrt 4 * Real.sqrt 4 = 4 := Real.mul_self_sqrt (by norm_num)
  ext i j
  fin_cases i <;> fin_cases j <;> simp [corrOf] <;> norm_num

theorem corr_422_eigen : corrOf (!![4, 2; 2, 4] : Mat 2) = U2 * diagonal ![1 / 2, 3 / 2] * U2ᵀ := by
  rw [corr_422]
  have := sqrt_half
  ext i j
  rw [diag_conj_apply]
  fin_cases i <;> fin_cases j <;> simp [U2, Fin.sum_univ_two] <;> linarith

theorem mono2 : Monotone (![1 / 2, 3 / 2] : Vec 2) := by
  intro i j hij
  fin_cases i <;> fin_cases j <;> simp_all <;> norm_num

theorem gap_422 : EigenGap (corrOf (!![4, 2; 2, 4] : Mat 2)) 1 := by
  intro lam Q h
  have h' : TopEigen (corrOf (!![4, 2; 2, 4] : Mat 2)) (![1 / 2, 3 / 2] : Vec 2) U2 :=
    ⟨le_rfl, U2, _, U2_orth, corr_422_eigen, mono2, fun j => by fin_cases j <;> rfl, fun i j => by fin_cases j <;> rfl⟩
  rw [h.lam_unique h']
  norm_num

theorem top_422 : TopEigen (corrOf (!![4, 2; 2, 4] : Mat 2)) (![3 / 2] : Vec 1) (Matrix.of fun i _ => U2 i 1) :=
  ⟨by norm_num, U2, _, U2_orth, corr_422_eigen, mono2, fun j => by fin_cases j; rfl, fun i j => by fin_cases j; rfl⟩

/-- One factor: the correlation `1/2` becomes `3/4`, whatever eigenvalue routine is used. -/
example (eigh : Eigh) (he : eigh.Correct) :
    regularizeCovariance eigh [((0 : ℕ), (!![4, 2; 2, 4] : Mat 2))] 1 = ([(0, RegOut.dense !![4, 3; 3, 4])], none) := by
  have hS : (!![4, 2; 2, 4] : Mat 2)ᵀ = !![4, 2; 2, 4] := by
    ext i j; fin_cases i <;> fin_cases j <;> rfl
  have hd : ∀ i, 0 < (!![4, 2; 2, 4] : Mat 2) i i := fun i => by fin_cases i <;> simp
  obtain ⟨lam, Q, ht, hy⟩ := regularizeOne_denseOf he hS hd (r := 1) le_rfl (by norm_num)
  have hpart := ht.part_unique top_422 fun _ => gap_422
  unfold regularizeCovariance
  rw [genMap_cons_ok (b := ((0 : ℕ), (RegOut.dense !![4, 3; 3, 4] : RegOut 2 1))) _ ?_]
  · rfl
  · dsimp only
    rw [hy, hpart]
    show Except.ok ((0 : ℕ), RegOut.dense _) = _
    congr 3
    have := sqrt_half
    have h4 : Real.sqrt 4 * Real.sqrt 4 = 4 := Real.mul_self_sqrt (by norm_num)
    ext i j
    simp only [denseOf, Matrix.of_apply, diag_conj_apply]
    fin_cases i <;> fin_cases j <;> simp [U2] <;> nlinarith

example : regularizeCovariance someEigh [((0 : ℕ), (!![4, 2; 2, 4] : Mat 2).submatrix (Equiv.swap 0 1) (Equiv.swap 0 1))] 1 =
    ((regularizeCovariance someEigh [((0 : ℕ), (!![4, 2; 2, 4] : Mat 2))] 1).1.map
      fun p => (p.1, p.2.reorder (Equiv.swap 0 1)), (regularizeCovariance someEigh [((0 : ℕ), (!![4, 2; 2, 4] : Mat 2))] 1).2) :=
  C64_order someEigh_correct someEigh_correct (sigmas := [((0 : ℕ), (!![4, 2; 2, 4] : Mat 2))])
    (fun p hp => by
      rw [List.mem_singleton] at hp; subst hp
      exact regSigmas_cov _ List.mem_cons_self)
    (fun p hp => by rw [List.mem_singleton] at hp; subst hp; exact gap_422) le_rfl (by norm_num) _

end Demo

end CovPred
