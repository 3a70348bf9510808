import Verif.Lemmas.RegularizeMore
import Mathlib.LinearAlgebra.Matrix.Notation
import Mathlib.Tactic.FinCases

/-
`regularize_covariance` (regularization.py): properties C42-C45 and C68.  `eigh` is any eigenvalue routine that meets
its contract (`Eigh.Correct`).
-/
set_option linter.unusedSectionVars false

namespace CovPred
open Matrix

variable {τ : Type} [LinearOrder τ] {n r : ℕ}

/-- Dictionaries of covariance matrices with positive variances. -/
def CovDict (sigmas : List (τ × Mat n)) : Prop := ∀ p ∈ sigmas, p.2ᵀ = p.2 ∧ ∀ i, 0 < p.2 i i

/-- lifting a fact about one matrix to the generator -/
theorem regularize_lift {eigh : Eigh} {sigmas : Dict τ (Mat n)} {fmt : Bool} (P : Mat n → RegOut n r → Prop)
    (h : ∀ p ∈ sigmas, ∃ y, regularizeOne eigh p.2 r fmt = .ok y ∧ P p.2 y) :
    ∃ items, regularizeCovariance eigh sigmas r fmt = (items, none) ∧
      List.Forall₂ (fun p q => q.1 = p.1 ∧ P p.2 q.2) sigmas items := by
  apply genMap_ok
  intro p hp
  obtain ⟨y, hy, hP⟩ := h p hp
  exact ⟨(p.1, y), by rw [hy]; rfl, rfl, hP⟩

/-- one matrix, dense format -/
theorem regularizeOne_dense {eigh : Eigh} (he : eigh.Correct) {S : Mat n} (hS : Sᵀ = S) (hd : ∀ i, 0 < S i i)
    (h1 : 1 ≤ r) (hr : r ≤ n) :
    ∃ (lam : Vec r) (Q : Matrix (Fin n) (Fin r) ℝ), TopEigen (corrOf S) lam Q ∧
      regularizeOne eigh S r false = .ok (.dense (Matrix.of fun i j =>
        Real.sqrt (S i i) * approx (corrOf S) lam Q i j * Real.sqrt (S j j))) := by
  obtain ⟨lam, Q, h, h', _⟩ := regularizeOne_eq he hS hd h1 hr
  exact ⟨lam, Q, h, h'⟩

/-- **C42** One matrix per input, same times, same order, no exception; each is symmetric, keeps every variance, and
its off-diagonal entries are those of the covariance rebuilt from the `r` leading eigenpairs of the correlation
matrix. -/
theorem C42_factor_form {eigh : Eigh} (he : eigh.Correct) {sigmas : Dict τ (Mat n)} (hs : CovDict sigmas)
    (h1 : 1 ≤ r) (hr : r ≤ n) :
    ∃ items, regularizeCovariance eigh sigmas r = (items, none) ∧
      List.Forall₂ (fun p q => q.1 = p.1 ∧ ∃ C, q.2 = RegOut.dense C ∧ Cᵀ = C ∧ (∀ i, C i i = p.2 i i) ∧
        ∃ (lam : Vec r) (Q : Matrix (Fin n) (Fin r) ℝ), TopEigen (corrOf p.2) lam Q ∧
          ∀ i j, i ≠ j → C i j = Real.sqrt (p.2 i i) * (∑ l, lam l * Q i l * Q j l) * Real.sqrt (p.2 j j)) sigmas items := by
  apply regularize_lift (P := fun S y => ∃ C, y = RegOut.dense C ∧ Cᵀ = C ∧ (∀ i, C i i = S i i) ∧
        ∃ (lam : Vec r) (Q : Matrix (Fin n) (Fin r) ℝ), TopEigen (corrOf S) lam Q ∧
          ∀ i j, i ≠ j → C i j = Real.sqrt (S i i) * (∑ l, lam l * Q i l * Q j l) * Real.sqrt (S j j))
  intro p hp
  obtain ⟨hS, hd⟩ := hs p hp
  obtain ⟨lam, Q, ht, hy⟩ := regularizeOne_dense he hS hd h1 hr
  refine ⟨_, hy, _, rfl, ?_, ?_, lam, Q, ht, ?_⟩
  · ext i j
    have := congrFun (congrFun (approx_symm (corrOf p.2) lam Q) i) j
    rw [Matrix.transpose_apply] at this
    simp only [Matrix.transpose_apply, Matrix.of_apply]
    rw [this]; ring
  · intro i
    rw [Matrix.of_apply, approx_diag, corrOf_scale hd]
  · intro i j hij
    rw [Matrix.of_apply, approx_off _ _ _ hij, diag_conj_apply]
    congr 2
    exact Finset.sum_congr rfl fun l _ => by ring

/-- **C43** Regularising keeps a positive semidefinite matrix positive semidefinite and a positive definite one
positive definite, whatever the rank. -/
theorem C43_posSemidef {eigh : Eigh} (he : eigh.Correct) {sigmas : Dict τ (Mat n)}
    (hs : ∀ p ∈ sigmas, p.2.PosSemidef ∧ ∀ i, 0 < p.2 i i) (h1 : 1 ≤ r) (hr : r ≤ n) :
    ∃ items, regularizeCovariance eigh sigmas r = (items, none) ∧
      List.Forall₂ (fun p q => q.1 = p.1 ∧ ∃ C, q.2 = RegOut.dense C ∧ C.PosSemidef ∧ (p.2.PosDef → C.PosDef))
        sigmas items := by
  apply regularize_lift (P := fun S y => ∃ C, y = RegOut.dense C ∧ C.PosSemidef ∧ (S.PosDef → C.PosDef))
  intro p hp
  obtain ⟨hpsd, hd⟩ := hs p hp
  have hS : p.2ᵀ = p.2 := by
    rw [← Matrix.conjTranspose_eq_transpose_of_trivial]; exact hpsd.isHermitian
  obtain ⟨lam, Q, ht, hy⟩ := regularizeOne_dense he hS hd h1 hr
  refine ⟨_, hy, _, rfl, ?_, ?_⟩
  · exact scale_posSemidef _ (approx_posSemidef ht (corrOf_posSemidef hpsd))
  · intro hpd
    exact scale_posDef (fun i => Real.sqrt_pos.mpr (hd i)) (approx_posDef ht (corrOf_posDef hpd))

/-- **C44** With rank `n`, regularising is the identity. -/
theorem C44_full_rank {eigh : Eigh} (he : eigh.Correct) {sigmas : Dict τ (Mat n)} (hs : CovDict sigmas) (hn : 1 ≤ n) :
    regularizeCovariance eigh sigmas n = (sigmas.map fun p => (p.1, RegOut.dense p.2), none) := by
  obtain ⟨items, h, hf⟩ := regularize_lift (eigh := eigh) (sigmas := sigmas) (fmt := false) (r := n)
    (P := fun S y => y = RegOut.dense S) (by
      intro p hp
      obtain ⟨hS, hd⟩ := hs p hp
      obtain ⟨lam, Q, ht, hy⟩ := regularizeOne_dense he hS hd hn le_rfl
      refine ⟨_, hy, congrArg _ ?_⟩
      ext i j
      rw [Matrix.of_apply, approx_eq_self ht.resid_full, corrOf_scale hd])
  rw [h]
  congr 1
  clear h hs
  induction hf with
  | nil => rfl
  | @cons a b l1 l2 hab _ ih =>
    rw [List.map_cons, ih, ← hab.1, ← hab.2]

/-- **C44** A positive semidefinite matrix whose rank is at most `r` is returned unchanged. -/
theorem C44_low_rank {eigh : Eigh} (he : eigh.Correct) {sigmas : Dict τ (Mat n)}
    (hs : ∀ p ∈ sigmas, p.2.PosSemidef ∧ (∀ i, 0 < p.2 i i) ∧ p.2.rank ≤ r) (h1 : 1 ≤ r) (hr : r ≤ n) :
    regularizeCovariance eigh sigmas r = (sigmas.map fun p => (p.1, RegOut.dense p.2), none) := by
  obtain ⟨items, h, hf⟩ := regularize_lift (eigh := eigh) (sigmas := sigmas) (fmt := false) (r := r)
    (P := fun S y => y = RegOut.dense S) (by
      intro p hp
      obtain ⟨hpsd, hd, hrank⟩ := hs p hp
      have hS : p.2ᵀ = p.2 := by
        rw [← Matrix.conjTranspose_eq_transpose_of_trivial]; exact hpsd.isHermitian
      obtain ⟨lam, Q, ht, hy⟩ := regularizeOne_dense he hS hd h1 hr
      refine ⟨_, hy, congrArg _ ?_⟩
      ext i j
      rw [Matrix.of_apply, approx_eq_self (ht.resid_rank (corrOf_posSemidef hpsd) (by rw [corrOf_rank hd]; exact hrank)),
        corrOf_scale hd])
  rw [h]
  congr 1
  clear h hs
  induction hf with
  | nil => rfl
  | @cons a b l1 l2 hab _ ih =>
    rw [List.map_cons, ih, ← hab.1, ← hab.2]

/-- **C45** The low-rank format describes the same matrix: at the same times, in the same order, `F` (one column per
factor) and `d >= 0` with `F Fᵀ + diag(d)` equal to what the dense format yields. -/
theorem C45_low_rank_format {eigh : Eigh} (he : eigh.Correct) {sigmas : Dict τ (Mat n)}
    (hs : ∀ p ∈ sigmas, p.2.PosSemidef ∧ ∀ i, 0 < p.2 i i) (h1 : 1 ≤ r) (hr : r ≤ n) :
    ∃ items itemsLow, regularizeCovariance eigh sigmas r false = (items, none) ∧
      regularizeCovariance eigh sigmas r true = (itemsLow, none) ∧ items.length = sigmas.length ∧
      List.Forall₂ (fun p q => q.1 = p.1 ∧ ∃ x : LowRankDiag n r, q.2 = RegOut.lowRank x ∧
        p.2 = RegOut.dense (factorCov x.F x.d) ∧ ∀ i, 0 ≤ x.d i) items itemsLow := by
  have key : ∀ p ∈ sigmas, ∃ y y', regularizeOne eigh p.2 r false = .ok y ∧ regularizeOne eigh p.2 r true = .ok y' ∧
      ∃ x : LowRankDiag n r, y' = RegOut.lowRank x ∧ y = RegOut.dense (factorCov x.F x.d) ∧ ∀ i, 0 ≤ x.d i := by
    intro p hp
    obtain ⟨hpsd, hd⟩ := hs p hp
    have hS : p.2ᵀ = p.2 := by
      rw [← Matrix.conjTranspose_eq_transpose_of_trivial]; exact hpsd.isHermitian
    obtain ⟨lam, Q, ht, hy, hy'⟩ := regularizeOne_eq he hS hd h1 hr
    have hlam := ht.lam_nonneg (corrOf_posSemidef hpsd)
    refine ⟨_, _, hy, hy', _, rfl, congrArg _ ?_, ?_⟩
    · ext i j
      rw [factorCov, Matrix.of_apply, Matrix.add_apply, Matrix.add_apply]
      have e1 : ((Matrix.of fun i j => Real.sqrt (p.2 i i) * Q i j.rev * Real.sqrt (lam j.rev) : Matrix (Fin n) (Fin r) ℝ) *
          (Matrix.of fun i j => Real.sqrt (p.2 i i) * Q i j.rev * Real.sqrt (lam j.rev) : Matrix (Fin n) (Fin r) ℝ)ᵀ) i j =
          Real.sqrt (p.2 i i) * (Q * diagonal lam * Qᵀ) i j * Real.sqrt (p.2 j j) := by
        rw [Matrix.mul_apply]
        simp only [Matrix.of_apply, Matrix.transpose_apply]
        rw [diag_conj_apply, Finset.mul_sum, Finset.sum_mul]
        refine (Equiv.sum_comp Fin.revPerm fun l => Real.sqrt (p.2 i i) * Q i l * Real.sqrt (lam l) *
          (Real.sqrt (p.2 j j) * Q j l * Real.sqrt (lam l))).trans ?_
        refine Finset.sum_congr rfl fun l _ => ?_
        have := Real.mul_self_sqrt (hlam l)
        calc _ = Real.sqrt (p.2 i i) * Q i l * (Real.sqrt (lam l) * Real.sqrt (lam l)) * Q j l * Real.sqrt (p.2 j j) := by ring
          _ = _ := by rw [this]; ring
      rw [e1]
      by_cases hij : i = j
      · subst hij
        rw [Matrix.diagonal_apply_eq, Matrix.diagonal_apply_eq]
        ring
      · rw [Matrix.diagonal_apply_ne _ hij, Matrix.diagonal_apply_ne _ hij]
        ring
    · intro i
      have := (ht.resid_posSemidef (corrOf_posSemidef hpsd)).diag_nonneg (i := i)
      have h0 := Real.sqrt_nonneg (p.2 i i)
      exact mul_nonneg (mul_nonneg h0 this) h0
  clear hs
  unfold regularizeCovariance
  induction sigmas with
  | nil => exact ⟨[], [], rfl, rfl, rfl, List.Forall₂.nil⟩
  | cons p l ih =>
    obtain ⟨its, itsl, g1, g2, g3, g4⟩ := ih fun q hq => key q (List.mem_cons_of_mem _ hq)
    obtain ⟨y, y', e1, e2, x, k1, k2, k3⟩ := key p List.mem_cons_self
    refine ⟨(p.1, y) :: its, (p.1, y') :: itsl, ?_, ?_, by simp [g3], List.Forall₂.cons ⟨rfl, x, k1, k2, k3⟩ g4⟩
    · rw [genMap_cons_ok _ (by rw [e1]; rfl), g1]
    · rw [genMap_cons_ok _ (by rw [e2]; rfl), g2]

theorem regularizeOne_bad_rank (eigh : Eigh) (S : Mat n) (fmt : Bool) (hr : r < 1 ∨ n < r) :
    regularizeOne eigh S r fmt = .error .valueError := by
  unfold regularizeOne
  split
  · rfl
  · simp only [regularizeCorrelation, if_pos hr]
    rfl

/-- **C68** A rank outside `1..n` raises `ValueError` at the first matrix; nothing is yielded. -/
theorem C68_bad_rank (eigh : Eigh) (p : τ × Mat n) (sigmas : Dict τ (Mat n)) (fmt : Bool) (hr : r < 1 ∨ n < r) :
    regularizeCovariance eigh (p :: sigmas) r fmt = ([], some .valueError) := by
  have := regularizeOne_bad_rank eigh p.2 fmt hr
  unfold regularizeCovariance
  simp only [genMap, this, bind, Except.bind]

/-- **C68** A matrix with a variance that is not positive raises `ValueError` there, after everything before it has
been yielded. -/
theorem C68_bad_variance {eigh : Eigh} (he : eigh.Correct) {pre post : Dict τ (Mat n)} (hs : CovDict pre) (fmt : Bool)
    (p : τ × Mat n) (hp : ∃ i, p.2 i i ≤ 0) (h1 : 1 ≤ r) (hr : r ≤ n) :
    ∃ items, regularizeCovariance eigh (pre ++ p :: post) r fmt = (items, some .valueError) ∧
      regularizeCovariance eigh pre r fmt = (items, none) ∧ items.length = pre.length := by
  have hbad : regularizeOne eigh p.2 r fmt = .error .valueError := by
    unfold regularizeOne
    rw [if_pos hp]
  have hok : ∀ q ∈ pre, ∃ y, regularizeOne eigh q.2 r fmt = .ok y := by
    intro q hq
    obtain ⟨hS, hd⟩ := hs q hq
    obtain ⟨lam, Q, ht, hy, hy'⟩ := regularizeOne_eq he hS hd h1 hr
    cases fmt
    · exact ⟨_, hy⟩
    · exact ⟨_, hy'⟩
  unfold regularizeCovariance
  clear hs
  induction pre with
  | nil => exact ⟨[], by simp [genMap, hbad, bind, Except.bind], rfl, rfl⟩
  | cons q l ih =>
    obtain ⟨its, g1, g2, g3⟩ := ih fun q hq => hok q (List.mem_cons_of_mem _ hq)
    obtain ⟨y, e1⟩ := hok q List.mem_cons_self
    refine ⟨(q.1, y) :: its, ?_, ?_, by simp [g3]⟩
    · rw [List.cons_append, genMap_cons_ok _ (by rw [e1]; rfl), g1]
    · rw [genMap_cons_ok _ (by rw [e1]; rfl), g2]

/-! ### The hypotheses can be met -/

namespace Demo

/-- two covariance matrices: a correlated one, and a singular one of rank one -/
def regSigmas : Dict ℕ (Mat 2) := [(0, !![4, 2; 2, 4]), (1, !![1, 1; 1, 1])]

theorem posDef_422 : (!![4, 2; 2, 4] : Mat 2).PosDef := by
  have h : IsChol !![2, 0; 1, Real.sqrt 3] (!![4, 2; 2, 4] : Mat 2) := by
    refine ⟨?_, ?_, ?_⟩
    · intro i j hij; fin_cases i <;> fin_cases j <;> simp_all
    · intro i; fin_cases i <;> simp
    · ext i j; fin_cases i <;> fin_cases j <;> simp [Matrix.mul_apply, Fin.sum_univ_two] <;> norm_num
  exact h.posDef

theorem posSemidef_ones : (!![1, 1; 1, 1] : Mat 2).PosSemidef := by
  have : (!![1, 1; 1, 1] : Mat 2) = (!![1; 1] : Matrix (Fin 2) (Fin 1) ℝ) * (!![1; 1] : Matrix (Fin 2) (Fin 1) ℝ)ᴴ := by
    ext i j; fin_cases i <;> fin_cases j <;> simp [Matrix.mul_apply]
  rw [this]; exact Matrix.posSemidef_self_mul_conjTranspose _

theorem regSigmas_ok : ∀ p ∈ regSigmas, p.2.PosSemidef ∧ ∀ i, 0 < p.2 i i := by
  intro p hp
  simp only [regSigmas, List.mem_cons, List.not_mem_nil, or_false] at hp
  rcases hp with rfl | rfl
  · exact ⟨posDef_422.posSemidef, fun i => by fin_cases i <;> simp⟩
  · exact ⟨posSemidef_ones, fun i => by fin_cases i <;> simp⟩

theorem regSigmas_cov : CovDict regSigmas := fun p hp =>
  ⟨by rw [← Matrix.conjTranspose_eq_transpose_of_trivial]; exact (regSigmas_ok p hp).1.isHermitian, (regSigmas_ok p hp).2⟩

example : ∃ items, regularizeCovariance someEigh regSigmas 1 = (items, none) ∧ items.length = 2 := by
  obtain ⟨items, h, hf⟩ := C42_factor_form someEigh_correct regSigmas_cov (r := 1) le_rfl (by norm_num)
  exact ⟨items, h, hf.length_eq.symm⟩

example : regularizeCovariance someEigh regSigmas 2 =
    ([(0, RegOut.dense !![4, 2; 2, 4]), (1, RegOut.dense !![1, 1; 1, 1])], none) :=
  C44_full_rank someEigh_correct regSigmas_cov (by norm_num)

theorem rank_ones : (!![1, 1; 1, 1] : Mat 2).rank ≤ 1 := by
  have : (!![1, 1; 1, 1] : Mat 2) = (!![1; 1] : Matrix (Fin 2) (Fin 1) ℝ) * (!![1; 1] : Matrix (Fin 2) (Fin 1) ℝ)ᵀ := by
    ext i j; fin_cases i <;> fin_cases j <;> simp [Matrix.mul_apply]
  rw [this]
  exact (Matrix.rank_mul_le_left _ _).trans (by simpa using Matrix.rank_le_width (!![1; 1] : Matrix (Fin 2) (Fin 1) ℝ))

example : regularizeCovariance someEigh [((0 : ℕ), (!![1, 1; 1, 1] : Mat 2))] 1 =
    ([(0, RegOut.dense !![1, 1; 1, 1])], none) :=
  C44_low_rank someEigh_correct (by
    intro p hp
    rw [List.mem_singleton] at hp
    subst hp
    exact ⟨posSemidef_ones, fun i => by fin_cases i <;> simp, rank_ones⟩) le_rfl (by norm_num)

example : ∃ items, regularizeCovariance someEigh regSigmas 1 true = (items, none) ∧ items.length = 2 := by
  obtain ⟨items, low, _, h, hl, hf⟩ := C45_low_rank_format someEigh_correct regSigmas_ok (r := 1) le_rfl (by norm_num)
  exact ⟨low, h, by rw [← hf.length_eq, hl]; rfl⟩

example : regularizeCovariance someEigh regSigmas 3 = ([], some .valueError) :=
  C68_bad_rank _ _ _ _ (Or.inr (by norm_num))

example : ∃ items, regularizeCovariance someEigh (regSigmas ++ (2, (!![0, 0; 0, 1] : Mat 2)) :: regSigmas) 1 =
    (items, some .valueError) ∧ items.length = 2 := by
  obtain ⟨items, h, _, hl⟩ := C68_bad_variance someEigh_correct regSigmas_cov (post := regSigmas) false
    (2, (!![0, 0; 0, 1] : Mat 2)) ⟨0, by simp⟩ (r := 1) le_rfl (by norm_num)
  exact ⟨items, h, hl⟩

end Demo

end CovPred
