import Verif.Props.FactorModel

/-
A concrete run of the factor model that meets the hypotheses of C101-C104: two assets, one factor, 14 rows, blocks of two
rows, `memory = 11`, one pair of half-lives.
-/
set_option linter.unusedSectionVars false
namespace CovPred
open Matrix XR

theorem gram_posDef_of {τ : Type} {n K : ℕ} (P : Panel τ n K) (W t : ℕ)
    (h : ∀ w, (∀ s, t - W < s → s ≤ t → P.scores s *ᵥ w = 0) → w = 0) : (P.gram W t).PosDef := by
  have hq : ∀ w : Vec K, w ⬝ᵥ (P.gram W t *ᵥ w) = ∑ s ∈ Finset.Ioc (t - W) t, (P.scores s *ᵥ w) ⬝ᵥ (P.scores s *ᵥ w) := by
    intro w
    unfold Panel.gram
    rw [Matrix.sum_mulVec, dotProduct_sum]
    apply Finset.sum_congr rfl
    intro s _
    rw [← Matrix.mulVec_mulVec, Matrix.dotProduct_mulVec, Matrix.vecMul_transpose]
  have hsym : (P.gram W t).IsHermitian := by
    unfold Panel.gram
    rw [Matrix.IsHermitian, Matrix.conjTranspose_eq_transpose_of_trivial, Matrix.transpose_sum]
    apply Finset.sum_congr rfl
    intro s _
    rw [Matrix.transpose_mul, Matrix.transpose_transpose]
  apply Matrix.PosDef.of_dotProduct_mulVec_pos hsym
  intro w hw
  rw [star_trivial, hq]
  by_contra hno
  apply hw
  apply h
  intro s h1 h2
  have hnn : ∀ s ∈ Finset.Ioc (t - W) t, 0 ≤ (P.scores s *ᵥ w) ⬝ᵥ (P.scores s *ᵥ w) := fun s _ =>
    Finset.sum_nonneg fun i _ => mul_self_nonneg _
  have hz := le_antisymm (not_lt.mp hno) (Finset.sum_nonneg hnn)
  have := (Finset.sum_eq_zero_iff_of_nonneg hnn).mp hz s (Finset.mem_Ioc.mpr ⟨h1, h2⟩)
  exact dotProduct_self_eq_zero.mp this

namespace FmEx

/-- the returns: the first asset is 1 or -2, the second -1 or 1 -/
def x (s : ℕ) : Vec 2 := if s % 2 = 0 then ![1, -1] else ![-2, 1]
/-- the exposures: the factor is the first asset -/
def E : Matrix (Fin 1) (Fin 2) ℝ := !![1, 0]
def pca : Pca 2 1 := fun _ => .ok E
noncomputable def solvers : Solvers 1 := fun K => exactSolver 1 K
def pairs : List (ℝ × ℝ) := [(1, 2)]
def label : XR × XR → Unit := fun _ => ()

theorem f_ne (s : ℕ) : factorRet E x s 0 ≠ 0 := by
  unfold factorRet x
  by_cases h : s % 2 = 0
  · simp [h, E, Matrix.mulVec, dotProduct]
  · simp [h, E, Matrix.mulVec, dotProduct]

theorem awake : Awake (factorRet E x) := ⟨0, by norm_num, fun h => f_ne 0 (by rw [h]; rfl)⟩

theorem pos : ∀ p ∈ pairs, 0 < p.1 ∧ 0 < p.2 := by
  intro p hp
  simp only [pairs, List.mem_cons, List.not_mem_nil, or_false] at hp
  subst hp; norm_num

theorem setup (T : ℕ) : FactorSetup pca solvers pairs T (id : ℕ → ℕ) x 2 11 where
  factors := by norm_num
  labels := fun s t h _ => h
  pairs_ne := by simp [pairs]
  halflives := pos
  step := by norm_num
  warm := by norm_num
  feasible := fun K => exactSolver_exact.feasible
  awake := fun t E' _ _ h => by cases h; exact awake

theorem experts : nExperts label pairs = 1 := rfl

theorem pair_eq (i : Fin (nExperts label pairs)) : expertPair label pairs i = (1, 2) := by
  have : i = ⟨0, by rw [experts]; norm_num⟩ := by
    apply Fin.ext
    have h2 := lt_of_lt_of_eq i.2 experts
    show i.1 = 0
    omega
  subst this
  rfl

theorem good (s : ℕ) : GoodCov (itemAt (factorArgs 1 (1, 2)) (s + 1) (fun t : ℕ => t) (factorRet E x) (s + 1 - 1)) := by
  have hp : (0 : ℝ) < ((1, 2) : ℝ × ℝ).1 ∧ (0 : ℝ) < ((1, 2) : ℝ × ℝ).2 := by norm_num
  have hv := factorArgs_valid (k := 1) hp
  have hc : ∀ t i, cRet (factorArgs 1 (1, 2)) (factorRet E x) t i = factorRet E x t i := fun t i => by
    simp [cRet, muOf, factorArgs]
  have hvol : ∀ t i, vol (factorArgs 1 (1, 2)) (factorRet E x) t i ≠ 0 := by
    intro t i h0
    have := (volSq_zero_iff hv (factorRet E x) t i).mp h0 0 (by omega) (Or.inl rfl)
    rw [hc, Subsingleton.elim i 0] at this
    exact f_ne 0 this
  rw [goodCov_iff]
  refine ⟨fun i => hvol _ i, fun u hu => ?_⟩
  have h0 := hu 0 (by omega)
  have hz : zAt (factorArgs 1 (1, 2)) (s + 1) (factorRet E x) 0 0
      = factorRet E x 0 0 / vol (factorArgs 1 (1, 2)) (factorRet E x) 0 0 := by
    unfold zAt adjAt adjReal
    rw [live_factor_getD hp awake (by omega)]
    simp only [Nat.sub_self, zero_add, hc]
    simp [factorArgs, muOf, RealArgs.clip]
  rw [Fin.sum_univ_one, hz] at h0
  funext i
  rw [Subsingleton.elim i 0]
  rcases mul_eq_zero.mp h0 with h | h
  · exact h
  · exact absurd h (div_ne_zero (f_ne 0) (hvol 0 0))

theorem finite (s0 N : ℕ) : FiniteExperts label pairs (factorRet E x) s0 N := by
  intro i s _ _
  rw [pair_eq]
  exact fun p => (good s).finite p

theorem cov_posDef (s : ℕ) (i) : (expertCov label pairs (factorRet E x) s i).PosDef := by
  have h : (factorIewma (expertPair label pairs i) (factorRet E x) s).PosDef := by
    rw [pair_eq]; exact (good s).posDef
  have h00 := h.diag_pos (i := 0)
  have hd : ∀ M : Mat 1, 0 < M 0 0 → M.PosDef := by
    intro M hM
    have : M = Matrix.diagonal fun _ => M 0 0 := by
      ext a b
      rw [Subsingleton.elim a 0, Subsingleton.elim b 0]; simp
    rw [this]
    exact Matrix.PosDef.diagonal fun _ => hM
  apply hd
  have hor : ∀ (c : Prop) [Decidable c] (S : Mat 1), 0 < S 0 0 →
      0 < (if c then (Matrix.of fun a b => if a = b then 1.05 * S a b else S a b : Mat 1) else S) 0 0 := by
    intro c _ S hS
    split
    · simp only [Matrix.of_apply, if_true]
      exact mul_pos (by norm_num) hS
    · exact hS
  exact @hor _ (_) _ h00

theorem panel_ok (s0 N : ℕ) : (factorPanel label pairs (id : ℕ → ℕ) (factorRet E x) s0 N).Ok where
  time_lt := fun s t h _ => by simpa [factorPanel] using h
  posDef := fun t _ i => cov_posDef _ i

theorem panel_gram (s0 N t : ℕ) (ht : 10 ≤ t) :
    ((factorPanel label pairs (id : ℕ → ℕ) (factorRet E x) s0 N).gram 10 t).PosDef := by
  apply gram_posDef_of
  intro w hw
  have h := congrFun (hw t (by omega) le_rfl) 0
  funext i
  have hi : ∀ j : Fin (nExperts label pairs), j = i := fun j => by
    apply Fin.ext
    have h1 := lt_of_lt_of_eq j.2 experts
    have h2 := lt_of_lt_of_eq i.2 experts
    omega
  have e : ((factorPanel label pairs (id : ℕ → ℕ) (factorRet E x) s0 N).scores t *ᵥ w) 0
      = precFactor (expertCov label pairs (factorRet E x) (s0 + (t - 1)) i) 0 0 * factorRet E x (s0 + t) 0 * w i := by
    rw [Matrix.mulVec, dotProduct]
    rw [Finset.sum_eq_single i (fun j _ hj => absurd (hi j) hj) (by simp)]
    simp [Panel.scores, factorPanel, Matrix.mulVec, dotProduct]
  rw [e] at h
  have hp := (precFactor_isChol (cov_posDef (s0 + (t - 1)) i)).pos 0
  rcases mul_eq_zero.mp h with h | h
  · rcases mul_eq_zero.mp h with h | h
    · exact absurd h hp.ne'
    · exact absurd h (f_ne _)
  · exact h

theorem completes (s0 N : ℕ) : (factorPanel label pairs (id : ℕ → ℕ) (factorRet E x) s0 N).Completes (solvers _) 10 where
  ok := panel_ok s0 N
  gram := fun t h _ => panel_gram s0 N t h
  solved := fun t h1 h2 => ⟨_, outcome_complete (panel_ok s0 N) (by show 0 < nExperts label pairs; rw [experts]; norm_num) h1 h1 h2
    (panel_gram s0 N t h1) exactSolver_exact exactSolver_complete⟩

/-- The run over 14 rows yields the items of the rows 11, 12 and 13. -/
theorem run : ∃ m0 m1 m2, constructFactorModel label pca solvers (rowDict 14 id x) (pairs.map xr) 2 11 = ([m0, m1, m2], none) ∧
    m0.time = 11 ∧ m1.time = 12 ∧ m2.time = 13 := by
  obtain ⟨c, hc, err, he, _, hend⟩ := factorModel_run label (setup 14)
  rcases hend with ⟨h1, h2⟩ | ⟨_, hno, _⟩
  · rw [h1, h2] at he
    rw [he]
    exact ⟨_, _, _, rfl, rfl, rfl, rfl⟩
  · exact absurd ⟨rfl, finite _ _, completes _ _⟩ hno

/-- The hypotheses of C101-C103 are met by an item of this run (C101_exposure, C102_item, C102_valid, C103). -/
example : ∃ m, (constructFactorModel label pca solvers (rowDict 14 id x) (pairs.map xr) 2 11).1[(1 : ℕ)]? = some m ∧
    m.factorCov.PosDef ∧ m.exposure = E := by
  obtain ⟨m0, m1, m2, h, _⟩ := run
  have hm : (constructFactorModel label pca solvers (rowDict 14 id x) (pairs.map xr) 2 11).1[(1 : ℕ)]? = some m1 := by
    rw [h]; rfl
  refine ⟨m1, hm, (C102_valid label (setup 14) hm).1, ?_⟩
  obtain ⟨_, b, i, _, _, _, hb⟩ := C101_exposure label (setup 14) hm
  exact (Except.ok.inj hb).symm

/-- The second asset has residuals, so an item of the model with all variances positive exists: the likelihood of C104 is
defined for the item with covariance 1. -/
example : ∃ m : FactorModel ℕ 2 1, m.time = 12 ∧ m.full.PosDef := by
  refine ⟨⟨12, E, 1, fun _ => 1⟩, rfl, ?_⟩
  unfold FactorModel.full
  have h1 := conj_posSemidef (S := (1 : Mat 1)) Matrix.PosDef.one.posSemidef Eᵀ
  rw [Matrix.transpose_transpose] at h1
  exact Matrix.PosDef.posSemidef_add h1 (Matrix.PosDef.diagonal fun i => by norm_num)

/-- The exposures of the example are orthonormal (C105). -/
example : E * Eᵀ = 1 := by
  ext a b
  rw [Subsingleton.elim a 0, Subsingleton.elim b 0]
  simp [E, Matrix.mul_apply]

end FmEx
end CovPred
