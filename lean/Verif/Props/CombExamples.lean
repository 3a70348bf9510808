import Verif.Lemmas.Likelihood
import Verif.Lemmas.FromSigmas
import Mathlib.LinearAlgebra.Matrix.Notation
import Mathlib.LinearAlgebra.Matrix.Determinant.Basic

/-
A concrete combination problem, used to show that the hypotheses of the theorems can be met: two assets, two experts
(the second with a correlated covariance and a non-zero mean), four times.
-/
namespace CovPred.Demo
open Matrix CovPred

/-- the precision factor of the second expert -/
def L1 : Mat 2 := !![1, 0; 1, 2]

/-- the panel -/
noncomputable def panel : Panel ℕ 2 2 where
  len := 4
  time := id
  cov _ := ![1, (L1 * L1ᵀ)⁻¹]
  mean _ := ![0, ![0, 1]]
  ret _ := ![1, 2]

/-- the frame of returns -/
noncomputable def returns : Dict ℕ (Vec 2) := (List.range 4).map fun t => (t, ![1, 2])

theorem isChol_L1 : IsChol L1 (L1 * L1ᵀ) := by
  refine ⟨?_, ?_, rfl⟩
  · intro i j hij
    fin_cases i <;> fin_cases j <;> simp_all [L1]
  · intro i
    fin_cases i <;> simp [L1]

theorem isChol_one {n : ℕ} : IsChol (1 : Mat n) 1 :=
  ⟨fun i j hij => Matrix.one_apply_ne hij.ne, fun i => by simp, by simp⟩

theorem precFactor_0 (t : ℕ) : precFactor (panel.cov t 0) = 1 := by
  apply precFactor_eq
  show IsChol 1 (1 : Mat 2)⁻¹
  rw [inv_one]; exact isChol_one

theorem isUnit_L1 : IsUnit (L1 * L1ᵀ).det := isUnit_iff_ne_zero.mpr isChol_L1.posDef.det_pos.ne'

theorem precFactor_1 (t : ℕ) : precFactor (panel.cov t 1) = L1 := by
  apply precFactor_eq
  show IsChol L1 (L1 * L1ᵀ)⁻¹⁻¹
  rw [Matrix.nonsing_inv_nonsing_inv _ isUnit_L1]; exact isChol_L1

theorem panel_ok : panel.Ok where
  time_lt s t h _ := h
  posDef t _ k := by
    fin_cases k
    · exact Matrix.PosDef.one
    · exact isChol_L1.posDef.inv

theorem panel_covered : panel.Covered returns := by
  intro t _ ht
  exact lookup_map_range (time := (id : ℕ → ℕ)) (N := 4) (fun s t h _ => h) _ t ht

theorem panel_scores (s : ℕ) : panel.scores s = !![1, 2; 2, 2] := by
  ext i k
  unfold Panel.scores
  rw [Matrix.of_apply]
  fin_cases k
  · show ((precFactor (panel.cov (s - 1) 0))ᵀ *ᵥ _) i = _
    rw [precFactor_0]
    fin_cases i <;> simp [panel]
  · show ((precFactor (panel.cov (s - 1) 1))ᵀ *ᵥ _) i = _
    rw [precFactor_1]
    fin_cases i <;> simp [panel, L1, Matrix.mulVec, dotProduct, Fin.sum_univ_two] <;> norm_num

theorem panel_gram (W t : ℕ) (hW : 0 < W) (hWt : W ≤ t) : (panel.gram W t).PosDef := by
  unfold Panel.gram
  simp only [panel_scores]
  rw [Finset.sum_const, Nat.card_Ioc, show t - (t - W) = W by omega]
  have hB : (!![1, 2; 2, 2] : Mat 2).det ≠ 0 := by rw [Matrix.det_fin_two]; norm_num [Matrix.of_apply]
  have h1 : ((!![1, 2; 2, 2] : Mat 2)ᵀ * !![1, 2; 2, 2]).PosDef := by
    have := posDef_of_mul (L := (!![1, 2; 2, 2] : Mat 2)ᵀ) (by rwa [Matrix.det_transpose])
    rwa [Matrix.transpose_transpose] at this
  have h2 : (0 : ℝ) < W := by exact_mod_cast hW
  have := Matrix.PosDef.smul h1 h2
  rwa [Nat.cast_smul_eq_nsmul] at this

/-- The constructor accepts the panel. -/
theorem panel_gives : panel.Gives returns (panel.comb returns) where
  ok := panel_ok
  covered := panel_covered
  experts := by norm_num
  built := Or.inl (fromSigmas_panel panel_ok (by norm_num) returns)

/-- `solve(window=2)` with an exact solver yields the results of positions 2 and 3 (of 0, ..., 3). -/
theorem panel_solve : (panel.comb returns).solve (exactSolver 2 2) (some 2) none
    = ⟨[some (panel.predict 2 (panel.best 2 2)), some (panel.predict 3 (panel.best 2 3))], none⟩ := by
  have h := solve_run_none panel_gives (by show 2 ≤ 4; norm_num) exactSolver_exact.feasible (some 2)
  have := run_complete panel_ok (by norm_num) exactSolver_exact exactSolver_complete (by show 2 ≤ 2; norm_num)
    (le_refl 4) h fun t h1 _ => panel_gram 2 t (by norm_num) h1
  exact this

end CovPred.Demo
