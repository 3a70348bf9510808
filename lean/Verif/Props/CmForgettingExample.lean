import Verif.Props.CmForgetting
import Verif.Props.OnlineMethodExample

/-
A concrete case for property C207: one asset whose returns are between 1 and 2 in absolute value.
-/
set_option linter.unusedSectionVars false
namespace CovPred.CmForgettingEx
open Matrix
open CovPred.CmEx (solvers pairs label)

variable {x : ℕ → Vec 1}

theorem ne (hx : ∀ s, 1 ≤ |x s 0| ∧ |x s 0| ≤ 2) (s : ℕ) : x s 0 ≠ 0 := fun h => by
  have := (hx s).1
  rw [h, abs_zero] at this
  linarith

theorem half_pos : (0 : ℝ) < ((1, 2) : ℝ × ℝ).1 ∧ (0 : ℝ) < ((1, 2) : ℝ × ℝ).2 := by norm_num

theorem cRet_cm {mv mc : ℕ} (t : ℕ) (i : Fin 1) : cRet (cmArgs mv mc (1, 2)) x t i = x t 0 := by
  rw [Subsingleton.elim i 0]
  simp [cRet, muOf, cmArgs]

theorem sq_range (hx : ∀ s, 1 ≤ |x s 0| ∧ |x s 0| ≤ 2) (s : ℕ) : 1 ≤ x s 0 ^ 2 ∧ x s 0 ^ 2 ≤ 4 := by
  rw [← sq_abs]
  obtain ⟨h1, h2⟩ := hx s
  constructor <;> nlinarith

theorem vol_range (hx : ∀ s, 1 ≤ |x s 0| ∧ |x s 0| ≤ 2) {mv mc : ℕ} (t : ℕ) (i : Fin 1) :
    1 ≤ vol (cmArgs mv mc (1, 2)) x t i ∧ vol (cmArgs mv mc (1, 2)) x t i ≤ 2 := by
  have h : volSq (cmArgs mv mc (1, 2)) x t i = emaAvg (betaOf 1) (fun k => x k 0 ^ 2) t := by
    rw [volSq_none (cmArgs_valid half_pos) rfl, halflifeAverage_eq]
    simp only [cRet_cm]
    rfl
  have h1 : 1 ≤ emaAvg (betaOf 1) (fun k => x k 0 ^ 2) t := le_emaAvg (betaOf_pos _) fun k _ => (sq_range hx k).1
  have h2 : emaAvg (betaOf 1) (fun k => x k 0 ^ 2) t ≤ 4 := emaAvg_le (betaOf_pos _) fun k _ => (sq_range hx k).2
  unfold vol
  rw [h]
  constructor
  · exact Real.one_le_sqrt.2 h1
  · rw [show (2 : ℝ) = Real.sqrt 4 by rw [show (4 : ℝ) = 2 ^ 2 by norm_num, Real.sqrt_sq (by norm_num)]]
    exact Real.sqrt_le_sqrt h2

theorem moment_range (hx : ∀ s, 1 ≤ |x s 0| ∧ |x s 0| ≤ 2) {mv mc : ℕ} {T j : ℕ} (i : Fin 1) :
    1 / 4 ≤ covAt (cmArgs mv mc (1, 2)) T x j (i, i) := by
  unfold covAt
  rw [halflifeAverage_eq]
  refine le_emaAvg (betaOf_pos _) fun k _ => ?_
  obtain ⟨t, ht⟩ : ∃ t, t = (live (cmArgs mv mc (1, 2)) T x).getD k 0 := ⟨_, rfl⟩
  have hz : zAt (cmArgs mv mc (1, 2)) T x k i = x t 0 / vol (cmArgs mv mc (1, 2)) x t i := by
    unfold zAt adjAt adjReal
    rw [← ht, cRet_cm]
    simp [muOf, cmArgs, RealArgs.clip]
  rw [hz, ← sq, div_pow]
  obtain ⟨h1, h2⟩ := vol_range hx (mv := mv) (mc := mc) t i
  rw [le_div_iff₀ (by positivity)]
  have := (sq_range hx t).1
  nlinarith

theorem row_range (hx : ∀ s, 1 ≤ |x s 0| ∧ |x s 0| ≤ 2) {mv mc : ℕ} (t : ℕ) :
    1 ≤ rowIewma mv mc (1, 2) x t 0 0 ∧ rowIewma mv mc (1, 2) x t 0 0 ≤ 4 := by
  have hc := moment_range hx (mv := mv) (mc := mc) (T := t + 1) (j := t + 1 - mv) 0
  obtain ⟨h1, h2⟩ := vol_range hx (mv := mv) (mc := mc) ((live (cmArgs mv mc (1, 2)) (t + 1) x).getD (t + 1 - mv) 0) 0
  have e : rowIewma mv mc (1, 2) x t 0 0 = vol (cmArgs mv mc (1, 2)) x ((live (cmArgs mv mc (1, 2)) (t + 1) x).getD (t + 1 - mv) 0) 0 ^ 2 := by
    unfold rowIewma realCov itemAt
    simp only [Matrix.of_apply, Arr.get_ofFn, sigmaAt]
    rw [if_neg (by rintro (h | h) <;> linarith)]
    show _ * _ * (_ / _) = _
    rw [Real.mul_self_sqrt (by linarith), div_self (by linarith), mul_one, sq]
  rw [e]
  constructor <;> nlinarith

theorem expert_range (hx : ∀ s, 1 ≤ |x s 0| ∧ |x s 0| ≤ 2) {mv mc : ℕ} {lamda : ℝ} (hl : 0 ≤ lamda) (t : ℕ) (i) :
    1 ≤ cmExpert label pairs mv mc lamda x t i 0 0 ∧ cmExpert label pairs mv mc lamda x t i 0 0 ≤ 4 * (1 + lamda) := by
  obtain ⟨c, hc, e⟩ := cmExpert_entry (n := 1) label pairs mv mc lamda i 0 0
  obtain ⟨h1, h2⟩ := row_range hx (mv := mv) (mc := mc) t
  rw [e, CmEx.pair_eq]
  rcases hc with rfl | rfl
  · constructor <;> nlinarith
  · constructor <;> nlinarith

/-- All histories with returns between 1 and 2 in absolute value are within the same bounds. -/
theorem bounds (hx : ∀ s, 1 ≤ |x s 0| ∧ |x s 0| ≤ 2) {mv mc W : ℕ} (hmv : 0 < mv) (hmc : 0 < mc) (hW : 0 < W) {lamda : ℝ} (hl : 0 ≤ lamda) (T : ℕ) :
    CmBounds label pairs mv mc W lamda T x 2 1 (1 / 4) 1 (1 / (4 * (1 + lamda))) where
  ret t _ i := by rw [Subsingleton.elim i 0]; exact (hx t).2
  vola p hp t _ _ i := by
    rw [show p = (1, 2) by simpa [pairs] using hp]
    exact (vol_range hx t i).1
  moment p hp t _ _ i := by
    rw [show p = (1, 2) by simpa [pairs] using hp]
    exact moment_range hx i
  det t _ _ i := by
    rw [Matrix.det_fin_one]
    exact (expert_range hx hl t i).1
  gram t _ ht := by
    obtain ⟨u, hu⟩ : ∃ u, u = t - (mv + mc - 2) := ⟨_, rfl⟩
    rw [← hu]
    set P := cmPanel label pairs mv mc lamda (fun t : ℕ => t) x T with hP
    let i0 : Fin (nExperts label pairs) := ⟨0, expertPairs_pos label (1, 2) []⟩
    have huniq : ∀ j : Fin (nExperts label pairs), j = i0 := fun j => by
      apply Fin.ext
      have h1 := lt_of_lt_of_eq j.2 FmEx.experts
      have h2 := lt_of_lt_of_eq i0.2 FmEx.experts
      omega
    have hd : (P.gram W u).det = P.gram W u i0 i0 := by
      have : Subsingleton (Fin (nExperts label pairs)) := ⟨fun a b => (huniq a).trans (huniq b).symm⟩
      exact Matrix.det_eq_elem_of_subsingleton (n := Fin (nExperts label pairs)) (P.gram W u) i0
    rw [hd]
    unfold Panel.gram
    rw [Matrix.sum_apply]
    have hs : ∀ s, ((P.scores s)ᵀ * P.scores s) i0 i0 = P.scores s 0 i0 ^ 2 := fun s => by
      rw [Matrix.mul_apply, Fin.sum_univ_one, Matrix.transpose_apply, sq]
    simp only [hs]
    refine le_trans ?_ (Finset.single_le_sum (f := fun s => P.scores s 0 i0 ^ 2) (fun _ _ => sq_nonneg _)
      (Finset.mem_Ioc.2 ⟨by omega, le_refl u⟩))
    obtain ⟨S, hS⟩ : ∃ S, S = cmExpert label pairs mv mc lamda x (mv + mc - 2 + (u - 1)) i0 := ⟨_, rfl⟩
    have hpd : S.PosDef := hS ▸ OnlineMethodEx.cov_posDef (ne hx) hmv hl (by omega) i0
    have e : P.scores u 0 i0 = precFactor S 0 0 * x (mv + mc - 2 + u) 0 := by
      rw [hS]
      simp [Panel.scores, hP, cmPanel, Matrix.mulVec, dotProduct]
    have hL := congrFun (congrFun (precFactor_isChol hpd).eq 0) 0
    rw [Matrix.mul_apply, Fin.sum_univ_one, Matrix.transpose_apply] at hL
    have hinv : S⁻¹ 0 0 * S 0 0 = 1 := by
      have := congrFun (congrFun (Matrix.nonsing_inv_mul S (Matrix.isUnit_iff_isUnit_det _ |>.1 hpd.isUnit)) 0) 0
      rw [Matrix.mul_apply, Fin.sum_univ_one, Matrix.one_apply_eq] at this
      exact this
    obtain ⟨r1, r2⟩ := expert_range hx (mv := mv) (mc := mc) hl (mv + mc - 2 + (u - 1)) i0
    rw [← hS] at r1 r2
    have hp : 0 < S 0 0 := by linarith
    have hi : S⁻¹ 0 0 = 1 / S 0 0 := by rw [eq_div_iff hp.ne']; exact hinv
    show _ ≤ P.scores u 0 i0 ^ 2
    rw [e, mul_pow, sq (precFactor S 0 0), hL, hi]
    have hq := (sq_range hx (mv + mc - 2 + u)).1
    have h1 : 1 / (4 * (1 + lamda)) ≤ 1 / S 0 0 := one_div_le_one_div_of_le hp r2
    have h2 : 0 < 1 / S 0 0 := by positivity
    nlinarith

/-- With the arguments of the notebook (63, 63, window 10) for one asset: there is a number of rows after which the predictions for two histories with
returns between 1 and 2 in absolute value, which agree after row `s` only, differ by less than one percent, however different they were before. -/
example : ∃ N : ℕ, ∀ (T : ℕ) (x y : ℕ → Vec 1), 126 ≤ T → (∀ s, 1 ≤ |x s 0| ∧ |x s 0| ≤ 2) → (∀ s, 1 ≤ |y s 0| ∧ |y s 0| ≤ 2) →
    ∃ d d', cmIewma label solvers (pairs.map xr) (rowDict T (id : ℕ → ℕ) x) 63 63 (1 / 20) 10 = .ok d ∧
      cmIewma label solvers (pairs.map xr) (rowDict T (id : ℕ → ℕ) y) 63 63 (1 / 20) 10 = .ok d' ∧
      ∀ s, (∀ t, s ≤ t → x t = y t) → ∀ t, s + N ≤ t → 134 ≤ t → t < T →
        ∃ S S', d.lookup t = some S ∧ d'.lookup t = some S' ∧ |S' 0 0 - S 0 0| < 1 / 100 := by
  have hl : (0 : ℝ) ≤ 1 / 20 := by norm_num
  obtain ⟨N, h⟩ := C207_forgets (n := 1) (by norm_num) label (pairs := pairs) FmEx.pos (mv := 63) (mc := 63) (by norm_num) (by norm_num) 10
    (lamda := 1 / 20) hl (M := 2) (v0 := 1) (d0 := 1 / 4) (p0 := 1) (g0 := 1 / (4 * (1 + 1 / 20))) (by norm_num) (by norm_num) (by norm_num) (by norm_num)
    (by norm_num) (e := 1 / 100) (by norm_num)
  refine ⟨N, fun T x y hT hx hy => ?_⟩
  obtain ⟨d, hd⟩ := OnlineMethodEx.run (ne hx) (mv := 63) (mc := 63) (window := 10) (T := T) (by norm_num) (by norm_num) (by norm_num) (by omega) hl
  obtain ⟨d', hd'⟩ := OnlineMethodEx.run (ne hy) (mv := 63) (mc := 63) (window := 10) (T := T) (by norm_num) (by norm_num) (by norm_num) (by omega) hl
  refine ⟨d, d', hd, hd', fun s hs t h1 h2 h3 => ?_⟩
  obtain ⟨S, S', l1, l2, hS⟩ := h ℕ solvers solvers T id x y d d'
    (OnlineMethodEx.setup (ne hx) (by norm_num) (by norm_num) (by norm_num) (by omega))
    (OnlineMethodEx.setup (ne hy) (by norm_num) (by norm_num) (by norm_num) (by omega)) (fun K => exactSolver_exact) (fun K => exactSolver_exact)
    (bounds hx (by norm_num) (by norm_num) (by norm_num) hl T) (bounds hy (by norm_num) (by norm_num) (by norm_num) hl T) hd hd' s
    (fun t h _ => hs t h) t h1 h2 h3
  exact ⟨S, S', l1, l2, hS 0 0⟩

end CovPred.CmForgettingEx
