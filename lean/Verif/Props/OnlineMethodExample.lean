import Verif.Props.OnlineMethod

/-
Concrete runs for property C205: one asset with any returns that are not 0, and two histories that are continued in the same way.
-/
set_option linter.unusedSectionVars false
namespace CovPred.OnlineMethodEx
open Matrix
open CovPred.CmEx (solvers pairs label)

variable {x : ℕ → Vec 1}

theorem awake (hx : ∀ s, x s 0 ≠ 0) {mv : ℕ} (h : 0 < mv) : ∃ s < mv, x s ≠ 0 := ⟨0, h, fun h => hx 0 (by rw [h]; rfl)⟩

/-- The conditions of the theorems are met, for instance with the arguments of the notebook (63, 63, 10). -/
theorem setup (hx : ∀ s, x s 0 ≠ 0) {mv mc window T : ℕ} (h1 : 0 < mv) (h2 : 0 < mc) (h3 : 0 < window) (h4 : mv + mc ≤ T) :
    CmSetup solvers pairs mv mc window T (id : ℕ → ℕ) x where
  assets := by norm_num
  labels := fun s t h _ => h
  pairs_ne := by simp [pairs]
  halflives := FmEx.pos
  vola := h1
  cov := h2
  window_pos := h3
  feasible := fun K => exactSolver_exact.feasible
  awake := awake hx h1
  rows := h4

theorem good (hx : ∀ s, x s 0 ≠ 0) {mv mc : ℕ} (hmv : 0 < mv) {s : ℕ} (hs : mv ≤ s + 1) :
    GoodCov (itemAt (cmArgs mv mc (1, 2)) (s + 1) (fun t : ℕ => t) x (s + 1 - mv)) := by
  have hp : (0 : ℝ) < ((1, 2) : ℝ × ℝ).1 ∧ (0 : ℝ) < ((1, 2) : ℝ × ℝ).2 := by norm_num
  have hv := cmArgs_valid (mv := mv) (mc := mc) hp
  have hc : ∀ t i, cRet (cmArgs mv mc (1, 2)) x t i = x t i := fun t i => by
    simp [cRet, muOf, cmArgs]
  have hvol : ∀ t i, vol (cmArgs mv mc (1, 2)) x t i ≠ 0 := by
    intro t i h0
    have := (volSq_zero_iff hv x t i).mp h0 0 (by omega) (Or.inl rfl)
    rw [hc, Subsingleton.elim i 0] at this
    exact hx 0 this
  rw [goodCov_iff]
  refine ⟨fun i => hvol _ i, fun u hu => ?_⟩
  have h0 := hu 0 (by omega)
  have hz : zAt (cmArgs mv mc (1, 2)) (s + 1) x 0 0
      = x (mv - 1) 0 / vol (cmArgs mv mc (1, 2)) x (mv - 1) 0 := by
    unfold zAt adjAt adjReal
    rw [live_cm_getD hp (awake hx hmv) (by omega)]
    simp only [Nat.add_zero, hc]
    simp [cmArgs, muOf, RealArgs.clip]
  rw [Fin.sum_univ_one, hz] at h0
  funext i
  rw [Subsingleton.elim i 0]
  rcases mul_eq_zero.mp h0 with h | h
  · exact h
  · exact absurd h (div_ne_zero (hx _) (hvol _ 0))

theorem cov_posDef (hx : ∀ s, x s 0 ≠ 0) {mv mc : ℕ} (hmv : 0 < mv) {lamda : ℝ} (hl : 0 ≤ lamda) {s : ℕ} (hs : mv ≤ s + 1) (i) :
    (cmExpert label pairs mv mc lamda x s i).PosDef := by
  have h : (rowIewma mv mc (expertPair label pairs i) x s).PosDef := by
    rw [CmEx.pair_eq]; exact (good hx hmv hs).posDef
  have h00 := h.diag_pos (i := 0)
  have hd : ∀ M : Mat 1, 0 < M 0 0 → M.PosDef := by
    intro M hM
    have : M = Matrix.diagonal fun _ => M 0 0 := by
      ext a b
      rw [Subsingleton.elim a 0, Subsingleton.elim b 0]; simp
    rw [this]
    exact Matrix.PosDef.diagonal fun _ => hM
  apply hd
  have hor : ∀ (c : Prop) [Decidable c] (S : Mat 1), 0 < S 0 0 →
      0 < (if c then (Matrix.of fun a b => if a = b then (1 + lamda) * S a b else S a b : Mat 1) else S) 0 0 := by
    intro c _ S hS
    split
    · simp only [Matrix.of_apply, if_true]
      exact mul_pos (by linarith) hS
    · exact hS
  exact @hor _ (_) _ h00

theorem panel_gram (hx : ∀ s, x s 0 ≠ 0) {mv mc : ℕ} (hmv : 0 < mv) {lamda : ℝ} (hl : 0 ≤ lamda) (T W t : ℕ) (hW : 0 < W)
    (ht : W ≤ t) (hmc : 0 < mc) : ((cmPanel label pairs mv mc lamda (id : ℕ → ℕ) x T).gram W t).PosDef := by
  apply gram_posDef_of
  intro w hw
  have h := congrFun (hw t (by omega) le_rfl) 0
  funext i
  have hi : ∀ j : Fin (nExperts label pairs), j = i := fun j => by
    apply Fin.ext
    have h1 := lt_of_lt_of_eq j.2 FmEx.experts
    have h2 := lt_of_lt_of_eq i.2 FmEx.experts
    omega
  have e : ((cmPanel label pairs mv mc lamda (id : ℕ → ℕ) x T).scores t *ᵥ w) 0
      = precFactor (cmExpert label pairs mv mc lamda x (mv + mc - 2 + (t - 1)) i) 0 0 * x (mv + mc - 2 + t) 0 * w i := by
    rw [Matrix.mulVec, dotProduct]
    rw [Finset.sum_eq_single i (fun j _ hj => absurd (hi j) hj) (by simp)]
    simp [Panel.scores, cmPanel, Matrix.mulVec, dotProduct]
  rw [e] at h
  have hp := (precFactor_isChol (cov_posDef hx (mc := mc) hmv hl (s := mv + mc - 2 + (t - 1)) (by omega) i)).pos 0
  rcases mul_eq_zero.mp h with h | h
  · rcases mul_eq_zero.mp h with h | h
    · exact absurd h hp.ne'
    · exact absurd h (hx _)
  · exact h

/-- The cell runs through, so the hypotheses of C150 to C153 are met. -/
theorem run (hx : ∀ s, x s 0 ≠ 0) {mv mc window T : ℕ} (h1 : 0 < mv) (h2 : 0 < mc) (h3 : 0 < window) (h4 : mv + mc ≤ T) {lamda : ℝ} (hl : 0 ≤ lamda) :
    ∃ D, cmIewma label solvers (pairs.map xr) (rowDict T (id : ℕ → ℕ) x) mv mc lamda window = .ok D := by
  refine (C150_success label (setup hx h1 h2 h3 h4) lamda fun K => ⟨exactSolver_exact, exactSolver_complete⟩).mpr ⟨?_, ?_, ?_⟩
  · intro i s hs _
    rw [CmEx.pair_eq]
    exact fun p => (good hx h1 (by omega)).finite p
  · exact fun s hs _ i => cov_posDef hx h1 hl (by omega) i
  · intro t ht _
    exact panel_gram hx h1 hl _ _ _ (by unfold cmWindow; omega) ht h2

/-- The conditions of C205_online are met for any returns that are not 0. -/
example (hx : ∀ s, x s 0 ≠ 0) {mv mc window T : ℕ} (h1 : 0 < mv) (h2 : 0 < mc) (h3 : 0 < window) (h4 : mv + mc - 2 + window < T)
    (h5 : mv + mc ≤ T) {lamda : ℝ} (hl : 0 ≤ lamda) :
    cmIewma label solvers (pairs.map xr) (rowDict T (id : ℕ → ℕ) x) mv mc lamda window
      = .ok ((List.range T).filterMap fun t =>
      ((cmState (cmOnline label pairs mv mc window lamda) x t).prediction (cmOnline label pairs mv mc window lamda) (x t)).map
        fun S => (t, S)) := by
  obtain ⟨D, hD⟩ := run hx h1 h2 h3 h5 hl
  rw [hD, C205_online (label := label) (setup hx h1 h2 h3 h5) (fun K => exactSolver_exact) h4 lamda hD]
  rfl

/-- two histories: the sign of the first return differs -/
def y : ℕ → Vec 1 := fun s => if s = 0 then ![-1] else CmEx.x s

theorem y_ne (s : ℕ) : y s 0 ≠ 0 := by
  unfold y
  split
  · simp
  · exact CmEx.x_ne s

theorem differ : CmEx.x 0 ≠ y 0 := by
  intro h
  have := congrFun h 0
  simp [CmEx.x, y] at this
  norm_num at this

/-- what is kept after the first return is the same -/
theorem same {mv mc window : ℕ} (h : 2 ≤ mv) (lamda : ℝ) :
    cmState (cmOnline label pairs mv mc window lamda) CmEx.x 1 = cmState (cmOnline label pairs mv mc window lamda) y 1 := by
  have hst : ∀ (a : RealArgs) (ha : a.mean = false) (hv : 2 ≤ a.minPeriodsVola),
      ({} : OnlineState (Fin 1)).step a (CmEx.x 0) = ({} : OnlineState (Fin 1)).step a (y 0) := by
    intro a ha hv
    have hne : ∀ u : Vec 1, ¬ ({} : OnlineState (Fin 1)).Enters a u := fun u hu => by
      have := hu.1
      simp only [Nat.cast_zero] at this
      omega
    have hmu : ∀ u : Vec 1, ({} : OnlineState (Fin 1)).newMu a u = fun _ => 0 := fun u => by
      funext i; simp [OnlineState.newMu, ha]
    have hvar : ∀ u : Vec 1, ({} : OnlineState (Fin 1)).newVar a u = fun i => u i ^ 2 := fun u => by
      funext i; simp [OnlineState.newVar, hmu]
    unfold OnlineState.step
    simp only [if_neg (hne _), hmu, hvar]
    congr 1
    funext i
    rw [Subsingleton.elim i 0]
    simp [CmEx.x, y]
  have hout : ∀ (a : RealArgs) (hv : 2 ≤ a.minPeriodsVola) (u : Vec 1) (t : Unit), ({} : OnlineState (Fin 1)).output a u t = none := by
    intro a hv u t
    unfold OnlineState.output
    refine if_neg fun hu => ?_
    have := hu.1.1
    simp only [Nat.cast_zero] at this
    omega
  have hpred : ∀ u : Vec 1, ({} : CmState 1 _).predicted (cmOnline label pairs mv mc window lamda) u = none := by
    intro u
    unfold CmState.predicted
    refine if_neg fun hu => ?_
    have := hu ⟨0, expertPairs_pos label (1, 2) []⟩
    unfold CmState.expertCov at this
    rw [hout _ (by simpa [cmArgs, cmOnline] using h)] at this
    simp at this
  show ({} : CmState 1 _).step _ (CmEx.x 0) = ({} : CmState 1 _).step _ (y 0)
  unfold CmState.step
  rw [hpred, hpred]
  congr 1
  funext i
  exact hst _ rfl (by simpa [cmArgs, cmOnline] using h)

/-- The conditions of C205_continue are met by two runs on different returns. -/
example : ∃ D D' : Dict ℕ (Mat 1),
    cmIewma label solvers (pairs.map xr) (rowDict 20 (id : ℕ → ℕ) CmEx.x) 2 3 (1 / 20) 5 = .ok D ∧
    cmIewma label solvers (pairs.map xr) (rowDict 20 (id : ℕ → ℕ) y) 2 3 (1 / 20) 5 = .ok D' ∧
    ∃ before before' later, D = before ++ later ∧ D' = before' ++ later ∧
      (∀ p ∈ before ++ before', ∃ s < 1, p.1 = s) ∧ ∀ p ∈ later, ∃ s, 1 ≤ s ∧ s < 20 ∧ p.1 = s := by
  obtain ⟨D, hD⟩ := run (mv := 2) (mc := 3) (window := 5) (T := 20) (lamda := 1 / 20) CmEx.x_ne (by norm_num) (by norm_num) (by norm_num)
    (by norm_num) (by norm_num)
  obtain ⟨D', hD'⟩ := run (mv := 2) (mc := 3) (window := 5) (T := 20) (lamda := 1 / 20) y_ne (by norm_num) (by norm_num) (by norm_num)
    (by norm_num) (by norm_num)
  refine ⟨D, D', hD, hD', ?_⟩
  exact C205_continue (label := label) (setup CmEx.x_ne (by norm_num) (by norm_num) (by norm_num) (by norm_num))
    (setup y_ne (by norm_num) (by norm_num) (by norm_num) (by norm_num)) (fun K => exactSolver_exact) (by norm_num) (1 / 20) hD hD'
    (t := 1) (by norm_num) (same (by norm_num) _) fun s h1 _ => by simp [y, show s ≠ 0 by omega]

end CovPred.OnlineMethodEx
