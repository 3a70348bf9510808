import Verif.Lemmas.Solve

/-
The loop of `solve` on a panel.
-/
namespace CovPred
open Matrix

set_option linter.unusedSectionVars false

variable {τ : Type} [LinearOrder τ] {n K : ℕ}

/-! ### blending -/

theorem lowerTri_sum {L : Fin K → Mat n} (h : ∀ k, LowerTri (L k)) (w : Vec K) : LowerTri (∑ k, w k • L k) := by
  intro i j hij
  rw [Matrix.sum_apply]
  apply Finset.sum_eq_zero
  intro k _
  rw [Matrix.smul_apply, h k i j hij, smul_zero]

theorem diag_sum_pos {L : Fin K → Mat n} (h : ∀ k i, 0 < L k i i) {w : Vec K} (hw : Simplex w) (i : Fin n) :
    0 < (∑ k, w k • L k) i i := by
  rw [Matrix.sum_apply]
  have hnn : ∀ k ∈ Finset.univ, 0 ≤ (w k • L k) i i := by
    intro k _
    rw [Matrix.smul_apply]
    exact mul_nonneg (hw.nonneg k) (h k i).le
  have hex : ∃ k, 0 < w k := by
    by_contra hno
    push Not at hno
    have : ∑ k, w k ≤ 0 := Finset.sum_nonpos fun k _ => hno k
    rw [hw.sum_one] at this
    linarith
  obtain ⟨k, hk⟩ := hex
  have h1 : (w k • L k) i i ≤ ∑ k, (w k • L k) i i := Finset.single_le_sum hnn (Finset.mem_univ k)
  have h2 : 0 < (w k • L k) i i := by
    rw [Matrix.smul_apply]; exact mul_pos hk (h k i)
  linarith

theorem blendFactor_lower {S : Fin K → Mat n} (h : ∀ k, (S k).PosDef) (w : Vec K) : LowerTri (blendFactor S w) :=
  lowerTri_sum (fun k => (precFactor_isChol (h k)).lower) w

theorem blendFactor_pos {S : Fin K → Mat n} (h : ∀ k, (S k).PosDef) {w : Vec K} (hw : Simplex w) (i : Fin n) :
    0 < blendFactor S w i i :=
  diag_sum_pos (fun k => (precFactor_isChol (h k)).pos) hw i

theorem blendFactor_det {S : Fin K → Mat n} (h : ∀ k, (S k).PosDef) {w : Vec K} (hw : Simplex w) :
    (blendFactor S w).det ≠ 0 :=
  det_ne_of_tri (blendFactor_lower h w) (blendFactor_pos h hw)

theorem blendAt_panel {P : Panel τ n K} (hP : P.Ok) {t : ℕ} (ht : t < P.len) {w : Vec K} (hw : Simplex w) :
    blendAt ((List.range P.len).map P.row) (P.time t) w = .ok (P.predict t w) := by
  have hd := blendFactor_det (hP.posDef t ht) hw
  unfold blendAt
  have hfind : ((List.range P.len).map P.row).find? (fun r => r.time = P.time t) = some (P.row t) := by
    rw [List.range_eq_range']
    exact find?_range' hP.time_lt 0 P.len t (by omega) (by omega) (by omega) P.row Row.time fun _ => rfl
  rw [hfind]
  have e1 : (∑ k, w k • (P.row t).L k) = blendFactor (P.cov t) w := rfl
  simp only [e1]
  rw [inv?_of_ne (by rwa [Matrix.det_transpose]), inv?_of_ne (by
    rw [Matrix.det_mul, Matrix.det_transpose]; exact mul_ne_zero hd hd)]
  rfl

/-! ### the loop -/

/-- The loop from position `t` on, where `a` is the first position of the run. -/
theorem solveLoop_panel {P : Panel τ n K} (hP : P.Ok) {solver : Solver n K} (hs : solver.Feasible) (W a : ℕ) :
    ∀ (m t : ℕ), a ≤ t → t + m ≤ P.len →
    ∃ items err,
      solveLoop solver ((List.range P.len).map P.row) W ((List.range' a (t - a)).map fun s => P.params W s)
          ((List.range' t m).map fun s => (P.time s, P.params W s)) = ⟨items, err⟩ ∧
      (items = (List.range' t items.length).map (P.item solver W a)) ∧
      (∀ s, t ≤ s → s < t + items.length → ∀ e, P.outcome solver W a s ≠ .raises e) ∧
      ((items.length = m ∧ err = none) ∨
        (items.length < m ∧ ∃ e, err = some e ∧ P.outcome solver W a (t + items.length) = .raises e)) := by
  intro m
  induction m with
  | zero =>
    intro t _ _
    refine ⟨[], none, ?_, ?_, ?_, ?_⟩
    · simp [solveLoop]
    · simp
    · intro s h1 h2; simp at h2; omega
    · left; simp
  | succ m ih =>
    intro t hat htm
    have hA : ¬ ((P.params W t).A.length ≠ W) := by simp [Panel.params]
    have hhist : ((List.range' a (t - a)).map fun s => P.params W s) ++ [P.params W t]
        = (List.range' a (t + 1 - a)).map fun s => P.params W s := by
      obtain ⟨d, rfl⟩ : ∃ d, t = a + d := ⟨t - a, by omega⟩
      rw [show a + d - a = d by omega, show a + d + 1 - a = d + 1 by omega, List.range'_concat, List.map_append]
      simp
    rw [List.range'_succ, List.map_cons]
    have hstep : solveLoop solver ((List.range P.len).map P.row) W ((List.range' a (t - a)).map fun s => P.params W s)
          ((P.time t, P.params W t) :: (List.range' (t + 1) m).map fun s => (P.time s, P.params W s))
        = match P.outcome solver W a t with
          | .raises e => ⟨[], some e⟩
          | .solverError => (solveLoop solver ((List.range P.len).map P.row) W
              ((List.range' a (t + 1 - a)).map fun s => P.params W s)
              ((List.range' (t + 1) m).map fun s => (P.time s, P.params W s))).push none
          | .weights x =>
            match blendAt ((List.range P.len).map P.row) (P.time t) x with
            | .error e => ⟨[], some e⟩
            | .ok r => (solveLoop solver ((List.range P.len).map P.row) W
              ((List.range' a (t + 1 - a)).map fun s => P.params W s)
              ((List.range' (t + 1) m).map fun s => (P.time s, P.params W s))).push (some r) := by
      conv_lhs => unfold solveLoop
      rw [if_neg hA]
      simp only [hhist]
      rfl
    rw [hstep]
    obtain ⟨items, err, h1, h2, h3, h4⟩ := ih (t + 1) (by omega) (by omega)
    rw [h1]
    have hcons : ∀ (x : Option (Result τ n K)), P.item solver W a t = x → (∀ e, P.outcome solver W a t ≠ .raises e) →
        ∃ items' err', Trace.push x ⟨items, err⟩ = ⟨items', err'⟩ ∧
          (items' = (List.range' t items'.length).map (P.item solver W a)) ∧
          (∀ s, t ≤ s → s < t + items'.length → ∀ e, P.outcome solver W a s ≠ .raises e) ∧
          ((items'.length = m + 1 ∧ err' = none) ∨
            (items'.length < m + 1 ∧ ∃ e, err' = some e ∧ P.outcome solver W a (t + items'.length) = .raises e)) := by
      intro x hx hnr
      refine ⟨x :: items, err, rfl, ?_, ?_, ?_⟩
      · rw [List.length_cons, List.range'_succ, List.map_cons, hx]
        congr 1
      · intro s hs1 hs2 e
        rw [List.length_cons] at hs2
        rcases Nat.eq_or_lt_of_le hs1 with rfl | hlt
        · exact hnr e
        · exact h3 s (by omega) (by omega) e
      · rw [List.length_cons]
        rcases h4 with ⟨h5, h6⟩ | ⟨h5, e, h6, h7⟩
        · left; exact ⟨by omega, h6⟩
        · right; exact ⟨by omega, e, h6, by rw [show t + (items.length + 1) = t + 1 + items.length by omega]; exact h7⟩
    rcases ho : P.outcome solver W a t with x | _ | e
    · simp only
      have hx : Simplex x := by
        unfold Panel.outcome at ho
        rw [← hhist] at ho
        exact hs _ _ x ho
      rw [blendAt_panel hP (by omega) hx]
      simp only
      exact hcons _ (by unfold Panel.item; rw [ho]) (by rw [ho]; simp)
    · simp only
      exact hcons _ (by unfold Panel.item; rw [ho]) (by rw [ho]; simp)
    · simp only
      refine ⟨[], some e, rfl, by simp, ?_, ?_⟩
      · intro s h1 h2; simp at h2; omega
      · right; exact ⟨by simp, e, rfl, by simpa using ho⟩

theorem Panel.Gives.eq {P : Panel τ n K} {returns : Dict τ (Vec n)} {c : Comb τ n K} (h : P.Gives returns c) :
    c = P.comb returns := by
  rcases h.built with hb | ⟨hz, hb⟩
  · rw [fromSigmas_panel h.ok h.experts] at hb
    cases hb; rfl
  · rw [fromSigmas_panel_none h.ok h.experts] at hb
    have : P.zeroMean = P := by
      cases P with | mk len time cov mean ret =>
      simp only [Panel.zeroMean, Panel.mk.injEq, true_and]
      refine ⟨?_, trivial⟩
      funext t k; exact (hz t k).symm
    rw [this] at hb
    cases hb; rfl

/-- `solve` over the times `p, ..., p + q - 1`. -/
theorem solve_run {P : Panel τ n K} {returns : Dict τ (Vec n)} {c : Comb τ n K} (h : P.Gives returns c)
    {solver : Solver n K} (hs : solver.Feasible) (window : Option ℕ) (times : Option (List τ)) (W p q : ℕ)
    (hWdef : W = effWindow window (P.len - 1)) (hW : 0 < W) (hp : 0 < p) (hpq : p + q ≤ P.len)
    (ht : solveTimes ((List.range' 1 (P.len - 1)).map P.time) W times = .ok ((List.range' p q).map P.time)) :
    P.Run solver W (p + W - 1) (p + q) (c.solve solver window times) := by
  rw [h.eq]
  have hprep := solvePrep_panel h.ok h.covered window times W p q hWdef hW hp hpq ht
  by_cases hall : ∀ t, p + W - 1 ≤ t → t < p + q → (P.gram W t).PosDef
  · right
    refine ⟨hall, ?_⟩
    unfold Comb.solve
    rw [hprep.1 hall]
    simp only
    by_cases hq : W ≤ q
    · obtain ⟨items, err, h1, h2, h3, h4⟩ := solveLoop_panel h.ok hs W (p + W - 1) (q + 1 - W) (p + W - 1) le_rfl
        (by omega)
      rw [show p + W - 1 - (p + W - 1) = 0 by omega] at h1
      simp only [List.range'_zero, List.map_nil] at h1
      have h1' : solveLoop solver (P.comb returns).rows W []
          ((List.range' (p + W - 1) (q + 1 - W)).map fun t => (P.time t, P.params W t)) = ⟨items, err⟩ := h1
      rw [h1']
      refine ⟨items.length, h2, h3, ?_⟩
      rw [show p + q - (p + W - 1) = q + 1 - W by omega]
      exact h4
    · rw [show q + 1 - W = 0 by omega]
      refine ⟨0, rfl, ?_, Or.inl ⟨by omega, rfl⟩⟩
      intro t h1 h2; omega
  · left
    push Not at hall
    refine ⟨hall, ?_⟩
    unfold Comb.solve
    rw [hprep.2 hall]

/-- `solve(window)` -/
theorem solve_run_none {P : Panel τ n K} {returns : Dict τ (Vec n)} {c : Comb τ n K} (h : P.Gives returns c)
    (hlen : 2 ≤ P.len) {solver : Solver n K} (hs : solver.Feasible) (window : Option ℕ) :
    P.Run solver (effWindow window (P.len - 1)) (effWindow window (P.len - 1)) P.len (c.solve solver window none) := by
  have hW := effWindow_pos window (N := P.len - 1) (by omega)
  have := solve_run h hs window none (effWindow window (P.len - 1)) 1 (P.len - 1) rfl hW (by omega) (by omega) rfl
  rwa [show 1 + effWindow window (P.len - 1) - 1 = effWindow window (P.len - 1) by omega,
    show 1 + (P.len - 1) = P.len by omega] at this

/-- the first position that gets a result when the times from position `z` on are requested -/
def firstResult (W z : ℕ) : ℕ := if W ≤ z then z else z + W - 1

/-- `solve(window, times)` -/
theorem solve_run_some {P : Panel τ n K} {returns : Dict τ (Vec n)} {c : Comb τ n K} (h : P.Gives returns c)
    {solver : Solver n K} (hs : solver.Feasible) (window : Option ℕ) (z m : ℕ) (hz : 0 < z) (hm : 0 < m)
    (hzm : z + m ≤ P.len) :
    P.Run solver (effWindow window (P.len - 1)) (firstResult (effWindow window (P.len - 1)) z) (z + m)
      (c.solve solver window (some ((List.range' z m).map P.time))) := by
  have hW := effWindow_pos window (N := P.len - 1) (by omega)
  have hWle := effWindow_le window (P.len - 1)
  set W := effWindow window (P.len - 1) with hWdef
  have ht := solveTimes_some h.ok W z m hW hWle hz hm hzm
  unfold firstResult
  by_cases hWz : W ≤ z
  · rw [if_pos hWz] at ht ⊢
    have := solve_run h hs window _ W (z + 1 - W) (m + W - 1) hWdef hW (by omega) (by omega) ht
    rwa [show z + 1 - W + W - 1 = z by omega, show z + 1 - W + (m + W - 1) = z + m by omega] at this
  · rw [if_neg hWz] at ht ⊢
    exact solve_run h hs window _ W z m hWdef hW hz hzm ht

end CovPred
