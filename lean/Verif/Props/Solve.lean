import Verif.Props.Blend
import Mathlib.LinearAlgebra.FiniteDimensional.Lemmas

/-
Properties C27-C37 of `solve`: objective, optimality, causality, schedule, requests and failures.

`P.Gives returns c` says that `c` is what `from_sigmas` builds from the panel `P`; `effWindow window (P.len - 1)` is
the window that is used: `window`, or the number of predicted returns if `window` is `None`, 0 or too large.
-/
namespace CovPred
open Matrix

set_option linter.unusedSectionVars false

variable {τ : Type} [LinearOrder τ] {n K : ℕ}

/-! ### C27 -/

/-- **C27.** The `i`-th problem that `solve(window)` sets up belongs to position `W + i`, and its objective is, for all
weights with positive blended diagonals (in particular all weights on the simplex), the log-likelihood of the last `W`
returns plus the constant `W n / 2 log(2 pi)`. -/
theorem C27_objective {P : Panel τ n K} {returns : Dict τ (Vec n)} {c : Comb τ n K} (h : P.Gives returns c)
    (hlen : 2 ≤ P.len) (window : Option ℕ) (W : ℕ) (ps : List (τ × Params n K))
    (hprep : solvePrep c window none = .ok (W, ps)) :
    W = effWindow window (P.len - 1) ∧ ps.length = P.len - W ∧
    ∀ i (hi : i < ps.length), (ps[i]).1 = P.time (W + i) ∧
      ∀ w : Vec K, (∀ s, i < s → s ≤ W + i → ∀ j, 0 < blendFactor (P.cov (s - 1)) w j j) →
        objective (ps[i]).2 w = P.logLik W (W + i) w + W * (n / 2 * Real.log (2 * Real.pi)) := by
  have hW0 := effWindow_pos window (N := P.len - 1) (by omega)
  have hW1 := effWindow_le window (P.len - 1)
  rw [h.eq] at hprep
  have hp := solvePrep_panel h.ok h.covered window none (effWindow window (P.len - 1)) 1 (P.len - 1) rfl hW0 (by omega)
    (by omega) rfl
  by_cases hall : ∀ t, 1 + effWindow window (P.len - 1) - 1 ≤ t → t < 1 + (P.len - 1) →
      (P.gram (effWindow window (P.len - 1)) t).PosDef
  · rw [hp.1 hall] at hprep
    injection hprep with hprep
    injection hprep with h1 h2
    subst h1
    refine ⟨rfl, by rw [← h2]; simp; omega, ?_⟩
    intro i hi
    subst h2
    simp only [List.length_map, List.length_range'] at hi
    simp only [List.getElem_map, List.getElem_range', Nat.one_mul]
    rw [show 1 + effWindow window (P.len - 1) - 1 + i = effWindow window (P.len - 1) + i by omega]
    refine ⟨rfl, fun w hw => ?_⟩
    apply objective_eq h.ok (by omega) (by omega) (hall _ (by omega) (by omega))
    intro s h1 h2
    exact hw s (by omega) (by omega)
  · push Not at hall
    rw [hp.2 hall] at hprep
    cases hprep

/-- The simplex weights meet the positivity condition of C27. -/
theorem C27_simplex_ok {P : Panel τ n K} (hP : P.Ok) (t : ℕ) (ht : t < P.len) (w : Vec K) (hw : Simplex w) (j : Fin n) :
    0 < blendFactor (P.cov t) w j j := blendFactor_pos (hP.posDef t ht) hw j

/-- The hypotheses of C27 are met in the demo. -/
example : ∃ W ps, solvePrep (Demo.panel.comb Demo.returns) (some 2) none = .ok (W, ps) ∧ ps.length = 2 := by
  have hp := (solvePrep_panel Demo.panel_ok Demo.panel_covered (some 2) none 2 1 3 rfl (by norm_num) (by norm_num)
    (by show 4 ≤ 4; norm_num) rfl).1 fun t h1 _ => Demo.panel_gram 2 t (by norm_num) (by omega)
  exact ⟨_, _, hp, by simp⟩

/-! ### items of a run -/

/-- in a run every result belongs to a position -/
theorem Panel.Run.mem {P : Panel τ n K} {solver : Solver n K} {W a b : ℕ} {tr : Trace (Result τ n K)}
    (h : P.Run solver W a b tr) {r : Result τ n K} (hr : some r ∈ tr.items) :
    ∃ t w, a ≤ t ∧ t < b ∧ (∀ t, a ≤ t → t < b → (P.gram W t).PosDef) ∧ P.outcome solver W a t = .weights w ∧
      r = P.predict t w := by
  rcases h with ⟨_, rfl⟩ | ⟨hg, m, h1, h2, h3⟩
  · simp at hr
  · rw [h1] at hr
    simp only [List.mem_map, List.mem_range'_1] at hr
    obtain ⟨t, ht, hitem⟩ := hr
    unfold Panel.item at hitem
    have hm : m ≤ b - a := by rcases h3 with ⟨h3, _⟩ | ⟨h3, _⟩ <;> omega
    rcases ho : P.outcome solver W a t with w | _ | e
    · rw [ho] at hitem
      injection hitem with hitem
      exact ⟨t, w, ht.1, by omega, hg, ho, hitem.symm⟩
    · rw [ho] at hitem; cases hitem
    · rw [ho] at hitem; cases hitem

/-- the requests `solve` answers: all times, or consecutive available times from position `z` on -/
inductive Panel.Request (P : Panel τ n K) (W : ℕ) : Option (List τ) → ℕ → ℕ → Prop
  | all : P.Request W none W P.len
  | some (z m : ℕ) (hz : 0 < z) (hm : 0 < m) (hzm : z + m ≤ P.len) :
    P.Request W (some ((List.range' z m).map P.time)) (firstResult W z) (z + m)

theorem solve_run_request {P : Panel τ n K} {returns : Dict τ (Vec n)} {c : Comb τ n K} (h : P.Gives returns c)
    (hlen : 2 ≤ P.len) {solver : Solver n K} (hs : solver.Feasible) (window : Option ℕ) {times : Option (List τ)}
    {a b : ℕ} (hreq : P.Request (effWindow window (P.len - 1)) times a b) :
    P.Run solver (effWindow window (P.len - 1)) a b (c.solve solver window times) ∧
      effWindow window (P.len - 1) ≤ a ∧ b ≤ P.len := by
  cases hreq with
  | all => exact ⟨solve_run_none h hlen hs window, le_rfl, le_rfl⟩
  | some z m hz hm hzm =>
    refine ⟨solve_run_some h hs window z m hz hm hzm, ?_, hzm⟩
    unfold firstResult
    split <;> omega

/-- a result of `solve` with an exact solver -/
theorem exact_result {P : Panel τ n K} {returns : Dict τ (Vec n)} {c : Comb τ n K} (h : P.Gives returns c)
    (hlen : 2 ≤ P.len) {solver : Solver n K} (hs : solver.Exact) (window : Option ℕ) {times : Option (List τ)}
    {a b : ℕ} (hreq : P.Request (effWindow window (P.len - 1)) times a b) {r : Result τ n K}
    (hr : some r ∈ (c.solve solver window times).items) :
    ∃ t, a ≤ t ∧ t < b ∧ b ≤ P.len ∧ effWindow window (P.len - 1) ≤ t ∧
      (P.gram (effWindow window (P.len - 1)) t).PosDef ∧
      P.Optimal (effWindow window (P.len - 1)) t r.weights ∧
      r = P.predict t (P.best (effWindow window (P.len - 1)) t) := by
  obtain ⟨hrun, hWa, hb⟩ := solve_run_request h hlen hs.feasible window hreq
  obtain ⟨t, w, h1, h2, hg, ho, hrw⟩ := hrun.mem hr
  have hw := outcome_exact h.ok h.experts h1 (by omega) (by omega) (hg t h1 h2) hs ho
  refine ⟨t, h1, h2, hb, by omega, hg t h1 h2, ?_, by rw [hrw, hw]⟩
  rw [hrw, hw]
  exact best_optimal h.ok h.experts (by omega) (by omega) (hg t h1 h2)

theorem time_inj {P : Panel τ n K} (hP : P.Ok) {s t : ℕ} (hs : s < P.len) (ht : t < P.len) (h : P.time s = P.time t) :
    s = t := by
  by_contra hne
  rcases lt_or_gt_of_ne hne with hlt | hgt
  · exact (hP.time_lt s t hlt ht).ne h
  · exact (hP.time_lt t s hgt hs).ne' h

/-! ### C28 -/

/-- **C28.** With an exact solver the weights of the result at position `t` maximise the window log-likelihood over the
simplex: no other fixed mixture is better. -/
theorem C28_best_mixture {P : Panel τ n K} {returns : Dict τ (Vec n)} {c : Comb τ n K} (h : P.Gives returns c)
    (hlen : 2 ≤ P.len) (solver : Solver n K) (hs : solver.Exact) (window : Option ℕ) (times : Option (List τ)) (a b : ℕ)
    (hreq : P.Request (effWindow window (P.len - 1)) times a b) (r : Result τ n K)
    (hr : some r ∈ (c.solve solver window times).items) (t : ℕ) (ht : t < P.len) (hrt : r.time = P.time t)
    (w : Vec K) (hw : Simplex w) :
    P.logLik (effWindow window (P.len - 1)) t w ≤ P.logLik (effWindow window (P.len - 1)) t r.weights := by
  obtain ⟨t', h1, h2, h3, _, _, hopt, hr'⟩ := exact_result h hlen hs window hreq hr
  have : t' = t := time_inj h.ok (by omega) ht (by rw [← hrt, hr']; rfl)
  subst this
  exact hopt.2 w hw

/-- the blend that puts all weight on one expert is that expert -/
theorem blend_single {S : Fin K → Mat n} (hS : ∀ k, (S k).PosDef) (mu : Fin K → Vec n) (k : Fin K) :
    blendCov S (Pi.single k 1) = S k ∧ blendMean S mu (Pi.single k 1) = mu k := by
  have hF : blendFactor S (Pi.single k 1) = precFactor (S k) := by
    unfold blendFactor
    rw [Finset.sum_eq_single k]
    · simp
    · intro j _ hj; simp [hj]
    · intro hk; exact absurd (Finset.mem_univ k) hk
  have hc := precFactor_isChol (hS k)
  constructor
  · unfold blendCov
    rw [hF, hc.eq, Matrix.nonsing_inv_nonsing_inv _ (isUnit_iff_ne_zero.mpr (hS k).det_pos.ne')]
  · unfold blendMean
    rw [hF, Finset.sum_eq_single k]
    · rw [Pi.single_eq_same, one_smul, Matrix.mulVec_mulVec, Matrix.nonsing_inv_mul _ (by
        rw [Matrix.det_transpose]; exact isUnit_iff_ne_zero.mpr hc.det_pos.ne'), Matrix.one_mulVec]
    · intro j _ hj; simp [hj]
    · intro hk; exact absurd (Finset.mem_univ k) hk

/-- **C28.** The blended predictor is at least as likely, on the window, as each single expert. -/
theorem C28_beats_experts {P : Panel τ n K} {returns : Dict τ (Vec n)} {c : Comb τ n K} (h : P.Gives returns c)
    (hlen : 2 ≤ P.len) (solver : Solver n K) (hs : solver.Exact) (window : Option ℕ) (times : Option (List τ)) (a b : ℕ)
    (hreq : P.Request (effWindow window (P.len - 1)) times a b) (r : Result τ n K)
    (hr : some r ∈ (c.solve solver window times).items) (t : ℕ) (ht : t < P.len) (hrt : r.time = P.time t)
    (k : Fin K) :
    ∑ s ∈ Finset.Ioc (t - effWindow window (P.len - 1)) t,
        gaussLogDensity (P.mean (s - 1) k) (P.cov (s - 1) k) (P.ret s)
      ≤ P.logLik (effWindow window (P.len - 1)) t r.weights := by
  refine le_trans (le_of_eq ?_) (C28_best_mixture h hlen solver hs window times a b hreq r hr t ht hrt _
    (simplex_single k))
  unfold Panel.logLik
  apply Finset.sum_congr rfl
  intro s hs
  rw [Finset.mem_Ioc] at hs
  obtain ⟨h1, h2⟩ := blend_single (h.ok.posDef (s - 1) (by omega)) (P.mean (s - 1)) k
  rw [h1, h2]

/-- The hypotheses of C28 are met in the demo, for both experts. -/
example (k : Fin 2) : ∑ s ∈ Finset.Ioc (3 - 2) 3,
      gaussLogDensity (Demo.panel.mean (s - 1) k) (Demo.panel.cov (s - 1) k) (Demo.panel.ret s)
    ≤ Demo.panel.logLik 2 3 (Demo.panel.best 2 3) :=
  C28_beats_experts Demo.panel_gives (by show 2 ≤ 4; norm_num) (exactSolver 2 2) exactSolver_exact (some 2) none _ _ .all
    (Demo.panel.predict 3 (Demo.panel.best 2 3)) (by rw [Demo.panel_solve]; simp) 3 (by show 3 < 4; norm_num) rfl k

/-! ### C29 -/

/-- **C29.** The problem of a position with a positive definite Gram matrix has exactly one optimal weight vector. -/
theorem C29_unique_optimum {P : Panel τ n K} (hP : P.Ok) (hK : 0 < K) (W t : ℕ) (hWt : W ≤ t) (ht : t < P.len)
    (hg : (P.gram W t).PosDef) : ∃! w, P.Optimal W t w := by
  obtain ⟨w, hw⟩ := exists_optimal hP hK hWt ht hg
  exact ⟨w, hw, fun w' hw' => optimal_unique hP hWt ht hg hw' hw⟩

/-- **C29.** Two results for the same time and the same window agree, even if they come from different exact solvers
and from calls with different `times`. -/
theorem C29_result_determined {P : Panel τ n K} {returns : Dict τ (Vec n)} {c : Comb τ n K} (h : P.Gives returns c)
    (hlen : 2 ≤ P.len) (solver solver' : Solver n K) (hs : solver.Exact) (hs' : solver'.Exact) (window : Option ℕ)
    (times times' : Option (List τ)) (a b a' b' : ℕ)
    (hreq : P.Request (effWindow window (P.len - 1)) times a b)
    (hreq' : P.Request (effWindow window (P.len - 1)) times' a' b') (r r' : Result τ n K)
    (hr : some r ∈ (c.solve solver window times).items) (hr' : some r' ∈ (c.solve solver' window times').items)
    (htime : r.time = r'.time) : r = r' := by
  obtain ⟨t, h1, h2, h3, _, _, _, e⟩ := exact_result h hlen hs window hreq hr
  obtain ⟨t', h1', h2', h3', _, _, _, e'⟩ := exact_result h hlen hs' window hreq' hr'
  have : t = t' := time_inj h.ok (by omega) (by omega) (by rw [e, e'] at htime; exact htime)
  rw [e, e', this]

example : ∃! w, Demo.panel.Optimal 2 3 w :=
  C29_unique_optimum Demo.panel_ok (by norm_num) 2 3 (by norm_num) (by show 3 < 4; norm_num)
    (Demo.panel_gram 2 3 (by norm_num) (by norm_num))

/-! ### C30 -/

/-- The two panels agree on everything known at position `t`. -/
structure Panel.AgreeTo (P P' : Panel τ n K) (t : ℕ) : Prop where
  time : ∀ s ≤ t, P.time s = P'.time s
  cov : ∀ s ≤ t, P.cov s = P'.cov s
  mean : ∀ s ≤ t, P.mean s = P'.mean s
  ret : ∀ s, 0 < s → s ≤ t → P.ret s = P'.ret s

theorem scores_congr {P P' : Panel τ n K} {s s' : ℕ} (hc : P.cov (s - 1) = P'.cov (s' - 1))
    (hm : P.mean (s - 1) = P'.mean (s' - 1)) (hr : P.ret s = P'.ret s') : P.scores s = P'.scores s' := by
  unfold Panel.scores
  rw [hc, hm, hr]

theorem params_congr {P P' : Panel τ n K} {W t : ℕ} (hWt : W ≤ t)
    (hc : ∀ s, t - W < s → s ≤ t → P.cov (s - 1) = P'.cov (s - 1))
    (hm : ∀ s, t - W < s → s ≤ t → P.mean (s - 1) = P'.mean (s - 1))
    (hr : ∀ s, t - W < s → s ≤ t → P.ret s = P'.ret s) : P.params W t = P'.params W t := by
  unfold Panel.params
  have hg : P.gram W t = P'.gram W t := by
    unfold Panel.gram
    apply Finset.sum_congr rfl
    intro s hs
    rw [Finset.mem_Ioc] at hs
    rw [scores_congr (hc s hs.1 hs.2) (hm s hs.1 hs.2) (hr s hs.1 hs.2)]
  rw [hg]
  congr 1
  apply List.map_congr_left
  intro s hs
  simp only [List.mem_range'_1] at hs
  rw [hc s (by omega) (by omega)]

theorem gram_agree {P P' : Panel τ n K} {W t : ℕ} (hag : P.AgreeTo P' t) (hWt : W ≤ t) : P.gram W t = P'.gram W t := by
  unfold Panel.gram
  apply Finset.sum_congr rfl
  intro s hs
  rw [Finset.mem_Ioc] at hs
  rw [scores_congr (hag.cov (s - 1) (by omega)) (hag.mean (s - 1) (by omega)) (hag.ret s (by omega) hs.2)]

theorem item_agree {P P' : Panel τ n K} {W t : ℕ} (hag : P.AgreeTo P' t) (solver : Solver n K) (hWt : W ≤ t) :
    P.outcome solver W W t = P'.outcome solver W W t ∧ P.item solver W W t = P'.item solver W W t := by
  have hout : P.outcome solver W W t = P'.outcome solver W W t := by
    unfold Panel.outcome
    congr 1
    apply List.map_congr_left
    intro s hs
    simp only [List.mem_range'_1] at hs
    apply params_congr (by omega)
    · intro u _ hu; exact hag.cov (u - 1) (by omega)
    · intro u _ hu; exact hag.mean (u - 1) (by omega)
    · intro u h1 hu; exact hag.ret u (by omega) (by omega)
  refine ⟨hout, ?_⟩
  unfold Panel.item
  rw [hout]
  rcases P'.outcome solver W W t with w | _ | e
  · simp only [Panel.predict, hag.time t le_rfl, hag.cov t le_rfl, hag.mean t le_rfl]
  · rfl
  · rfl

/-- **C30.** No look-ahead: with a window that fits both histories, the item that `solve` yields for position `t` is
the same for two panels that agree up to position `t`, for every (deterministic) solver, if both calls get that far.
(They do unless a window Gram matrix is singular or the solver raises, see C32 and C37.) -/
theorem C30_no_lookahead {P P' : Panel τ n K} {returns returns' : Dict τ (Vec n)} {c c' : Comb τ n K}
    (h : P.Gives returns c) (h' : P'.Gives returns' c') (solver : Solver n K) (hs : solver.Feasible) (W t : ℕ)
    (hW : 0 < W) (hWt : W ≤ t) (ht : t < P.len) (ht' : t < P'.len) (hag : P.AgreeTo P' t)
    (x x' : Option (Result τ n K))
    (hx : (c.solve solver (some W) none).items[t - W]? = some x)
    (hx' : (c'.solve solver (some W) none).items[t - W]? = some x') : x = x' := by
  have eff : ∀ N, W ≤ N → effWindow (some W) N = W := fun N hN => by
    unfold effWindow; simp only [if_neg hW.ne']; omega
  have key : ∀ (Q : Panel τ n K) (ret : Dict τ (Vec n)) (d : Comb τ n K), Q.Gives ret d → t < Q.len →
      ∀ y, (d.solve solver (some W) none).items[t - W]? = some y → y = Q.item solver W W t := by
    intro Q ret d hQ htQ y hy
    have hrun := solve_run_none hQ (by omega) hs (some W)
    rw [eff (Q.len - 1) (by omega)] at hrun
    rcases hrun with ⟨_, h0⟩ | ⟨_, m, h1, _, _⟩
    · rw [h0] at hy; simp at hy
    · rw [h1, List.getElem?_map] at hy
      rcases hg : (List.range' W m)[t - W]? with _ | s
      · rw [hg] at hy; simp at hy
      · rw [hg] at hy
        simp only [Option.map_some, Option.some.injEq] at hy
        obtain ⟨hlt, hs'⟩ := List.getElem?_eq_some_iff.mp hg
        simp only [List.getElem_range', Nat.one_mul] at hs'
        rw [← hy, ← hs', show W + (t - W) = t by omega]
  rw [key P returns c h ht x hx, key P' returns' c' h' ht' x' hx']
  exact (item_agree hag solver hWt).2

/-- **C30.** Waiting for more data does not change the past: if a second panel has the positions of the first and
further ones, and `solve(window=W)` yields something for it, then the items for the first panel are the first items for
the second one; and if the second call ends normally, so does the first, with one item for each position from `W` on. -/
theorem C30_prefix {P P' : Panel τ n K} {returns returns' : Dict τ (Vec n)} {c c' : Comb τ n K}
    (h : P.Gives returns c) (h' : P'.Gives returns' c') (solver : Solver n K) (hs : solver.Feasible) (W : ℕ)
    (hW : 0 < W) (hlen : W < P.len) (hle : P.len ≤ P'.len) (hag : P.AgreeTo P' (P.len - 1))
    (hany : (c'.solve solver (some W) none).items ≠ []) :
    (c.solve solver (some W) none).items <+: (c'.solve solver (some W) none).items ∧
    ((c'.solve solver (some W) none).err = none →
      (c.solve solver (some W) none).err = none ∧ (c.solve solver (some W) none).items.length = P.len - W) := by
  have eff : ∀ N, W ≤ N → effWindow (some W) N = W := fun N hN => by
    unfold effWindow; simp only [if_neg hW.ne']; omega
  have hrun := solve_run_none h (by omega) hs (some W)
  have hrun' := solve_run_none h' (by omega) hs (some W)
  rw [eff _ (by omega)] at hrun hrun'
  have hagt : ∀ t, t < P.len → P.AgreeTo P' t := fun t ht =>
    ⟨fun s hs => hag.time s (by omega), fun s hs => hag.cov s (by omega), fun s hs => hag.mean s (by omega),
      fun s h0 hs => hag.ret s h0 (by omega)⟩
  rcases hrun' with ⟨_, h0⟩ | ⟨hg', m', e', n', l'⟩
  · rw [h0] at hany; simp at hany
  rcases hrun with ⟨⟨t, h1, h2, h3⟩, _⟩ | ⟨hg, m, e, hno, l⟩
  · exfalso
    apply h3
    have : P.gram W t = P'.gram W t := gram_agree (hagt t h2) h1
    rw [this]
    exact hg' t h1 (by omega)
  · have hm : m ≤ P.len - W := by rcases l with ⟨l, _⟩ | ⟨l, _⟩ <;> omega
    have hmm : m ≤ m' := by
      by_contra hlt
      rcases l' with ⟨l', _⟩ | ⟨l', e, _, he⟩
      · omega
      · apply hno (W + m') (by omega) (by omega) e
        rw [(item_agree (hagt (W + m') (by omega)) solver (by omega)).1, he]
    have hitems : (List.range' W m).map (P.item solver W W) = (List.range' W m).map (P'.item solver W W) := by
      apply List.map_congr_left
      intro t ht
      simp only [List.mem_range'_1] at ht
      exact (item_agree (hagt t (by omega)) solver (by omega)).2
    refine ⟨?_, fun herr => ?_⟩
    · rw [e, e', hitems]
      obtain ⟨k, rfl⟩ := Nat.exists_eq_add_of_le hmm
      rw [← List.range'_append_1, List.map_append]
      exact List.prefix_append _ _
    · have hm' : m' = P'.len - W := by
        rcases l' with ⟨l', _⟩ | ⟨_, e, h1, _⟩
        · exact l'
        · rw [herr] at h1; cases h1
      rcases l with ⟨l, l2⟩ | ⟨l, e2, _, he⟩
      · exact ⟨l2, by rw [e]; simp [l]⟩
      · exfalso
        apply n' (W + m) (by omega) (by omega) e2
        rw [← (item_agree (hagt (W + m) (by omega)) solver (by omega)).1, he]

/-- The hypotheses of C30 are met: the demo and the demo with another last row agree up to position 2. -/
example : ∃ (P' : Panel ℕ 2 2), Demo.panel.AgreeTo P' 2 ∧ P'.Ok ∧ P'.len = 4 ∧ P'.ret 3 ≠ Demo.panel.ret 3 ∧
    (Demo.panel.comb Demo.returns).solve (exactSolver 2 2) (some 2) none
      = ⟨[some (Demo.panel.predict 2 (Demo.panel.best 2 2)), some (Demo.panel.predict 3 (Demo.panel.best 2 3))], none⟩ := by
  refine ⟨{ Demo.panel with ret := fun t => if t = 3 then ![5, 5] else ![1, 2] },
    ⟨fun _ _ => rfl, fun _ _ => rfl, fun _ _ => rfl, fun s _ hs => ?_⟩, ⟨Demo.panel_ok.time_lt, Demo.panel_ok.posDef⟩, rfl,
    ?_, Demo.panel_solve⟩
  · simp only [Demo.panel, show s ≠ 3 by omega, if_false]
  · intro h0
    have := congrFun h0 0
    simp [Demo.panel] at this

/-! ### C31 -/

/-- **C31.** Only the window matters, and only relative positions: with exact solvers, the weights of the results at
position `t` of one panel and at position `t'` of another are equal if the `W` returns up to there and the experts'
predictions made just before each of them are equal. -/
theorem C31_window_only {P P' : Panel τ n K} {returns returns' : Dict τ (Vec n)} {c c' : Comb τ n K}
    (h : P.Gives returns c) (h' : P'.Gives returns' c') (solver solver' : Solver n K) (hs : solver.Exact)
    (hs' : solver'.Exact) (W : ℕ) (hW : 0 < W) (hWP : W < P.len) (hWP' : W < P'.len)
    (times times' : Option (List τ)) (a b a' b' : ℕ) (hreq : P.Request W times a b) (hreq' : P'.Request W times' a' b')
    (r r' : Result τ n K)
    (hr : some r ∈ (c.solve solver (some W) times).items) (hr' : some r' ∈ (c'.solve solver' (some W) times').items)
    (t t' : ℕ) (ht : t < P.len) (ht' : t' < P'.len) (hrt : r.time = P.time t) (hrt' : r'.time = P'.time t')
    (hret : ∀ j < W, P.ret (t - j) = P'.ret (t' - j))
    (hcov : ∀ j < W, P.cov (t - j - 1) = P'.cov (t' - j - 1))
    (hmean : ∀ j < W, P.mean (t - j - 1) = P'.mean (t' - j - 1)) : r.weights = r'.weights := by
  have eff : ∀ N, W ≤ N → effWindow (some W) N = W := fun N hN => by
    unfold effWindow; simp only [if_neg hW.ne']; omega
  have e1 := eff (P.len - 1) (by omega)
  have e2 := eff (P'.len - 1) (by omega)
  obtain ⟨u, h1, h2, h3, h4, hg, hopt, e⟩ := exact_result (times := times) (a := a) (b := b) h (by omega) hs (some W)
    (by rw [e1]; exact hreq) hr
  obtain ⟨u', h1', h2', h3', h4', hg', hopt', e'⟩ := exact_result (times := times') (a := a') (b := b') h' (by omega) hs'
    (some W) (by rw [e2]; exact hreq') hr'
  rw [e1] at h4 hg hopt e
  rw [e2] at h4' hg' hopt' e'
  have hu : u = t := time_inj h.ok (by omega) ht (by rw [← hrt, e]; rfl)
  have hu' : u' = t' := time_inj h'.ok (by omega) ht' (by rw [← hrt', e']; rfl)
  subst hu hu'
  have hlik : ∀ w, P.logLik W u w = P'.logLik W u' w := by
    intro w
    unfold Panel.logLik
    have reindex : ∀ (f : ℕ → ℝ) (v : ℕ), W ≤ v → ∑ s ∈ Finset.Ioc (v - W) v, f s = ∑ j ∈ Finset.range W, f (v - j) := by
      intro f v hv
      symm
      apply Finset.sum_nbij (fun j => v - j)
      · intro j hj; simp only [Finset.mem_range] at hj; simp only [Finset.mem_Ioc]; omega
      · intro j hj j' hj' hjj
        simp only [Finset.coe_range, Set.mem_Iio] at hj hj'
        simp only at hjj; omega
      · intro s hs
        simp only [Finset.coe_Ioc, Set.mem_Ioc] at hs
        exact ⟨v - s, by simp only [Finset.coe_range, Set.mem_Iio]; omega, by simp only; omega⟩
      · intro j _; rfl
    rw [reindex _ u h4, reindex _ u' h4']
    apply Finset.sum_congr rfl
    intro j hj
    rw [Finset.mem_range] at hj
    rw [hret j hj, hcov j hj, hmean j hj]
  have hopt2 : P'.Optimal W u' r.weights := ⟨hopt.1, fun w hw => by rw [← hlik, ← hlik]; exact hopt.2 w hw⟩
  exact optimal_unique h'.ok h4' (by omega) hg' hopt2 hopt'

/-- The hypotheses of C31 are met: the demo panel looks the same before positions 2 and 3, so the weights agree. -/
example : (Demo.panel.predict 2 (Demo.panel.best 2 2)).weights = (Demo.panel.predict 3 (Demo.panel.best 2 3)).weights :=
  C31_window_only Demo.panel_gives Demo.panel_gives (exactSolver 2 2) (exactSolver 2 2) exactSolver_exact exactSolver_exact
    2 (by norm_num) (by show 2 < 4; norm_num) (by show 2 < 4; norm_num) none none _ _ _ _ .all .all _ _
    (by rw [Demo.panel_solve]; simp) (by rw [Demo.panel_solve]; simp) 2 3 (by show 2 < 4; norm_num)
    (by show 3 < 4; norm_num) rfl rfl (fun _ _ => rfl) (fun _ _ => rfl) (fun _ _ => rfl)

end CovPred
