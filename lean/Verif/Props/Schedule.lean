import Verif.Props.Solve

/-
Properties C32-C37 and C61 of `solve`: which times get a result, bad requests, failures.
-/
namespace CovPred
open Matrix

set_option linter.unusedSectionVars false

variable {τ : Type} [LinearOrder τ] {n K : ℕ}

/-- The solver raises nothing but `SolverError`. -/
def Solver.Quiet (s : Solver n K) : Prop := ∀ hist e, s hist ≠ .raises e

theorem exactSolver_quiet : (exactSolver n K).Quiet := by
  intro hist e
  unfold exactSolver
  split
  · simp
  · split <;> simp

theorem run_quiet {P : Panel τ n K} {solver : Solver n K} (hq : solver.Quiet) {W a b : ℕ} {tr : Trace (Result τ n K)}
    (h : P.Run solver W a b tr) (hg : ∀ t, a ≤ t → t < b → (P.gram W t).PosDef) :
    tr = ⟨(List.range' a (b - a)).map (P.item solver W a), none⟩ := by
  rcases h with ⟨⟨t, h1, h2, h3⟩, _⟩ | ⟨_, m, h1, _, h3⟩
  · exact absurd (hg t h1 h2) h3
  · rcases h3 with ⟨rfl, h4⟩ | ⟨_, e, _, h5⟩
    · cases tr; simp only at h1 h4; rw [h1, h4]
    · exact absurd h5 (hq _ e)

/-- the item of a position is `None` or a result for its time -/
theorem item_time {P : Panel τ n K} {solver : Solver n K} {W a t : ℕ} {r : Result τ n K}
    (h : P.item solver W a t = some r) : r.time = P.time t := by
  unfold Panel.item at h
  split at h
  · injection h with h; rw [← h]; rfl
  · cases h

/-! ### C32 -/

/-- **C32.** With `0 < w < len` and regular windows `solve(window=w)` yields exactly one item for each position
`w, ..., len - 1`, in order (the `i`-th item is `None` or a result for position `w + i`), and ends normally. -/
theorem C32_schedule {P : Panel τ n K} {returns : Dict τ (Vec n)} {c : Comb τ n K} (h : P.Gives returns c)
    (solver : Solver n K) (hs : solver.Feasible) (hq : solver.Quiet) (w : ℕ) (hw : 0 < w) (hwl : w < P.len)
    (hg : ∀ t, w ≤ t → t < P.len → (P.gram w t).PosDef) :
    (c.solve solver (some w) none).err = none ∧ (c.solve solver (some w) none).items.length = P.len - w ∧
    ∀ i r, (c.solve solver (some w) none).items[i]? = some (some r) → r.time = P.time (w + i) := by
  have hrun := solve_run_none h (by omega) hs (some w)
  have hW : effWindow (some w) (P.len - 1) = w := by unfold effWindow; simp only [if_neg hw.ne']; omega
  rw [hW] at hrun
  rw [run_quiet hq hrun hg]
  refine ⟨rfl, by simp, ?_⟩
  intro i r hi
  simp only [List.getElem?_map, Option.map_eq_some_iff] at hi
  obtain ⟨t, ht, hitem⟩ := hi
  obtain ⟨hlt, ht⟩ := List.getElem?_eq_some_iff.mp ht
  simp only [List.getElem_range', Nat.one_mul] at ht
  rw [ht]
  exact item_time hitem

/-- **C32.** `window` `None`, 0 or at least as large as the history: exactly one item, for the last position. -/
theorem C32_full_window {P : Panel τ n K} {returns : Dict τ (Vec n)} {c : Comb τ n K} (h : P.Gives returns c)
    (hlen : 2 ≤ P.len) (solver : Solver n K) (hs : solver.Feasible) (hq : solver.Quiet) (window : Option ℕ)
    (hw : window = none ∨ window = some 0 ∨ ∃ w, window = some w ∧ P.len - 1 ≤ w)
    (hg : (P.gram (P.len - 1) (P.len - 1)).PosDef) :
    (c.solve solver window none).err = none ∧
    ∃ x, (c.solve solver window none).items = [x] ∧ ∀ r, x = some r → r.time = P.time (P.len - 1) := by
  have hrun := solve_run_none h hlen hs window
  have hW : effWindow window (P.len - 1) = P.len - 1 := by
    rcases hw with rfl | rfl | ⟨w, rfl, hw⟩
    · rfl
    · rfl
    · unfold effWindow; simp only; split <;> omega
  rw [hW] at hrun
  rw [run_quiet hq hrun fun t h1 h2 => by rw [show t = P.len - 1 by omega]; exact hg]
  refine ⟨rfl, P.item solver (P.len - 1) (P.len - 1) (P.len - 1), ?_, fun r hr => item_time hr⟩
  simp only
  rw [show P.len - (P.len - 1) = 1 by omega]
  rfl

/-- **C32.** With fewer than two expert times there is no predicted return and `solve` raises `IndexError`. -/
theorem C32_too_short {P : Panel τ n K} {returns : Dict τ (Vec n)} {c : Comb τ n K} (h : P.Gives returns c)
    (hlen : P.len < 2) (solver : Solver n K) (window : Option ℕ) :
    c.solve solver window none = ⟨[], some .indexError⟩ := by
  rw [h.eq]
  unfold Comb.solve solvePrep Panel.comb
  have hl : (shiftRows ((List.range P.len).map P.row)).length = 0 := by rw [shiftRows_panel]; simp; omega
  have hW : effWindow window 0 = 0 := by have := effWindow_le window 0; omega
  have hr : List.range' 1 (P.len - 1) = [] := by rw [show P.len - 1 = 0 by omega]; rfl
  simp only [hl, cappedWindow_eq, hW, obs_panel h.covered, ok_bind, hr, List.map_nil]
  rfl

/-- The hypotheses of C32 are met in the demo. -/
example : ((Demo.panel.comb Demo.returns).solve (exactSolver 2 2) (some 1) none).items.length = 3 :=
  (C32_schedule Demo.panel_gives (exactSolver 2 2) exactSolver_exact.feasible exactSolver_quiet 1 (by norm_num)
    (by show 1 < 4; norm_num) fun t h1 _ => Demo.panel_gram 1 t (by norm_num) h1).2.1

example : ∃ x, ((Demo.panel.comb Demo.returns).solve (exactSolver 2 2) none none).items = [x] := by
  obtain ⟨_, x, hx, _⟩ := C32_full_window Demo.panel_gives (by show 2 ≤ 4; norm_num) (exactSolver 2 2)
    exactSolver_exact.feasible exactSolver_quiet none (Or.inl rfl) (Demo.panel_gram 3 3 (by norm_num) (by norm_num))
  exact ⟨x, hx⟩

/-! ### C33, C34 -/

/-- **C33.** If at least `W - 1` available times precede the requested consecutive times (positions `z, ..., z + m - 1`
with `W ≤ z`), `solve(window, times)` yields exactly the items `solve(window)` yields at those times (exact solver that
finds the optimum). -/
theorem C33_times_agree {P : Panel τ n K} {returns : Dict τ (Vec n)} {c : Comb τ n K} (h : P.Gives returns c)
    (hlen : 2 ≤ P.len) (solver : Solver n K) (hs : solver.Exact) (hc : solver.Complete) (window : Option ℕ) (z m : ℕ)
    (hm : 0 < m) (hzm : z + m ≤ P.len) (hWz : effWindow window (P.len - 1) ≤ z)
    (hg : ∀ t, effWindow window (P.len - 1) ≤ t → t < P.len → (P.gram (effWindow window (P.len - 1)) t).PosDef) :
    (c.solve solver window (some ((List.range' z m).map P.time))).items
      = ((c.solve solver window none).items.drop (z - effWindow window (P.len - 1))).take m ∧
    (c.solve solver window (some ((List.range' z m).map P.time))).items.length = m ∧
    (c.solve solver window (some ((List.range' z m).map P.time))).err = none := by
  have hW0 := effWindow_pos window (N := P.len - 1) (by omega)
  have h1 := solve_run_none h hlen hs.feasible window
  have h2 := solve_run_some h hs.feasible window z m (by omega) hm hzm
  unfold firstResult at h2
  rw [if_pos hWz] at h2
  rw [run_complete h.ok h.experts hs hc le_rfl le_rfl h1 hg,
    run_complete h.ok h.experts hs hc hWz hzm h2 fun t h3 h4 => hg t (by omega) (by omega)]
  refine ⟨?_, by simp, rfl⟩
  simp only
  rw [← List.map_drop, ← List.map_take, drop_range', take_range']
  congr 2 <;> omega

/-- **C34.** If fewer than `W - 1` available times precede the requested times (`z < W`), the first `W - 1` requested
times get no item: the items are those of the positions `z + W - 1, ..., z + m - 1`; there are none if fewer than `W`
times are requested. -/
theorem C34_times_dropped {P : Panel τ n K} {returns : Dict τ (Vec n)} {c : Comb τ n K} (h : P.Gives returns c)
    (solver : Solver n K) (hs : solver.Feasible) (hq : solver.Quiet) (window : Option ℕ) (z m : ℕ)
    (hz : 0 < z) (hm : 0 < m) (hzm : z + m ≤ P.len) (hzW : z < effWindow window (P.len - 1))
    (hg : ∀ t, z + effWindow window (P.len - 1) - 1 ≤ t → t < z + m →
      (P.gram (effWindow window (P.len - 1)) t).PosDef) :
    (c.solve solver window (some ((List.range' z m).map P.time))).err = none ∧
    (c.solve solver window (some ((List.range' z m).map P.time))).items.length
      = m - (effWindow window (P.len - 1) - 1) ∧
    ∀ i r, (c.solve solver window (some ((List.range' z m).map P.time))).items[i]? = some (some r) →
      r.time = P.time (z + (effWindow window (P.len - 1) - 1) + i) := by
  have hW0 := effWindow_pos window (N := P.len - 1) (by omega)
  have h2 := solve_run_some h hs window z m hz hm hzm
  unfold firstResult at h2
  rw [if_neg (by omega)] at h2
  rw [run_quiet hq h2 hg]
  refine ⟨rfl, by simp; omega, ?_⟩
  intro i r hi
  simp only [List.getElem?_map, Option.map_eq_some_iff] at hi
  obtain ⟨t, ht, hitem⟩ := hi
  obtain ⟨hlt, ht⟩ := List.getElem?_eq_some_iff.mp ht
  simp only [List.getElem_range', Nat.one_mul] at ht
  rw [show z + (effWindow window (P.len - 1) - 1) + i = t by omega]
  exact item_time hitem

/-- C33 in the demo: `solve(window=2, times=[3])`. -/
example : ((Demo.panel.comb Demo.returns).solve (exactSolver 2 2) (some 2) (some [3])).items
    = [some (Demo.panel.predict 3 (Demo.panel.best 2 3))] := by
  have := (C33_times_agree Demo.panel_gives (by show 2 ≤ 4; norm_num) (exactSolver 2 2) exactSolver_exact
    exactSolver_complete (some 2) 3 1 (by norm_num) (by show 4 ≤ 4; norm_num) (by show 2 ≤ 3; norm_num)
    fun t h1 _ => Demo.panel_gram 2 t (by norm_num) h1).1
  rw [Demo.panel_solve] at this
  exact this

/-- C34 in the demo: `solve(window=2)` has results for the positions 2 and 3, but `solve(window=2, times=[1, 2, 3])` has
none for position 1 (correctly), and `solve(window=3, times=[2, 3])` none at all although `solve(window=3)` has one for
position 3. -/
example : ((Demo.panel.comb Demo.returns).solve (exactSolver 2 2) (some 3) (some [2, 3])).items.length = 0 ∧
    ((Demo.panel.comb Demo.returns).solve (exactSolver 2 2) (some 3) none).items.length = 1 :=
  ⟨(C34_times_dropped Demo.panel_gives (exactSolver 2 2) exactSolver_exact.feasible exactSolver_quiet (some 3) 2 2
      (by norm_num) (by norm_num) (by show 4 ≤ 4; norm_num) (by show 2 < 3; norm_num)
      fun t h1 _ => Demo.panel_gram 3 t (by norm_num)
        (by have : 2 + effWindow (some 3) (Demo.panel.len - 1) - 1 = 4 := rfl
            omega)).2.1,
    (C32_schedule Demo.panel_gives (exactSolver 2 2) exactSolver_exact.feasible exactSolver_quiet 3 (by norm_num)
      (by show 3 < 4; norm_num) fun t h1 _ => Demo.panel_gram 3 t (by norm_num) h1).2.1⟩

/-! ### C35, C61 -/

theorem solve_of_times_error {P : Panel τ n K} {returns : Dict τ (Vec n)} {c : Comb τ n K} (h : P.Gives returns c)
    (solver : Solver n K) (window : Option ℕ) (times : Option (List τ)) (e : Err)
    (ht : solveTimes ((List.range' 1 (P.len - 1)).map P.time) (effWindow window (P.len - 1)) times = .error e) :
    c.solve solver window times = ⟨[], some e⟩ := by
  rw [h.eq]
  have hprep : solvePrep (P.comb returns) window times = .error e := by
    unfold solvePrep Panel.comb
    have hl : (shiftRows ((List.range P.len).map P.row)).length = P.len - 1 := by rw [shiftRows_panel]; simp
    have hobs : ((List.range' 1 (P.len - 1)).map P.obs).map Obs.time = (List.range' 1 (P.len - 1)).map P.time := by
      rw [List.map_map]; rfl
    simp only [hl, cappedWindow_eq, obs_panel h.covered, ok_bind, hobs, ht]
    rfl
  unfold Comb.solve
  rw [hprep]

/-- **C35.** An empty list of times raises `IndexError`, nothing is yielded. -/
theorem C35_empty_times {P : Panel τ n K} {returns : Dict τ (Vec n)} {c : Comb τ n K} (h : P.Gives returns c)
    (solver : Solver n K) (window : Option ℕ) : c.solve solver window (some []) = ⟨[], some .indexError⟩ :=
  solve_of_times_error h solver window _ _ rfl

/-- **C35.** If the first requested time is not the time of a predicted return (a position `1, ..., len - 1`),
`KeyError` is raised. In particular the very first expert time cannot be requested. -/
theorem C35_unknown_time {P : Panel τ n K} {returns : Dict τ (Vec n)} {c : Comb τ n K} (h : P.Gives returns c)
    (solver : Solver n K) (window : Option ℕ) (t : τ) (ts : List τ) (ht : ∀ s, 0 < s → s < P.len → P.time s ≠ t) :
    c.solve solver window (some (t :: ts)) = ⟨[], some .keyError⟩ := by
  apply solve_of_times_error h
  unfold solveTimes
  simp only
  rw [if_neg]
  intro hm
  simp only [List.mem_map, List.mem_range'_1] at hm
  obtain ⟨s, hs, hst⟩ := hm
  exact ht s (by omega) (by omega) hst

/-- **C35.** If the first requested time is known but the times are not consecutive available times, `AssertionError`
is raised. -/
theorem C35_not_consecutive {P : Panel τ n K} {returns : Dict τ (Vec n)} {c : Comb τ n K} (h : P.Gives returns c)
    (solver : Solver n K) (window : Option ℕ) (z : ℕ) (hz : 0 < z) (hzl : z < P.len) (ts : List τ)
    (hts : ¬ (z + (ts.length + 1) ≤ P.len ∧ P.time z :: ts = (List.range' z (ts.length + 1)).map P.time)) :
    c.solve solver window (some (P.time z :: ts)) = ⟨[], some .assertionError⟩ := by
  apply solve_of_times_error h
  unfold solveTimes
  simp only
  have hmem : P.time z ∈ (List.range' 1 (P.len - 1)).map P.time :=
    List.mem_map_of_mem (by simp only [List.mem_range'_1]; omega)
  have hidx : ((List.range' 1 (P.len - 1)).map P.time).idxOf (P.time z) = z - 1 :=
    idxOf_range' h.ok.time_lt 1 (P.len - 1) z (by omega) (by omega) (by omega)
  rw [if_pos hmem, hidx, if_neg]
  intro heq
  apply hts
  have hsl : pySlice ((List.range' 1 (P.len - 1)).map P.time) ((z - 1 : ℕ) : Int)
      (((z - 1 : ℕ) : Int) + ((P.time z :: ts).length : ℕ))
      = (List.range' z (min (ts.length + 1) (P.len - z))).map P.time := by
    unfold pySlice
    have h1 : ¬ (((z - 1 : ℕ) : Int) < 0) := by omega
    have h2 : ¬ (((z - 1 : ℕ) : Int) + ((P.time z :: ts).length : ℕ) < 0) := by omega
    simp only [if_neg h1, if_neg h2, List.length_map, List.length_range', List.length_cons]
    rw [← List.map_take, ← List.map_drop, take_range', drop_range']
    congr 2 <;> omega
  rw [hsl] at heq
  have hlen := congrArg List.length heq
  simp only [List.length_map, List.length_range', List.length_cons] at hlen
  refine ⟨by omega, ?_⟩
  rw [← heq]
  congr 2

/-- C35 in the demo: a gap, a repetition, a request that runs over the end, the first expert time. -/
example : (Demo.panel.comb Demo.returns).solve (exactSolver 2 2) (some 1) (some [1, 3]) = ⟨[], some .assertionError⟩ ∧
    (Demo.panel.comb Demo.returns).solve (exactSolver 2 2) (some 1) (some [3, 4]) = ⟨[], some .assertionError⟩ ∧
    (Demo.panel.comb Demo.returns).solve (exactSolver 2 2) (some 1) (some [0, 1]) = ⟨[], some .keyError⟩ := by
  refine ⟨?_, ?_, ?_⟩
  · exact C35_not_consecutive Demo.panel_gives _ _ 1 (by norm_num) (by show 1 < 4; norm_num) [3]
      (by rintro ⟨_, h⟩; simp [Demo.panel] at h; exact absurd h (by decide))
  · exact C35_not_consecutive Demo.panel_gives _ _ 3 (by norm_num) (by show 3 < 4; norm_num) [4]
      (by rintro ⟨h, _⟩; simp [Demo.panel] at h)
  · exact C35_unknown_time Demo.panel_gives _ _ 0 [1] fun s hs _ => by simp [Demo.panel]; omega

/-- **C61.** If the frame of returns has no row for one of the expert times after the first, `solve` raises `KeyError`
whatever is requested, and yields nothing (only the first expert time needs no return). -/
theorem C61_missing_return {P : Panel τ n K} (hP : P.Ok) (hK : 0 < K) (returns : Dict τ (Vec n)) {c : Comb τ n K}
    (hc : fromSigmas P.sigmas returns (some fun k => some (P.means k)) = .ok c) (solver : Solver n K)
    (window : Option ℕ) (times : Option (List τ))
    (hmiss : ∃ t, 0 < t ∧ t < P.len ∧ returns.lookup (P.time t) = none) :
    c.solve solver window times = ⟨[], some .keyError⟩ := by
  rw [fromSigmas_panel hP hK] at hc
  cases hc
  have hobs : (shiftRows ((List.range P.len).map P.row)).mapM (obsOf returns) = .error .keyError := by
    rw [shiftRows_panel, List.mapM_map]
    rcases hres : (List.range' 1 (P.len - 1)).mapM
      (obsOf returns ∘ fun s => { P.row (s - 1) with time := P.time s }) with e | l
    · obtain ⟨s, _, hse⟩ := mapM_error _ _ _ hres
      simp only [Function.comp] at hse
      unfold obsOf at hse
      split at hse
      · cases hse; rfl
      · cases hse
    · exfalso
      rw [mapM_ok_iff_forall₂, List.forall₂_iff_get] at hres
      obtain ⟨t, h1, h2, h3⟩ := hmiss
      have hlt : t - 1 < (List.range' 1 (P.len - 1)).length := by simp; omega
      have := hres.2 (t - 1) hlt (by rw [← hres.1]; exact hlt)
      simp only [List.get_eq_getElem, List.getElem_range', Nat.one_mul, Function.comp] at this
      unfold obsOf at this
      simp only [show 1 + (t - 1) = t by omega, h3] at this
      cases this
  have hprep : solvePrep (P.comb returns) window times = .error .keyError := by
    unfold solvePrep Panel.comb
    simp only [hobs]
    rfl
  unfold Comb.solve
  rw [hprep]

/-- C61 in the demo, with the returns of position 1 and 2 only. -/
example : (Demo.panel.comb [(1, ![1, 2]), (2, ![1, 2])]).solve (exactSolver 2 2) (some 1) (some [1]) = ⟨[], some .keyError⟩ :=
  C61_missing_return Demo.panel_ok (by norm_num) _ (fromSigmas_panel Demo.panel_ok (by norm_num) _) _ _ _
    ⟨3, by norm_num, by show 3 < 4; norm_num, by simp [Demo.panel]⟩

/-! ### C36 -/

open Classical in
/-- The solver `s`, except that it reports failure (`SolverError`) in the situations `F`. -/
noncomputable def Solver.failing (s : Solver n K) (F : List (Params n K) → Prop) : Solver n K := fun hist =>
  if F hist then .solverError else s hist

open Classical in
/-- **C36.** Solver failures are isolated: if the solver fails in some situations, exactly the items of those positions
are `None`, and all other items are what they would have been without the failures. The situation at position `t` is
the list of problems up to `t`. -/
theorem C36_failure_isolated {P : Panel τ n K} {returns : Dict τ (Vec n)} {c : Comb τ n K} (h : P.Gives returns c)
    (hlen : 2 ≤ P.len) (solver : Solver n K) (hs : solver.Feasible) (hq : solver.Quiet)
    (F : List (Params n K) → Prop) (window : Option ℕ) (times : Option (List τ)) (a b : ℕ)
    (hreq : P.Request (effWindow window (P.len - 1)) times a b) :
    (c.solve (solver.failing F) window times).err = (c.solve solver window times).err ∧
    (c.solve (solver.failing F) window times).items.length = (c.solve solver window times).items.length ∧
    ∀ i x, (c.solve solver window times).items[i]? = some x →
      (c.solve (solver.failing F) window times).items[i]? = some
        (if F ((List.range' a (i + 1)).map fun s => P.params (effWindow window (P.len - 1)) s) then none else x) := by
  have hs' : (solver.failing F).Feasible := by
    intro hist p w hw
    unfold Solver.failing at hw
    split at hw
    · cases hw
    · exact hs hist p w hw
  have hq' : (solver.failing F).Quiet := by
    intro hist e
    unfold Solver.failing
    split
    · simp
    · exact hq hist e
  have h1 := (solve_run_request h hlen hs window hreq).1
  have h2 := (solve_run_request h hlen hs' window hreq).1
  set W := effWindow window (P.len - 1)
  by_cases hg : ∀ t, a ≤ t → t < b → (P.gram W t).PosDef
  · rw [run_quiet hq h1 hg, run_quiet hq' h2 hg]
    refine ⟨rfl, by simp, ?_⟩
    intro i x hx
    simp only [List.getElem?_map, Option.map_eq_some_iff] at hx ⊢
    obtain ⟨t, ht, hitem⟩ := hx
    refine ⟨t, ht, ?_⟩
    obtain ⟨hlt, ht'⟩ := List.getElem?_eq_some_iff.mp ht
    simp only [List.getElem_range', Nat.one_mul] at ht'
    subst ht'
    rw [← hitem]
    unfold Panel.item Panel.outcome Solver.failing
    rw [show a + i + 1 - a = i + 1 by omega]
    by_cases hF : F ((List.range' a (i + 1)).map fun s => P.params W s)
    · rw [if_pos hF, if_pos hF]
    · rw [if_neg hF, if_neg hF]
  · push Not at hg
    have key : ∀ {sol : Solver n K} {tr}, P.Run sol W a b tr → tr = ⟨[], some .linAlgError⟩ := by
      intro sol tr hr
      rcases hr with ⟨_, h0⟩ | ⟨hall, _⟩
      · exact h0
      · obtain ⟨t, h3, h4, h5⟩ := hg; exact absurd (hall t h3 h4) h5
    rw [key h1, key h2]
    exact ⟨rfl, rfl, by simp⟩

/-- C36 in the demo: a failure of the first of two solves. -/
example : ((Demo.panel.comb Demo.returns).solve ((exactSolver 2 2).failing fun hist => hist.length = 1) (some 2) none).items
    = [none, some (Demo.panel.predict 3 (Demo.panel.best 2 3))] := by
  have hc := C36_failure_isolated Demo.panel_gives (by show 2 ≤ 4; norm_num) (exactSolver 2 2) exactSolver_exact.feasible
    exactSolver_quiet (fun hist => hist.length = 1) (some 2) none _ _ .all
  rw [Demo.panel_solve] at hc
  obtain ⟨_, hl, hi⟩ := hc
  apply List.ext_getElem?
  intro i
  rcases i with _ | _ | i
  · rw [hi 0 _ rfl]; simp
  · rw [hi 1 _ rfl]; simp
  · rw [List.getElem?_eq_none (by rw [hl]; simp), List.getElem?_eq_none (by simp)]

/-! ### C37 -/

/-- **C37.** If the Gram matrix of one of the windows to be solved is not positive definite, `solve` raises
`LinAlgError` before the first item, also for the times with regular windows. -/
theorem C37_degenerate_aborts {P : Panel τ n K} {returns : Dict τ (Vec n)} {c : Comb τ n K} (h : P.Gives returns c)
    (hlen : 2 ≤ P.len) (solver : Solver n K) (hs : solver.Feasible) (window : Option ℕ) (times : Option (List τ))
    (a b : ℕ) (hreq : P.Request (effWindow window (P.len - 1)) times a b)
    (hdeg : ∃ t, a ≤ t ∧ t < b ∧ ¬ (P.gram (effWindow window (P.len - 1)) t).PosDef) :
    c.solve solver window times = ⟨[], some .linAlgError⟩ := by
  rcases (solve_run_request h hlen hs window hreq).1 with ⟨_, h0⟩ | ⟨hall, _⟩
  · exact h0
  · obtain ⟨t, h3, h4, h5⟩ := hdeg; exact absurd (hall t h3 h4) h5

theorem not_posDef_of_kernel {M : Mat K} {w : Vec K} (hw : w ≠ 0) (h : w ⬝ᵥ (M *ᵥ w) = 0) : ¬ M.PosDef := by
  intro hM
  have := hM.dotProduct_mulVec_pos hw
  rw [star_trivial, h] at this
  exact lt_irrefl _ this

/-- **C37**, two identical experts: if experts `k ≠ j` predict the same throughout one of the windows, `solve` raises
`LinAlgError`. -/
theorem C37_identical_experts {P : Panel τ n K} {returns : Dict τ (Vec n)} {c : Comb τ n K} (h : P.Gives returns c)
    (hlen : 2 ≤ P.len) (solver : Solver n K) (hs : solver.Feasible) (window : Option ℕ) (times : Option (List τ))
    (a b : ℕ) (hreq : P.Request (effWindow window (P.len - 1)) times a b) (k j : Fin K) (hkj : k ≠ j) (t : ℕ)
    (hat : a ≤ t) (htb : t < b)
    (hsame : ∀ s, t - effWindow window (P.len - 1) < s → s ≤ t →
      P.cov (s - 1) k = P.cov (s - 1) j ∧ P.mean (s - 1) k = P.mean (s - 1) j) :
    c.solve solver window times = ⟨[], some .linAlgError⟩ := by
  apply C37_degenerate_aborts h hlen solver hs window times a b hreq
  refine ⟨t, hat, htb, ?_⟩
  apply not_posDef_of_kernel (w := Pi.single k 1 - Pi.single j 1)
  · intro h0
    have := congrFun h0 k
    simp [hkj] at this
  · rw [quad_gram]
    apply Finset.sum_eq_zero
    intro s hs'
    rw [Finset.mem_Ioc] at hs'
    obtain ⟨h1, h2⟩ := hsame s hs'.1 hs'.2
    have : P.scores s *ᵥ (Pi.single k 1 - Pi.single j 1) = 0 := by
      rw [Matrix.mulVec_sub, Matrix.mulVec_single_one, Matrix.mulVec_single_one]
      funext i
      simp only [Panel.scores, Pi.sub_apply, Pi.zero_apply]
      show (_ - _ : ℝ) = 0
      simp only [Matrix.col_apply, Matrix.of_apply, h1, h2, sub_self]
    rw [this, dotProduct_zero]

/-- **C37**, too many experts: with more experts than `window * assets`, `solve` raises `LinAlgError` as soon as one
position is to be solved. -/
theorem C37_too_many_experts {P : Panel τ n K} {returns : Dict τ (Vec n)} {c : Comb τ n K} (h : P.Gives returns c)
    (hlen : 2 ≤ P.len) (solver : Solver n K) (hs : solver.Feasible) (window : Option ℕ) (times : Option (List τ))
    (a b : ℕ) (hreq : P.Request (effWindow window (P.len - 1)) times a b) (hab : a < b)
    (hK : effWindow window (P.len - 1) * n < K) :
    c.solve solver window times = ⟨[], some .linAlgError⟩ := by
  apply C37_degenerate_aborts h hlen solver hs window times a b hreq
  have hWa := (solve_run_request h hlen hs window hreq).2.1
  refine ⟨a, le_rfl, hab, ?_⟩
  set W := effWindow window (P.len - 1)
  let f : Vec K →ₗ[ℝ] (Fin W → Fin n → ℝ) := LinearMap.pi fun i => (P.scores (a - W + 1 + i)).mulVecLin
  have hrank : Module.finrank ℝ (Fin W → Fin n → ℝ) < Module.finrank ℝ (Vec K) := by
    rw [Module.finrank_pi_fintype]
    simp
    exact hK
  have hker : LinearMap.ker f ≠ ⊥ := LinearMap.ker_ne_bot_of_finrank_lt hrank
  obtain ⟨w, hw, hw0⟩ := (Submodule.ne_bot_iff _).mp hker
  apply not_posDef_of_kernel hw0
  rw [quad_gram]
  apply Finset.sum_eq_zero
  intro s hs'
  rw [Finset.mem_Ioc] at hs'
  have hfw : f w = 0 := hw
  have := congrFun hfw ⟨s - (a - W + 1), by omega⟩
  simp only [f, LinearMap.pi_apply, Matrix.mulVecLin_apply] at this
  rw [show a - W + 1 + (s - (a - W + 1)) = s by omega] at this
  rw [this]
  simp

/-- C37: the demo panel with the first expert twice. -/
example : ∃ (P : Panel ℕ 2 2) (c : Comb ℕ 2 2), P.Gives Demo.returns c ∧
    c.solve (exactSolver 2 2) (some 2) none = ⟨[], some .linAlgError⟩ := by
  let P : Panel ℕ 2 2 := { Demo.panel with cov := fun _ _ => 1, mean := fun _ _ => 0 }
  have hP : P.Ok := ⟨Demo.panel_ok.time_lt, fun t _ k => Matrix.PosDef.one⟩
  have hG : P.Gives Demo.returns (P.comb Demo.returns) :=
    ⟨hP, Demo.panel_covered, by norm_num, Or.inl (fromSigmas_panel hP (by norm_num) _)⟩
  exact ⟨P, _, hG, C37_identical_experts hG (by show 2 ≤ 4; norm_num) _ exactSolver_exact.feasible (some 2) none _ _ .all
    0 1 (by norm_num) 3 (by show 2 ≤ 3; norm_num) (by show 3 < 4; norm_num) fun _ _ _ => ⟨rfl, rfl⟩⟩

/-- C23_no_failure is met there: the same `LinAlgError` with every solver. -/
example : ∃ (P : Panel ℕ 2 2) (c : Comb ℕ 2 2), P.Gives Demo.returns c ∧
    ∀ solver, c.solve solver (some 2) none = ⟨[], some .linAlgError⟩ := by
  let P : Panel ℕ 2 2 := { Demo.panel with cov := fun _ _ => 1, mean := fun _ _ => 0 }
  have hP : P.Ok := ⟨Demo.panel_ok.time_lt, fun t _ k => Matrix.PosDef.one⟩
  have hf := fromSigmas_panel hP (by norm_num) Demo.returns
  have hG : P.Gives Demo.returns (P.comb Demo.returns) := ⟨hP, Demo.panel_covered, by norm_num, Or.inl hf⟩
  refine ⟨P, _, hG, C23_no_failure hf (exactSolver 2 2) exactSolver_exact.feasible (fun hist h => ?_) (some 2) none ?_⟩
  · unfold exactSolver at h
    split at h
    · cases h
    · split at h <;> cases h
  · rw [C37_identical_experts hG (by show 2 ≤ 4; norm_num) _ exactSolver_exact.feasible (some 2) none _ _ .all
      0 1 (by norm_num) 3 (by show 2 ≤ 3; norm_num) (by show 3 < 4; norm_num) fun _ _ _ => ⟨rfl, rfl⟩]

end CovPred
