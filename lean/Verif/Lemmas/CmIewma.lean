import Verif.Model.CmIewma
import Verif.Spec.CmIewma
import Verif.Lemmas.FactorModel5

/-
Lemmas for the CM-IEWMA cell of the notebooks.
-/
set_option linter.unusedSectionVars false
namespace CovPred
open Matrix XR

variable {τ : Type} [LinearOrder τ] {n : ℕ} {L : Type} [DecidableEq L]

theorem cmArgs_valid {mv mc : ℕ} {p : ℝ × ℝ} (h : 0 < p.1 ∧ 0 < p.2) : (cmArgs mv mc p).Valid :=
  ⟨h.1, h.2, (by intro h hh; cases hh), (by intro h hh; cases hh)⟩

theorem live_cm {mv mc : ℕ} {p : ℝ × ℝ} (hp : 0 < p.1 ∧ 0 < p.2) {x : ℕ → Vec n} (hx : ∃ s < mv, x s ≠ 0) (N : ℕ) :
    live (cmArgs mv mc p) N x = List.range' (mv - 1) (N - (mv - 1)) := by
  obtain ⟨s, hs, hne⟩ := hx
  obtain ⟨i, hi⟩ := Function.ne_iff.mp hne
  have hc : cRet (cmArgs mv mc p) x s i ≠ 0 := by
    simpa [cRet, muOf, cmArgs] using hi
  rw [live_active (cmArgs_valid hp) (i := i) (k := s) (Or.inl (by simp only [cmArgs]; omega)) hc, rowsFrom_eq_drop]
  rw [List.range_eq_range', drop_range']
  simp [cmArgs]

theorem live_cm_getD {mv mc : ℕ} {p : ℝ × ℝ} (hp : 0 < p.1 ∧ 0 < p.2) {x : ℕ → Vec n} (hx : ∃ s < mv, x s ≠ 0) {N j : ℕ}
    (h : j < N - (mv - 1)) : (live (cmArgs mv mc p) N x).getD j 0 = mv - 1 + j := by
  rw [live_cm hp hx, getD_lt (by simpa using h)]
  simp

/-- The results of an expert. -/
theorem iterated_cm (hn : 0 < n) {mv mc : ℕ} (hmv : 0 < mv) (hmc : 0 < mc) {p : ℝ × ℝ} (hp : 0 < p.1 ∧ 0 < p.2)
    {x : ℕ → Vec n} (hx : ∃ s < mv, x s ≠ 0) {N : ℕ} {tm : ℕ → τ} (htm : Increasing N tm) (hN : mv ≤ N) :
    iteratedEwma (finFrame N tm x) (cmArgs mv mc p).toArgs
      = .ok ((List.range' (mv + mc - 2) (N - (mv + mc - 2))).map fun s =>
          itemAt (cmArgs mv mc p) (s + 1) tm x (s + 1 - mv)) := by
  have : Nonempty (Fin n) := ⟨⟨0, hn⟩⟩
  rw [iteratedEwma_fin (cmArgs_valid hp) (distinct_of_increasing htm) x, if_neg]
  · congr 1
    rw [live_cm hp hx, rowsFrom_eq_drop, List.length_range', List.range_eq_range', drop_range']
    apply List.ext_getElem
    · simp [cmArgs]; omega
    · intro i h1 h2
      simp only [List.getElem_map, List.getElem_range', one_mul, List.length_map, List.length_range'] at h1 h2 ⊢
      have e : 0 + ((cmArgs mv mc p).minPeriodsCov - 1).toNat + i = mv + mc - 2 + i + 1 - mv := by simp [cmArgs]; omega
      rw [e]
      apply itemAt_congr rfl
      intro j hj
      rw [live_cm_getD hp hx (by omega), live_cm_getD hp hx (by omega)]
  · rw [live_cm hp hx]
    intro h
    have := congrArg List.length h
    simp at this
    omega

/-- generative_mode.ipynb:246-254 for `K` experts -/
noncomputable def cmTail (solvers : Solvers n) (returns : Dict τ (Vec n)) (fast : L) (lamda : ℝ) (window K : ℕ)
    (lab : Fin K → L) (dict : Fin K → Dict τ (Arr (Fin n × Fin n) XR)) : Except Err (Dict τ (Mat n)) := do
  let sigmas ← finM fun i => finiteCovs (dict i)
  let sigmas := fun i : Fin K => if lab i = fast then addToDiagonal (sigmas i) lamda else sigmas i
  let comb ← fromSigmas sigmas returns none
  listDict (comb.solve (solvers K) (some window) none)

theorem cmTail_cast (solvers : Solvers n) (returns : Dict τ (Vec n)) (fast : L) (lamda : ℝ) (window : ℕ) {K K' : ℕ}
    (h : K = K') {lab : Fin K → L} {lab' : Fin K' → L} {dict : Fin K → Dict τ (Arr (Fin n × Fin n) XR)}
    {dict' : Fin K' → Dict τ (Arr (Fin n × Fin n) XR)} (h1 : ∀ i, lab i = lab' (Fin.cast h i))
    (h2 : ∀ i, dict i = dict' (Fin.cast h i)) :
    cmTail solvers returns fast lamda window K lab dict = cmTail solvers returns fast lamda window K' lab' dict' := by
  subst h
  have e1 : lab = lab' := funext fun i => h1 i
  have e2 : dict = dict' := funext fun i => h2 i
  rw [e1, e2]

theorem cmTail_list {Q : Type} (solvers : Solvers n) (returns : Dict τ (Vec n)) (fast : L) (lamda : ℝ) (window : ℕ)
    (X : List (L × Dict τ (Arr (Fin n × Fin n) XR))) (E : List (L × Q)) (g : Q → Dict τ (Arr (Fin n × Fin n) XR))
    (h : X = E.map fun q => (q.1, g q.2)) :
    cmTail solvers returns fast lamda window (X.map Prod.fst).length (fun i => (X.map Prod.fst)[i.1])
        (fun i => (X[i.1]?.map Prod.snd).getD [])
      = cmTail solvers returns fast lamda window E.length (fun i => E[i].1) (fun i => g E[i].2) := by
  subst h
  apply cmTail_cast
  · intro i
    simp
  · intro i
    have hi : i.1 < E.length := by simpa using i.2
    rw [List.getElem?_map, List.getElem?_eq_getElem hi]
    rfl
  · simp

/-- the covariances of the expert `q` -/
noncomputable def cmRows (mv mc : ℕ) (tm : ℕ → τ) (x : ℕ → Vec n) (N : ℕ) (q : XR × XR) :
    Dict τ (Arr (Fin n × Fin n) XR) :=
  (List.range' (mv + mc - 2) (N - (mv + mc - 2))).map fun s =>
    (tm s, (itemAt (cmArgs mv mc (unPair q)) (s + 1) tm x (s + 1 - mv)).covariance)

theorem cmDict_ok (hn : 0 < n) (label : XR × XR → L) {mv mc : ℕ} (hmv : 0 < mv) (hmc : 0 < mc) {x : ℕ → Vec n}
    (hx : ∃ s < mv, x s ≠ 0) {N : ℕ} {tm : ℕ → τ} (htm : Increasing N tm) (hN : mv ≤ N) {p : ℝ × ℝ} (hp : 0 < p.1 ∧ 0 < p.2) :
    cmDict label mv mc (finFrame N tm x) (xr p) = .ok (label (xr p), cmRows mv mc tm x N (xr p)) := by
  unfold cmDict
  rw [show ({ volaHalflife := (xr p).1, covHalflife := (xr p).2, minPeriodsVola := mv, minPeriodsCov := mc } : IewmaArgs XR)
      = (cmArgs mv mc p).toArgs from rfl, iterated_cm hn hmv hmc hp hx htm hN]
  show Except.ok _ = Except.ok _
  congr 2
  have e : ((List.range' (mv + mc - 2) (N - (mv + mc - 2))).map fun s =>
      itemAt (cmArgs mv mc p) (s + 1) tm x (s + 1 - mv)).map
      (fun r => (r.time, r.covariance)) = cmRows mv mc tm x N (xr p) := by
    rw [List.map_map, cmRows]
    apply List.map_congr_left
    intro s hs
    rw [List.mem_range'_1] at hs
    simp only [Function.comp]
    have e1 : (itemAt (cmArgs mv mc p) (s + 1) tm x (s + 1 - mv)).time = tm s := by
      show tm _ = tm s
      rw [live_cm_getD hp hx (by omega)]
      congr 1; omega
    rw [e1]
    rfl
  rw [e, dictOf_nodup]
  rw [cmRows, List.map_map]
  apply List.Nodup.map_on
  · intro s hs t ht e
    rw [List.mem_range'_1] at hs ht
    exact distinct_of_increasing htm s t (by omega) (by omega) e
  · exact List.nodup_range'

theorem cm_of_results (label : XR × XR → L) (solvers : Solvers n) (returns : Dict τ (Vec n)) (mv mc : ℕ) (lamda : ℝ)
    (window : ℕ) (fast : XR × XR) (qs : List (XR × XR)) {results : List (L × Dict τ (Arr (Fin n × Fin n) XR))}
    (h : (fast :: qs).mapM (cmDict label mv mc (returns.map fun p => (p.1, Arr.ofFn fun i => XR.fin (p.2 i)))) = .ok results) :
    cmIewma label solvers (fast :: qs) returns mv mc lamda window
      = cmTail solvers returns (label fast) lamda window ((dictOf results).map Prod.fst).length
          (fun i => ((dictOf results).map Prod.fst)[i.1])
          (fun i => ((dictOf results)[i.1]?.map Prod.snd).getD []) := by
  unfold cmIewma
  dsimp only
  rw [h]
  rfl

theorem cm_eq_tail (hn : 0 < n) (label : XR × XR → L) (solvers : Solvers n) {mv mc : ℕ} (hmv : 0 < mv) (hmc : 0 < mc)
    (lamda : ℝ) (window : ℕ) {x : ℕ → Vec n} (hx : ∃ s < mv, x s ≠ 0) {N : ℕ}
    {tm : ℕ → τ} (htm : Increasing N tm) (hN : mv ≤ N) {p0 : ℝ × ℝ} {ps : List (ℝ × ℝ)} (hp : PosPairs (p0 :: ps)) :
    cmIewma label solvers ((p0 :: ps).map xr) (rowDict N tm x) mv mc lamda window
      = cmTail solvers (rowDict N tm x) (label (xr p0)) lamda window (expertPairs label ((p0 :: ps).map xr)).length
          (fun i => (expertPairs label ((p0 :: ps).map xr))[i].1)
          (fun i => cmRows mv mc tm x N (expertPairs label ((p0 :: ps).map xr))[i].2) := by
  have hframe : ((rowDict N tm x).map fun p : τ × Vec n => (p.1, (Arr.ofFn fun i => XR.fin (p.2 i) : Arr (Fin n) XR)))
      = finFrame N tm x := by
    unfold rowDict finFrame finRows
    rw [List.map_map]; rfl
  have hres : ((p0 :: ps).map xr).mapM (cmDict label mv mc (finFrame N tm x))
      = .ok (((p0 :: ps).map xr).map fun q => (label q, cmRows mv mc tm x N q)) := by
    apply mapM_ok_of
    intro q hq
    obtain ⟨p, hpp, rfl⟩ := List.mem_map.mp hq
    exact cmDict_ok hn label hmv hmc hx htm hN (hp p hpp)
  have hdict : dictOf (((p0 :: ps).map xr).map fun q => (label q, cmRows mv mc tm x N q))
      = (expertPairs label ((p0 :: ps).map xr)).map fun q => (q.1, cmRows mv mc tm x N q.2) := by
    unfold expertPairs
    rw [← dictOf_map, List.map_map (l := (p0 :: ps).map xr)]
    rfl
  rw [← hframe] at hres
  refine (cm_of_results label solvers (rowDict N tm x) mv mc lamda window (xr p0) (ps.map xr) hres).trans ?_
  exact cmTail_list solvers _ _ _ _ _ _ (cmRows mv mc tm x N) hdict

/-- all covariances of the experts after the warm-up are finite -/
def FiniteCmExperts (label : XR × XR → L) (pairs : List (ℝ × ℝ)) (mv mc : ℕ) (x : ℕ → Vec n) (N : ℕ) : Prop :=
  ∀ (i : Fin (nExperts label pairs)) (s : ℕ), mv + mc - 2 ≤ s → s < N →
    allFinite (itemAt (cmArgs mv mc (expertPair label pairs i)) (s + 1) (fun t : ℕ => t) x (s + 1 - mv)).covariance.get

theorem cm_sigmas (label : XR × XR → L) {mv mc : ℕ} (lamda : ℝ) {x : ℕ → Vec n} {N : ℕ} {tm : ℕ → τ} {p0 : ℝ × ℝ}
    {ps : List (ℝ × ℝ)} (hfin : FiniteCmExperts label (p0 :: ps) mv mc x N) :
    ∃ S : Fin (nExperts label (p0 :: ps)) → Dict τ (Mat n),
      (finM fun i => finiteCovs (cmRows mv mc tm x N (expertPairs label ((p0 :: ps).map xr))[i].2)) = .ok S ∧
      (fun i => if (expertPairs label ((p0 :: ps).map xr))[i].1 = label (xr p0) then addToDiagonal (S i) lamda else S i)
        = (cmPanel label (p0 :: ps) mv mc lamda tm x N).sigmas := by
  refine ⟨fun i => (List.range' (mv + mc - 2) (N - (mv + mc - 2))).map fun s =>
    (tm s, rowIewma mv mc (expertPair label (p0 :: ps) i) x s), ?_, ?_⟩
  · apply finM_ok
    intro i
    unfold cmRows
    rw [finiteCovs_map, if_pos]
    · rfl
    · intro s hs
      rw [List.mem_range'_1] at hs
      exact hfin i s hs.1 (by omega)
  · funext i
    have e0 : (cmPanel label (p0 :: ps) mv mc lamda tm x N).sigmas i
        = (List.range' (mv + mc - 2) (N - (mv + mc - 2))).map fun s => (tm s, cmExpert label (p0 :: ps) mv mc lamda x s i) := by
      rw [map_range_shift]; rfl
    rw [e0]
    have hex : (∃ p rest, p0 :: ps = p :: rest ∧
      (expertPairs label ((p0 :: ps).map fun p => (XR.fin p.1, XR.fin p.2)))[i].1 = label (XR.fin p.1, XR.fin p.2))
        ↔ (expertPairs label ((p0 :: ps).map xr))[i].1 = label (xr p0) := by
      constructor
      · rintro ⟨p, rest, h1, h2⟩
        cases h1
        exact h2
      · intro h
        exact ⟨p0, ps, rfl, h⟩
    by_cases h : (expertPairs label ((p0 :: ps).map xr))[i].1 = label (xr p0)
    · rw [if_pos h]
      unfold addToDiagonal
      rw [List.map_map]
      apply List.map_congr_left
      intro s _
      simp only [Function.comp]
      unfold cmExpert
      rw [if_pos (hex.mpr h)]
      congr 1
      ext a b
      by_cases hab : a = b
      · subst hab
        simp; ring
      · simp [hab]
    · rw [if_neg h]
      apply List.map_congr_left
      intro s _
      unfold cmExpert
      rw [if_neg fun h' => h (hex.mp h')]

theorem cmExpert_symm (label : XR × XR → L) (pairs : List (ℝ × ℝ)) (mv mc : ℕ) (lamda : ℝ) (x : ℕ → Vec n) (s : ℕ) (i) :
    (cmExpert label pairs mv mc lamda x s i)ᵀ = cmExpert label pairs mv mc lamda x s i := by
  have h : ∀ q : ℝ × ℝ, (rowIewma mv mc q x s)ᵀ = rowIewma mv mc q x s := fun q => realCov_symm _ _ _ _ _
  unfold cmExpert
  dsimp only
  split
  · ext a b
    have := congrFun (congrFun (h (expertPair label pairs i)) a) b
    simp only [Matrix.transpose_apply, Matrix.of_apply] at this ⊢
    by_cases hab : a = b
    · subst hab; rfl
    · rw [if_neg hab, if_neg (Ne.symm hab), this]
  · exact h _

/-- the outcome of `from_sigmas(...).solve(window)` -/
theorem solve_window_completes {K : ℕ} (hK : 0 < K) {P : Panel τ n K} (hm : ∀ t i, P.mean t i = 0) (hP : P.Ok)
    {returns : Dict τ (Vec n)} (hcov : P.Covered returns) (hlen : 2 ≤ P.len) {window : ℕ} (hw : 0 < window)
    {solver : Solver n K} (hs : solver.Feasible) (d : Dict τ (Mat n)) {W : ℕ} (hWdef : W = min window (P.len - 1)) :
    (do let comb ← fromSigmas P.sigmas returns none
        resultDict (comb.solve solver (some window) none)) = .ok d ↔
      P.Completes solver W ∧
      d = (List.range' W (P.len - W)).map fun t => (P.time t, blendCov (P.cov t) (P.weightsAt solver W W t)) := by
  obtain ⟨c, hc⟩ : ∃ c, fromSigmas P.sigmas returns none = .ok c := ⟨_, fromSigmas_panel_none hP hK returns⟩
  have hG : P.Gives returns c := ⟨hP, hcov, hK, Or.inr ⟨hm, hc⟩⟩
  have hrun := solve_run_none hG (by omega) hs (some window)
  have hW : effWindow (some window) (P.len - 1) = W := by
    unfold effWindow; simp only [if_neg hw.ne']; rw [hWdef]
  rw [hW] at hrun
  have hWl : W < P.len := by omega
  rw [hc, ok_bind]
  have hnodup : ((List.range' W (P.len - W)).map fun t =>
      (P.time t, blendCov (P.cov t) (P.weightsAt solver W W t))).map Prod.fst |>.Nodup := by
    rw [List.map_map]
    apply List.Nodup.map_on
    · intro s hs t ht e
      rw [List.mem_range'_1] at hs ht
      exact time_inj hP (by omega) (by omega) e
    · exact List.nodup_range'
  rcases hrun with ⟨⟨t, h1, h2, h3⟩, htr⟩ | ⟨hg, m, hitems, hnr, hend⟩
  · rw [htr]
    constructor
    · intro h; cases h
    · rintro ⟨h, _⟩; exact absurd (h.gram t h1 h2) h3
  · rcases hend with ⟨rfl, herr⟩ | ⟨hlt, e, herr, hout⟩
    · unfold resultDict
      rw [herr, hitems]
      by_cases hsol : ∀ t, W ≤ t → t < P.len → ∃ w, P.outcome solver W W t = .weights w
      · have e1 : ((List.range' W (P.len - W)).map (P.item solver W W)).mapM timeAndCov
            = .ok ((List.range' W (P.len - W)).map fun t => (P.time t, blendCov (P.cov t) (P.weightsAt solver W W t))) := by
          rw [List.mapM_map]
          apply mapM_ok_of
          intro t ht
          rw [List.mem_range'_1] at ht
          obtain ⟨w, hw⟩ := hsol t ht.1 (by omega)
          simp only [Function.comp, Panel.item, Panel.weightsAt, hw, Panel.predict, timeAndCov]
        rw [e1]
        dsimp only
        rw [dictOf_nodup _ hnodup]
        constructor
        · intro h
          exact ⟨⟨hP, hg, hsol⟩, (Except.ok.inj h).symm⟩
        · rintro ⟨_, rfl⟩; rfl
      · constructor
        · intro h
          exfalso
          apply hsol
          intro t h1 h2
          rcases hm : ((List.range' W (P.len - W)).map (P.item solver W W)).mapM timeAndCov with e | items
          · rw [hm] at h; cases h
          · rw [mapM_ok_iff_forall₂] at hm
            obtain ⟨r, _, hr⟩ := forall₂_mem_left hm (List.mem_map.mpr ⟨t, by rw [List.mem_range'_1]; omega, rfl⟩)
            unfold Panel.item at hr
            rcases ho : P.outcome solver W W t with w | _ | e
            · exact ⟨w, rfl⟩
            · rw [ho] at hr; cases hr
            · rw [ho] at hr; cases hr
        · rintro ⟨h, _⟩; exact absurd h.solved hsol
    · unfold resultDict
      rw [herr]
      constructor
      · intro h
        rcases hm : (c.solve solver _).items.mapM timeAndCov with e' | items <;> rw [hm] at h <;> cases h
      · rintro ⟨h, _⟩
        obtain ⟨w, hw⟩ := h.solved (W + m) (by omega) (by omega)
        rw [hw] at hout; cases hout

/-- the same for the list of the results -/
theorem solve_list_completes {K : ℕ} (hK : 0 < K) {P : Panel τ n K} (hm : ∀ t i, P.mean t i = 0) (hP : P.Ok)
    {returns : Dict τ (Vec n)} (hcov : P.Covered returns) (hlen : 2 ≤ P.len) {window : ℕ} (hw : 0 < window)
    {solver : Solver n K} (hs : solver.Feasible) (d : Dict τ (Mat n)) {W : ℕ} (hWdef : W = min window (P.len - 1)) :
    (do let comb ← fromSigmas P.sigmas returns none
        listDict (comb.solve solver (some window) none)) = .ok d ↔
      P.Completes solver W ∧
      d = (List.range' W (P.len - W)).map fun t => (P.time t, blendCov (P.cov t) (P.weightsAt solver W W t)) := by
  rw [bind_listDict_ok_iff]
  exact solve_window_completes hK hm hP hcov hlen hw hs d hWdef

/-- the window that is used: at most the rows after the warm-up but one -/
def cmWindow (mv mc window T : ℕ) : ℕ := min window (T - (mv + mc - 2) - 1)

theorem CmSetup.cons {solvers : Solvers n} {pairs : List (ℝ × ℝ)} {mv mc window T : ℕ} {tm : ℕ → τ} {x : ℕ → Vec n}
    (h : CmSetup solvers pairs mv mc window T tm x) : ∃ p0 ps, pairs = p0 :: ps := by
  cases hp : pairs with
  | nil => exact absurd hp h.pairs_ne
  | cons p0 ps => exact ⟨p0, ps, rfl⟩

/-- The run of the cell. -/
theorem cmIewma_ok_iff (label : XR × XR → L) {solvers : Solvers n} {pairs : List (ℝ × ℝ)} {mv mc window T : ℕ} {tm : ℕ → τ}
    {x : ℕ → Vec n} (h : CmSetup solvers pairs mv mc window T tm x) (lamda : ℝ) (d : Dict τ (Mat n)) :
    cmIewma label solvers (pairs.map xr) (rowDict T tm x) mv mc lamda window = .ok d ↔
      FiniteCmExperts label pairs mv mc x T ∧
      (cmPanel label pairs mv mc lamda tm x T).Completes (solvers _) (cmWindow mv mc window T) ∧
      d = (List.range' (mv + mc - 2 + cmWindow mv mc window T) (T - (mv + mc - 2 + cmWindow mv mc window T))).map fun s =>
        (tm s, blendCov (cmExpert label pairs mv mc lamda x s)
          ((cmPanel label pairs mv mc lamda tm x T).weightsAt (solvers _) (cmWindow mv mc window T)
            (cmWindow mv mc window T) (s - (mv + mc - 2)))) := by
  obtain ⟨p0, ps, rfl⟩ := h.cons
  have hmv := h.vola
  have hmc := h.cov
  have hrows := h.rows
  rw [cm_eq_tail h.assets label solvers hmv hmc lamda window h.awake h.labels (by omega) h.halflives]
  set W := cmWindow mv mc window T with hW
  have hlen : (cmPanel label (p0 :: ps) mv mc lamda tm x T).len = T - (mv + mc - 2) := rfl
  have hWdef : W = min window ((cmPanel label (p0 :: ps) mv mc lamda tm x T).len - 1) := rfl
  by_cases hfin : FiniteCmExperts label (p0 :: ps) mv mc x T
  · obtain ⟨S, hS1, hS2⟩ := cm_sigmas (tm := tm) label lamda hfin
    have hPtime : ∀ s t, s < t → t < (cmPanel label (p0 :: ps) mv mc lamda tm x T).len →
        (cmPanel label (p0 :: ps) mv mc lamda tm x T).time s < (cmPanel label (p0 :: ps) mv mc lamda tm x T).time t := by
      intro s t hst ht
      exact h.labels _ _ (by omega) (by simp only [cmPanel] at ht; omega)
    unfold cmTail
    rw [hS1, ok_bind]
    dsimp only
    rw [hS2]
    have hd : ((List.range' (mv + mc - 2 + W) (T - (mv + mc - 2 + W))).map fun s =>
        (tm s, blendCov (cmExpert label (p0 :: ps) mv mc lamda x s)
          ((cmPanel label (p0 :: ps) mv mc lamda tm x T).weightsAt (solvers _) W W (s - (mv + mc - 2)))))
        = (List.range' W ((cmPanel label (p0 :: ps) mv mc lamda tm x T).len - W)).map fun t =>
          ((cmPanel label (p0 :: ps) mv mc lamda tm x T).time t,
            blendCov ((cmPanel label (p0 :: ps) mv mc lamda tm x T).cov t)
              ((cmPanel label (p0 :: ps) mv mc lamda tm x T).weightsAt (solvers _) W W t)) := by
      rw [map_range_shift, map_range_shift, show T - (mv + mc - 2 + W)
        = (cmPanel label (p0 :: ps) mv mc lamda tm x T).len - W by rw [hlen]; omega]
      apply List.map_congr_left
      intro j _
      simp only [cmPanel, show mv + mc - 2 + W + j - (mv + mc - 2) = W + j by omega,
        show mv + mc - 2 + (W + j) = mv + mc - 2 + W + j by omega]
    rw [hd]
    by_cases hok : (cmPanel label (p0 :: ps) mv mc lamda tm x T).Ok
    · rw [solve_list_completes (expertPairs_pos label p0 ps) (fun _ _ => rfl) hok (returns := rowDict T tm x) ?_
        (by rw [hlen]; omega) h.window_pos (h.feasible _) d hWdef]
      · simp only [hfin, true_and]
      · intro t _ ht
        simp only [cmPanel] at ht ⊢
        exact lookup_map_range (fun s t h1 h2 => h.labels s t h1 h2) _ _ (by omega)
    · constructor
      · intro hc'
        exfalso
        apply hok
        rcases hc : fromSigmas (cmPanel label (p0 :: ps) mv mc lamda tm x T).sigmas (rowDict T tm x) none with e | c
        · rw [hc] at hc'; cases hc'
        · have hus := (C38_constructor_ok _ _ _).mp ⟨c, hc⟩
          refine ⟨hPtime, fun t ht i => ?_⟩
          refine (C38_usable_iff _ (cmExpert_symm label _ mv mc lamda x _ i)).mp
            (hus.2.1 i _ (List.mem_map.mpr ⟨t, List.mem_range.mpr ht, rfl⟩))
      · rintro ⟨_, h, _⟩; exact absurd h.ok hok
  · constructor
    · intro hc
      exfalso
      apply hfin
      unfold cmTail at hc
      rcases hS : finM fun i => finiteCovs (cmRows mv mc tm x T (expertPairs label ((p0 :: ps).map xr))[i].2) with e | S
      · rw [hS] at hc; cases hc
      · rw [finM_ok_iff] at hS
        intro i s h1 h2
        have := hS i
        unfold cmRows at this
        rw [finiteCovs_map] at this
        split at this
        · next hall => exact hall s (by rw [List.mem_range'_1]; omega)
        · cases this
    · rintro ⟨h, _⟩; exact absurd h hfin

theorem cmExpert_congr (label : XR × XR → L) (pairs : List (ℝ × ℝ)) (mv mc : ℕ) (lamda : ℝ) {x x' : ℕ → Vec n} {s : ℕ}
    (h : ∀ u ≤ s, x u = x' u) : cmExpert label pairs mv mc lamda x s = cmExpert label pairs mv mc lamda x' s := by
  have e : ∀ q, rowIewma mv mc q x s = rowIewma mv mc q x' s := fun q => by
    unfold rowIewma
    rw [itemAt_data rfl (by omega) _ fun t ht => h t (by omega)]
  funext i
  unfold cmExpert
  simp only [e]

theorem cm_weights_congr (label : XR × XR → L) (pairs : List (ℝ × ℝ)) (mv mc : ℕ) (lamda : ℝ) (solvers : Solvers n)
    {tm tm' : ℕ → τ} {x x' : ℕ → Vec n} {N N' s W : ℕ} (h : ∀ u ≤ s, x u = x' u) (hs : mv + mc - 2 + W ≤ s) :
    (cmPanel label pairs mv mc lamda tm x N).weightsAt (solvers _) W W (s - (mv + mc - 2))
      = (cmPanel label pairs mv mc lamda tm' x' N').weightsAt (solvers _) W W (s - (mv + mc - 2)) := by
  unfold Panel.weightsAt
  have : (cmPanel label pairs mv mc lamda tm x N).outcome (solvers _) W W (s - (mv + mc - 2))
      = (cmPanel label pairs mv mc lamda tm' x' N').outcome (solvers _) W W (s - (mv + mc - 2)) := by
    unfold Panel.outcome
    congr 1
    apply List.map_congr_left
    intro u hu
    rw [List.mem_range'_1] at hu
    apply params_congr (by omega)
    · intro v _ hv
      exact cmExpert_congr label pairs mv mc lamda fun w hw => h w (by omega)
    · intro v _ _; rfl
    · intro v h1 hv
      exact h _ (by omega)
  rw [this]

end CovPred
