import Verif.Lemmas.FactorModel

/-
`construct_factor_covariance` on increasing labels.
-/
set_option linter.unusedSectionVars false
namespace CovPred
open Matrix XR

variable {τ : Type} [LinearOrder τ] {n k : ℕ} {L : Type} [DecidableEq L]

/-- the weights the solver returns at position `t` (0 if it does not return weights) -/
noncomputable def Panel.weightsAt {K : ℕ} (P : Panel τ n K) (solver : Solver n K) (W a t : ℕ) : Vec K :=
  match P.outcome solver W a t with
  | .weights w => w
  | _ => 0

/-- The run over the whole panel with window `W` succeeds: the experts are valid, the window Gram matrices are positive
definite and the solver always returns weights. -/
structure Panel.Completes {K : ℕ} (P : Panel τ n K) (solver : Solver n K) (W : ℕ) : Prop where
  ok : P.Ok
  gram : ∀ t, W ≤ t → t < P.len → (P.gram W t).PosDef
  solved : ∀ t, W ≤ t → t < P.len → ∃ w, P.outcome solver W W t = .weights w

/-- the number of experts -/
abbrev nExperts (label : XR × XR → L) (pairs : List (ℝ × ℝ)) : ℕ := (expertPairs label (pairs.map xr)).length

theorem expertPairs_pos (label : XR × XR → L) (p0 : ℝ × ℝ) (ps : List (ℝ × ℝ)) : 0 < nExperts label (p0 :: ps) := by
  have h := (dictOf_keys (((p0 :: ps).map xr).map fun q => (label q, q))).2.1
  have : label (xr p0) ∈ (expertPairs label ((p0 :: ps).map xr)).map Prod.fst := by
    unfold expertPairs
    rw [h]; simp
  have := List.length_pos_of_mem this
  rwa [List.length_map] at this

open Classical in
theorem finiteCovs_map {A : Type} (l : List A) (g : A → τ × Arr (Fin k × Fin k) XR) :
    finiteCovs (l.map g) = if ∀ a ∈ l, allFinite (g a).2.get
      then .ok (l.map fun a => ((g a).1, Matrix.of fun i j => ((g a).2 (i, j)).toReal)) else .error .linAlgError := by
  unfold finiteCovs
  induction l with
  | nil => rfl
  | cons a l ih =>
    rw [List.map_cons, List.mapM_cons, ih]
    by_cases ha : allFinite (g a).2.get
    · have e : finiteCov (g a).2 = .ok (Matrix.of fun i j => ((g a).2 (i, j)).toReal) := by
        unfold finiteCov; rw [if_pos ha]
      rw [e]
      by_cases hl : ∀ b ∈ l, allFinite (g b).2.get
      · rw [if_pos hl, if_pos (by intro b hb; rcases List.mem_cons.mp hb with rfl | hb; exacts [ha, hl b hb])]
        rfl
      · rw [if_neg hl, if_neg fun h => hl fun b hb => h b (List.mem_cons_of_mem _ hb)]
        rfl
    · have e : finiteCov (g a).2 = .error .linAlgError := by
        unfold finiteCov; rw [if_neg ha]
      have h2 : ¬ ∀ b ∈ a :: l, allFinite (g b).2.get := fun h => ha (h a List.mem_cons_self)
      rw [e, if_neg h2]
      rfl

theorem map_range_shift {A : Type} (a m : ℕ) (g : ℕ → A) : (List.range' a m).map g = (List.range m).map fun j => g (a + j) := by
  rw [List.range'_eq_map_range, List.map_map]; rfl

/-- lines 41-44 -/
theorem factor_sigmas (label : XR × XR → L) {f : ℕ → Vec k} {N s0 : ℕ} {tm : ℕ → τ} {p0 : ℝ × ℝ} {ps : List (ℝ × ℝ)}
    (hfin : FiniteExperts label (p0 :: ps) f s0 N) :
    ∃ S : Fin (nExperts label (p0 :: ps)) → Dict τ (Mat k),
      (finM fun i => finiteCovs (iewmaRows tm f N s0 (expertPairs label ((p0 :: ps).map xr))[i].2)) = .ok S ∧
      (fun i => if (expertPairs label ((p0 :: ps).map xr))[i].1 = label (xr p0) then addToDiagonal (S i) 0.05 else S i)
        = (factorPanel label (p0 :: ps) tm f s0 N).sigmas := by
  refine ⟨fun i => (List.range' s0 (N - s0)).map fun s => (tm s, factorIewma (expertPair label (p0 :: ps) i) f s), ?_, ?_⟩
  · apply finM_ok
    intro i
    unfold iewmaRows
    rw [finiteCovs_map, if_pos]
    · rfl
    · intro s hs
      rw [List.mem_range'_1] at hs
      exact hfin i s hs.1 (by omega)
  · funext i
    have e0 : (factorPanel label (p0 :: ps) tm f s0 N).sigmas i
        = (List.range' s0 (N - s0)).map fun s => (tm s, expertCov label (p0 :: ps) f s i) := by
      rw [map_range_shift]; rfl
    rw [e0]
    have hex : (∃ p rest, p0 :: ps = p :: rest ∧
      (expertPairs label ((p0 :: ps).map fun p => (XR.fin p.1, XR.fin p.2)))[i].1 = label (XR.fin p.1, XR.fin p.2))
        ↔ (expertPairs label ((p0 :: ps).map xr))[i].1 = label (xr p0) := by
      constructor
      · rintro ⟨p, rest, h1, h2⟩
        cases h1
        exact h2
      · intro h
        exact ⟨p0, ps, rfl, h⟩
    by_cases h : (expertPairs label ((p0 :: ps).map xr))[i].1 = label (xr p0)
    · rw [if_pos h]
      unfold addToDiagonal
      rw [List.map_map]
      apply List.map_congr_left
      intro s _
      simp only [Function.comp]
      unfold expertCov
      rw [if_pos (hex.mpr h)]
      congr 1
      ext a b
      by_cases hab : a = b
      · subst hab
        simp; ring
      · simp [hab]
    · rw [if_neg h]
      apply List.map_congr_left
      intro s _
      unfold expertCov
      rw [if_neg fun h' => h (hex.mp h')]

theorem expertCov_symm (label : XR × XR → L) (pairs : List (ℝ × ℝ)) (f : ℕ → Vec k) (s : ℕ) (i) :
    (expertCov label pairs f s i)ᵀ = expertCov label pairs f s i := by
  have h : ∀ q : ℝ × ℝ, (factorIewma q f s)ᵀ = factorIewma q f s := fun q => realCov_symm _ _ _ _ _
  unfold expertCov
  dsimp only
  split
  · ext a b
    have := congrFun (congrFun (h (expertPair label pairs i)) a) b
    simp only [Matrix.transpose_apply, Matrix.of_apply] at this ⊢
    by_cases hab : a = b
    · subst hab; rfl
    · rw [if_neg hab, if_neg (Ne.symm hab), this]
  · exact h _

/-- line 45: the outcome of `from_sigmas(...).solve(window=10)` -/
theorem solve_completes {K : ℕ} (hK : 0 < K) {P : Panel τ k K} (hm : ∀ t i, P.mean t i = 0) (hP : P.Ok)
    {returns : Dict τ (Vec k)} (hcov : P.Covered returns) (hlen : 11 ≤ P.len) {solver : Solver k K} (hs : solver.Feasible)
    (d : Dict τ (Mat k)) :
    (do let comb ← fromSigmas P.sigmas returns none
        listDict (comb.solve solver (some 10) none)) = .ok d ↔
      P.Completes solver 10 ∧
      d = (List.range' 10 (P.len - 10)).map fun t => (P.time t, blendCov (P.cov t) (P.weightsAt solver 10 10 t)) := by
  rw [bind_listDict_ok_iff]
  obtain ⟨c, hc⟩ : ∃ c, fromSigmas P.sigmas returns none = .ok c := ⟨_, fromSigmas_panel_none hP hK returns⟩
  have hG : P.Gives returns c := ⟨hP, hcov, hK, Or.inr ⟨hm, hc⟩⟩
  have hrun := solve_run_none hG (by omega) hs (some 10)
  have hW : effWindow (some 10) (P.len - 1) = 10 := by unfold effWindow; simp; omega
  rw [hW] at hrun
  rw [hc, ok_bind]
  have hnodup : ((List.range' 10 (P.len - 10)).map fun t =>
      (P.time t, blendCov (P.cov t) (P.weightsAt solver 10 10 t))).map Prod.fst |>.Nodup := by
    rw [List.map_map]
    apply List.Nodup.map_on
    · intro s hs t ht e
      rw [List.mem_range'_1] at hs ht
      exact time_inj hP (by omega) (by omega) e
    · exact List.nodup_range'
  rcases hrun with ⟨⟨t, h1, h2, h3⟩, htr⟩ | ⟨hg, m, hitems, hnr, hend⟩
  · rw [htr]
    constructor
    · intro h; cases h
    · rintro ⟨h, _⟩; exact absurd (h.gram t h1 h2) h3
  · rcases hend with ⟨rfl, herr⟩ | ⟨hlt, e, herr, hout⟩
    · unfold resultDict
      rw [herr, hitems]
      by_cases hsol : ∀ t, 10 ≤ t → t < P.len → ∃ w, P.outcome solver 10 10 t = .weights w
      · have e1 : ((List.range' 10 (P.len - 10)).map (P.item solver 10 10)).mapM timeAndCov
            = .ok ((List.range' 10 (P.len - 10)).map fun t => (P.time t, blendCov (P.cov t) (P.weightsAt solver 10 10 t))) := by
          rw [List.mapM_map]
          apply mapM_ok_of
          intro t ht
          rw [List.mem_range'_1] at ht
          obtain ⟨w, hw⟩ := hsol t ht.1 (by omega)
          simp only [Function.comp, Panel.item, Panel.weightsAt, hw, Panel.predict, timeAndCov]
        rw [e1]
        dsimp only
        rw [dictOf_nodup _ hnodup]
        constructor
        · intro h
          exact ⟨⟨hP, hg, hsol⟩, (Except.ok.inj h).symm⟩
        · rintro ⟨_, rfl⟩; rfl
      · constructor
        · intro h
          exfalso
          apply hsol
          intro t h1 h2
          rcases hm : ((List.range' 10 (P.len - 10)).map (P.item solver 10 10)).mapM timeAndCov with e | items
          · rw [hm] at h; cases h
          · rw [mapM_ok_iff_forall₂] at hm
            obtain ⟨r, _, hr⟩ := forall₂_mem_left hm (List.mem_map.mpr ⟨t, by rw [List.mem_range'_1]; omega, rfl⟩)
            unfold Panel.item at hr
            rcases ho : P.outcome solver 10 10 t with w | _ | e
            · exact ⟨w, rfl⟩
            · rw [ho] at hr; cases hr
            · rw [ho] at hr; cases hr
        · rintro ⟨h, _⟩; exact absurd h.solved hsol
    · unfold resultDict
      rw [herr]
      constructor
      · intro h
        rcases hm : (c.solve solver _).items.mapM timeAndCov with e' | items <;> rw [hm] at h <;> cases h
      · rintro ⟨h, _⟩
        obtain ⟨w, hw⟩ := h.solved (10 + m) (by omega) (by omega)
        rw [hw] at hout; cases hout

/-- The run of `construct_factor_covariance`. -/
theorem construct_ok_iff (hk : 0 < k) (label : XR × XR → L) (solvers : Solvers k) (hsolv : ∀ K, (solvers K).Feasible)
    {f : ℕ → Vec k} (hf : Awake f) {N s0 : ℕ} {tm : ℕ → τ} (htm : Increasing N tm) (hs0 : 3 * k - 2 ≤ s0) (hN : s0 + 10 < N)
    {p0 : ℝ × ℝ} {ps : List (ℝ × ℝ)} (hp : PosPairs (p0 :: ps)) (d : Dict τ (Mat k)) :
    constructFactorCovariance label solvers (rowDict N tm f) ((p0 :: ps).map xr) (tm s0) = .ok d ↔
      FiniteExperts label (p0 :: ps) f s0 N ∧
      (factorPanel label (p0 :: ps) tm f s0 N).Completes (solvers _) 10 ∧
      d = (List.range' (s0 + 10) (N - (s0 + 10))).map fun s => (tm s, blendCov (expertCov label (p0 :: ps) f s)
        ((factorPanel label (p0 :: ps) tm f s0 N).weightsAt (solvers _) 10 10 (s - s0))) := by
  rw [construct_eq_tail hk label solvers hf htm hs0 (by omega) hp]
  by_cases hfin : FiniteExperts label (p0 :: ps) f s0 N
  · obtain ⟨S, hS1, hS2⟩ := factor_sigmas (tm := tm) label hfin
    have hPtime : ∀ s t, s < t → t < (factorPanel label (p0 :: ps) tm f s0 N).len →
        (factorPanel label (p0 :: ps) tm f s0 N).time s < (factorPanel label (p0 :: ps) tm f s0 N).time t := by
      intro s t hst ht
      exact htm _ _ (by omega) (by simp only [factorPanel] at ht; omega)
    unfold factorTail
    rw [hS1, ok_bind]
    dsimp only
    rw [hS2]
    have hd : ((List.range' (s0 + 10) (N - (s0 + 10))).map fun s => (tm s, blendCov (expertCov label (p0 :: ps) f s)
        ((factorPanel label (p0 :: ps) tm f s0 N).weightsAt (solvers _) 10 10 (s - s0))))
        = (List.range' 10 ((factorPanel label (p0 :: ps) tm f s0 N).len - 10)).map fun t =>
          ((factorPanel label (p0 :: ps) tm f s0 N).time t, blendCov ((factorPanel label (p0 :: ps) tm f s0 N).cov t)
            ((factorPanel label (p0 :: ps) tm f s0 N).weightsAt (solvers _) 10 10 t)) := by
      rw [map_range_shift, map_range_shift, show N - (s0 + 10) = (factorPanel label (p0 :: ps) tm f s0 N).len - 10 by
        simp only [factorPanel]; omega]
      apply List.map_congr_left
      intro j _
      simp only [factorPanel, show s0 + 10 + j - s0 = 10 + j by omega, show s0 + (10 + j) = s0 + 10 + j by omega]
    rw [hd]
    by_cases hok : (factorPanel label (p0 :: ps) tm f s0 N).Ok
    · rw [solve_completes (expertPairs_pos label p0 ps) (fun _ _ => rfl) hok (returns := rowDict N tm f) ?_
        (by simp only [factorPanel]; omega) (hsolv _)]
      · simp only [hfin, true_and]
      · intro t _ ht
        simp only [factorPanel] at ht ⊢
        exact lookup_map_range (fun s t h1 h2 => htm s t h1 h2) _ _ (by omega)
    · constructor
      · intro h
        exfalso
        apply hok
        rcases hc : fromSigmas (factorPanel label (p0 :: ps) tm f s0 N).sigmas (rowDict N tm f) none with e | c
        · rw [hc] at h; cases h
        · have hus := (C38_constructor_ok _ _ _).mp ⟨c, hc⟩
          refine ⟨hPtime, fun t ht i => ?_⟩
          refine (C38_usable_iff _ (expertCov_symm label _ f _ i)).mp (hus.2.1 i _ (List.mem_map.mpr ⟨t, List.mem_range.mpr ht, rfl⟩))
      · rintro ⟨_, h, _⟩; exact absurd h.ok hok
  · constructor
    · intro h
      exfalso
      apply hfin
      unfold factorTail at h
      rcases hS : finM fun i => finiteCovs (iewmaRows tm f N s0 (expertPairs label ((p0 :: ps).map xr))[i].2) with e | S
      · rw [hS] at h; cases h
      · rw [finM_ok_iff] at hS
        intro i s h1 h2
        have := hS i
        unfold iewmaRows at this
        rw [finiteCovs_map] at this
        split at this
        · next hall => exact hall s (by rw [List.mem_range'_1]; omega)
        · cases this
    · rintro ⟨h, _⟩; exact absurd h hfin

end CovPred
