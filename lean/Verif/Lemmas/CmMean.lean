import Verif.Spec.CmMean
import Verif.Lemmas.MeanRun
import Verif.Lemmas.Align

/-
Lemmas for CM-IEWMA with means.
-/
set_option linter.unusedSectionVars false
namespace CovPred
open Matrix XR

variable {τ : Type} [LinearOrder τ] {n K : ℕ}

/-! ### The iterated EWMA with means -/

/-- The `j`-th item depends on the rows up to the `j`-th live row only. -/
theorem itemAt_prefix {ι : Type} [Ix ι] {a : RealArgs} {T T' : ℕ} (tm : ℕ → τ) (x : ℕ → ι → ℝ) {j : ℕ}
    (h : ∀ i ≤ j, (live a T x).getD i 0 = (live a T' x).getD i 0) : itemAt a T tm x j = itemAt a T' tm x j := by
  have hadj : ∀ i ≤ j, adjAt a T x i = adjAt a T' x i := fun i hi => by
    funext c; unfold adjAt; rw [h i hi]
  have hmu : ∀ i ≤ j, muOf a.mean a.mu2h (adjAt a T x) i = muOf a.mean a.mu2h (adjAt a T' x) i := fun i hi => by
    funext c
    unfold muOf
    split
    · rw [halflifeAverage_eq, halflifeAverage_eq]
      exact emaAvg_congr fun l hl => by rw [hadj l (by omega)]
    · rfl
  have hz : ∀ i ≤ j, zAt a T x i = zAt a T' x i := fun i hi => by
    funext c; unfold zAt; rw [hadj i hi, hmu i hi]
  have hcov : ∀ p, covAt a T x j p = covAt a T' x j p := fun p => by
    unfold covAt halflifeAverage
    congr 1
    apply Finset.sum_congr rfl
    intro i hi
    simp only [hz i (by rw [Finset.mem_range] at hi; omega)]
  have hmean : meanAt a T x j = meanAt a T' x j := by
    funext i; unfold meanAt; rw [hmu j le_rfl, h j le_rfl]
  have hsig : sigmaAt a T x j = sigmaAt a T' x j := by
    funext p; unfold sigmaAt; simp only [hcov, h j le_rfl]
  unfold itemAt
  rw [hmean, hsig, h j le_rfl]

/-- The items depend on the rows there are only. -/
theorem itemAt_rows {ι : Type} [Ix ι] {a : RealArgs} {T : ℕ} (hT : 0 < T) (tm : ℕ → τ) {x x' : ℕ → ι → ℝ}
    (h : ∀ t < T, x t = x' t) (j : ℕ) : itemAt a T tm x j = itemAt a T tm x' j := by
  have hmu1 : ∀ t < T, muOf a.mean a.mu1h x t = muOf a.mean a.mu1h x' t := fun t ht => by
    funext i
    unfold muOf
    split
    · rw [halflifeAverage_eq, halflifeAverage_eq]
      exact emaAvg_congr fun l hl => by rw [h l (by omega)]
    · rfl
  have hc : ∀ t < T, cRet a x t = cRet a x' t := fun t ht => by
    funext i; unfold cRet; rw [hmu1 t ht, h t ht]
  have hv : ∀ t < T, vol a x t = vol a x' t := fun t ht => by
    funext i; unfold vol volSq
    rw [varSeq_congr fun s hs => by rw [hc s (by omega)]]
  have hl : live a T x = live a T x' := by
    unfold live
    apply List.filter_congr
    intro t ht
    rw [List.mem_range] at ht
    rw [hc t ht, hv t ht]
  have hlt : ∀ i, (live a T x').getD i 0 < T := fun i => by
    rcases Nat.lt_or_ge i (live a T x').length with hi | hi
    · exact (mem_live.mp (liveRows_getD_mem hi)).1
    · rw [List.getD_eq_getElem?_getD, List.getElem?_eq_none hi]; exact hT
  have hadj : adjAt a T x = adjAt a T x' := by
    funext i c; unfold adjAt; rw [hl, hc _ (hlt i), hv _ (hlt i)]
  have hz : zAt a T x = zAt a T x' := by
    funext i c; unfold zAt; rw [hadj]
  have hcov : ∀ p, covAt a T x j p = covAt a T x' j p := fun p => by
    unfold covAt; rw [hz]
  have hmean : meanAt a T x j = meanAt a T x' j := by
    funext i; unfold meanAt; rw [hl, hadj, hmu1 _ (hlt j), hv _ (hlt j)]
  have hsig : sigmaAt a T x j = sigmaAt a T x' j := by
    funext p; unfold sigmaAt; simp only [hcov, hl, hv _ (hlt j)]
  unfold itemAt
  rw [hmean, hsig, hl, hv _ (hlt j)]

theorem meanArgs_valid {mv mc : ℕ} {p q : ℝ × ℝ} (hp : 0 < p.1 ∧ 0 < p.2) (hq : 0 ≤ q.1 ∧ 0 ≤ q.2) : (meanArgs mv mc p q).Valid :=
  ⟨hp.1, hp.2, (by intro h hh; cases hh; exact hq.1), (by intro h hh; cases hh; exact hq.2)⟩

theorem live_mean {mv mc f : ℕ} {p q : ℝ × ℝ} (hp : 0 < p.1 ∧ 0 < p.2) (hq : 0 ≤ q.1 ∧ 0 ≤ q.2) {x : ℕ → Vec n}
    (hf : FirstRow mv x f) (N : ℕ) : live (meanArgs mv mc p q) N x = List.range' f (N - f) := by
  have hv := meanArgs_valid (mv := mv) (mc := mc) hp hq
  have hmem : ∀ t : ℕ, ((meanArgs mv mc p q).minPeriodsVola - 1 ≤ (t : Int) ∧
      ∃ i, ¬ (vol (meanArgs mv mc p q) x t i = 0 ∧ cRet (meanArgs mv mc p q) x t i = 0)) ↔ f ≤ t := by
    intro t
    have h1 : (∃ i, ¬ (vol (meanArgs mv mc p q) x t i = 0 ∧ cRet (meanArgs mv mc p q) x t i = 0)) ↔ ∃ s ≤ t, x s ≠ x 0 := by
      have key : ∀ i, (vol (meanArgs mv mc p q) x t i = 0 ∧ cRet (meanArgs mv mc p q) x t i = 0) ↔
          ∀ k ≤ t, x k i = x 0 i := fun i => by
        rw [volSq_zero_iff hv, ← cRet_flat hv rfl x i t]
        exact ⟨fun h k hk => h.1 k hk (Or.inl rfl), fun h => ⟨fun k hk _ => h k hk, h t le_rfl⟩⟩
      simp only [key]
      constructor
      · rintro ⟨i, hi⟩
        push Not at hi
        obtain ⟨k, hk, hne⟩ := hi
        exact ⟨k, hk, fun e => hne (congrFun e i)⟩
      · rintro ⟨s, hs, hne⟩
        obtain ⟨i, hi⟩ := Function.ne_iff.mp hne
        exact ⟨i, fun hall => hi (hall s hs)⟩
    rw [h1]
    constructor
    · rintro ⟨h2, h3⟩
      exact hf.least t (by simp only [meanArgs] at h2; omega) h3
    · intro h2
      obtain ⟨s, hs, hne⟩ := hf.moved
      have := hf.enough
      exact ⟨by simp only [meanArgs]; omega, s, by omega, hne⟩
  have e : live (meanArgs mv mc p q) N x = rowsFrom (f + 1 : ℕ) N := by
    unfold live rowsFrom
    apply List.filter_congr
    intro t _
    rw [decide_eq_decide, hmem t]
    push_cast
    omega
  rw [e, rowsFrom_eq_drop, List.range_eq_range', drop_range']
  simp

theorem live_mean_getD {mv mc f : ℕ} {p q : ℝ × ℝ} (hp : 0 < p.1 ∧ 0 < p.2) (hq : 0 ≤ q.1 ∧ 0 ≤ q.2) {x : ℕ → Vec n}
    (hf : FirstRow mv x f) {N j : ℕ} (h : j < N - f) : (live (meanArgs mv mc p q) N x).getD j 0 = f + j := by
  rw [live_mean hp hq hf, getD_lt (by simpa using h)]
  simp

theorem FirstRow.nonempty {mv f : ℕ} {x : ℕ → Vec n} (hf : FirstRow mv x f) : Nonempty (Fin n) := by
  obtain ⟨s, _, hne⟩ := hf.moved
  obtain ⟨i, _⟩ := Function.ne_iff.mp hne
  exact ⟨i⟩

/-- The results of an expert. -/
theorem iterated_mean {mv mc f : ℕ} {p q : ℝ × ℝ} (hp : 0 < p.1 ∧ 0 < p.2) (hq : 0 ≤ q.1 ∧ 0 ≤ q.2)
    {x : ℕ → Vec n} (hf : FirstRow mv x f) {N : ℕ} {tm : ℕ → τ} (htm : Increasing N tm) (hN : f < N) :
    iteratedEwma (finFrame N tm x) (meanArgs mv mc p q).toArgs
      = .ok ((List.range' (warm mc f) (N - warm mc f)).map fun s =>
          itemAt (meanArgs mv mc p q) (s + 1) tm x (s - f)) := by
  have := hf.nonempty
  rw [iteratedEwma_fin (meanArgs_valid hp hq) (distinct_of_increasing htm) x, if_neg]
  · congr 1
    rw [live_mean hp hq hf, rowsFrom_eq_drop, List.length_range', List.range_eq_range', drop_range']
    apply List.ext_getElem
    · simp [meanArgs, warm]; omega
    · intro i h1 h2
      simp only [List.getElem_map, List.getElem_range', one_mul, List.length_map, List.length_range', warm] at h1 h2 ⊢
      have e : 0 + ((meanArgs mv mc p q).minPeriodsCov - 1).toNat + i = f + (mc - 1) + i - f := by simp [meanArgs]; omega
      rw [e]
      apply itemAt_prefix
      intro j hj
      rw [live_mean_getD hp hq hf (by omega), live_mean_getD hp hq hf (by omega)]
  · rw [live_mean hp hq hf]
    intro h
    have := congrArg List.length h
    simp at this
    omega

theorem itemAt_time_mean {mv mc f : ℕ} {p q : ℝ × ℝ} (hp : 0 < p.1 ∧ 0 < p.2) (hq : 0 ≤ q.1 ∧ 0 ≤ q.2)
    {x : ℕ → Vec n} (hf : FirstRow mv x f) (tm : ℕ → τ) {s : ℕ} (hs : f ≤ s) :
    (itemAt (meanArgs mv mc p q) (s + 1) tm x (s - f)).time = tm s := by
  show tm _ = tm s
  rw [live_mean_getD hp hq hf (by omega)]
  congr 1; omega

/-! ### The run of the cell -/

section
variable {solver : Solver n K} {covPairs meanPairs : List (ℝ × ℝ)} {p q : Fin K → ℝ × ℝ} {mv mc f window T : ℕ} {tm : ℕ → τ}
  {x : ℕ → Vec n} {lamda : ℝ}

theorem pyGet_nat {A : Type} (l : List A) (i : ℕ) : pyGet l (i : Int) = match l[i]? with
    | some a => .ok a
    | none => .error .indexError := by
  unfold pyGet
  have h1 : ¬ ((i : Int) < 0) := by omega
  simp only [if_neg h1, Int.toNat_natCast]
  rfl

theorem meanExpert_ok (h : MeanSetup solver covPairs meanPairs p q mv mc f window T tm x) (k : Fin K) :
    meanExpert covPairs meanPairs mv mc (finFrame T tm x) k
      = .ok ((List.range' (warm mc f) (T - warm mc f)).map (fun s => (tm s, (rowMeanIewma mv mc (p k) (q k) f x s).covariance)),
          (List.range' (warm mc f) (T - warm mc f)).map (fun s => (tm s, (rowMeanIewma mv mc (p k) (q k) f x s).mean))) := by
  have hrows := h.rows
  unfold meanExpert
  rw [pyGet_nat, pyGet_nat, h.covPairs k, h.meanPairs k]
  simp only [ok_bind]
  rw [show (
      { volaHalflife := XR.fin (p k).1, covHalflife := XR.fin (p k).2, minPeriodsVola := mv, minPeriodsCov := mc, mean := true,
        muHalflife1 := some (XR.fin (q k).1), muHalflife2 := some (XR.fin (q k).2) } : IewmaArgs XR)
      = (meanArgs mv mc (p k) (q k)).toArgs from rfl,
    iterated_mean (h.halflives k) (h.meanHalflives k) h.first h.labels (by unfold warm at hrows; omega), ok_bind]
  have key : ∀ {A : Type} (g : ∀ {σ : Type}, IEWMA σ (Fin n) XR → A)
      (hg : ∀ s, g (itemAt (meanArgs mv mc (p k) (q k)) (s + 1) tm x (s - f)) = g (rowMeanIewma mv mc (p k) (q k) f x s)),
      dictOf (((List.range' (warm mc f) (T - warm mc f)).map fun s =>
        itemAt (meanArgs mv mc (p k) (q k)) (s + 1) tm x (s - f)).map fun r => (r.time, g r))
      = (List.range' (warm mc f) (T - warm mc f)).map fun s => (tm s, g (rowMeanIewma mv mc (p k) (q k) f x s)) := by
    intro A g hg
    have e : (((List.range' (warm mc f) (T - warm mc f)).map fun s =>
        itemAt (meanArgs mv mc (p k) (q k)) (s + 1) tm x (s - f)).map fun r => (r.time, g r))
        = (List.range' (warm mc f) (T - warm mc f)).map fun s => (tm s, g (rowMeanIewma mv mc (p k) (q k) f x s)) := by
      rw [List.map_map]
      apply List.map_congr_left
      intro s hs
      rw [List.mem_range'_1] at hs
      simp only [Function.comp]
      rw [itemAt_time_mean (h.halflives k) (h.meanHalflives k) h.first tm (by unfold warm at hs; omega), hg]
    rw [e]
    apply dictOf_nodup
    rw [List.map_map]
    apply List.Nodup.map_on
    · intro s hs t ht e
      rw [List.mem_range'_1] at hs ht
      exact distinct_of_increasing h.labels s t (by omega) (by omega) e
    · exact List.nodup_range'
  rw [key (fun r => r.covariance) fun s => rfl, key (fun r => r.mean) fun s => rfl]
  rfl

theorem expertSigma_symm (s : ℕ) (k : Fin K) :
    (expertSigma p q mv mc f lamda x s k)ᵀ = expertSigma p q mv mc f lamda x s k := by
  have h : (realCov (rowMeanIewma mv mc (p k) (q k) f x s))ᵀ = realCov (rowMeanIewma mv mc (p k) (q k) f x s) :=
    realCov_symm _ _ _ _ _
  unfold expertSigma
  dsimp only
  split
  · ext a b
    have := congrFun (congrFun h a) b
    simp only [Matrix.transpose_apply, Matrix.of_apply] at this ⊢
    by_cases hab : a = b
    · subst hab; rfl
    · rw [if_neg hab, if_neg (Ne.symm hab), this]
  · exact h

open Classical in
theorem cmMean_eq (h : MeanSetup solver covPairs meanPairs p q mv mc f window T tm x) (lamda : ℝ) :
    cmMean solver covPairs meanPairs (rowDict T tm x) mv mc lamda window
      = if FiniteSigmas p q mv mc f x T then
          panelTables (meanPanel p q mv mc f lamda tm x T) (rowDict T tm x) solver window
        else .error .linAlgError := by
  have hframe : ((rowDict T tm x).map fun p : τ × Vec n => (p.1, (Arr.ofFn fun i => XR.fin (p.2 i) : Arr (Fin n) XR)))
      = finFrame T tm x := by
    unfold rowDict finFrame finRows
    rw [List.map_map]; rfl
  unfold cmMean
  dsimp only
  rw [hframe, finM_ok _ _ (meanExpert_ok h), ok_bind, if_neg h.experts.ne']
  show (do let sigmas ← finM fun i => finiteCovs _; _) = _
  split
  · next hfin =>
    rw [finM_ok _ (fun k => (List.range' (warm mc f) (T - warm mc f)).map fun s =>
      (tm s, realCov (rowMeanIewma mv mc (p k) (q k) f x s)))]
    · rw [ok_bind]
      unfold panelTables
      have e1 : (fun i : Fin K => if i.1 = 0 then
          addToDiagonal ((List.range' (warm mc f) (T - warm mc f)).map fun s =>
            (tm s, realCov (rowMeanIewma mv mc (p i) (q i) f x s))) lamda
          else (List.range' (warm mc f) (T - warm mc f)).map fun s => (tm s, realCov (rowMeanIewma mv mc (p i) (q i) f x s)))
          = (meanPanel p q mv mc f lamda tm x T).sigmas := by
        funext i
        have e0 : (meanPanel p q mv mc f lamda tm x T).sigmas i
            = (List.range' (warm mc f) (T - warm mc f)).map fun s => (tm s, expertSigma p q mv mc f lamda x s i) := by
          rw [map_range_shift]; rfl
        rw [e0]
        split
        · next hi =>
          unfold addToDiagonal
          rw [List.map_map]
          apply List.map_congr_left
          intro s _
          simp only [Function.comp, expertSigma, if_pos hi]
          congr 1
          ext a b
          by_cases hab : a = b
          · subst hab
            simp; ring
          · simp [hab]
        · next hi =>
          apply List.map_congr_left
          intro s _
          simp only [expertSigma, if_neg hi]
      have e2 : (fun i : Fin K => ((List.range' (warm mc f) (T - warm mc f)).map fun s =>
          (tm s, (rowMeanIewma mv mc (p i) (q i) f x s).mean)).map
            fun q : τ × Arr (Fin n) XR => (q.1, fun j => (q.2 j).toReal))
          = (meanPanel p q mv mc f lamda tm x T).means := by
        funext i
        rw [List.map_map, map_range_shift]
        rfl
      rw [e1]
      show (do let comb ← fromSigmas _ _ (some fun i => some ((fun i : Fin K => ((List.range' (warm mc f) (T - warm mc f)).map
                fun s => (tm s, (rowMeanIewma mv mc (p i) (q i) f x s).mean)).map
                  fun q : τ × Arr (Fin n) XR => (q.1, fun j => (q.2 j).toReal)) i))
               meanTables (comb.solve solver (some window) none)) = _
      rw [e2]
    · intro i
      rw [finiteCovs_map, if_pos]
      · rfl
      · intro s hs
        rw [List.mem_range'_1] at hs
        exact hfin i s hs.1 (by omega)
  · next hfin =>
    rcases hS : finM fun i : Fin K => finiteCovs ((List.range' (warm mc f) (T - warm mc f)).map fun s =>
      (tm s, (rowMeanIewma mv mc (p i) (q i) f x s).covariance)) with e | S
    · obtain ⟨i, hi, _⟩ := finM_error _ _ hS
      rw [finiteCovs_map] at hi
      split at hi
      · cases hi
      · cases hi; rfl
    · exfalso
      apply hfin
      intro k s h1 h2
      have := (finM_ok_iff _ _).mp hS k
      rw [finiteCovs_map] at this
      split at this
      · next hall => exact hall s (by rw [List.mem_range'_1]; omega)
      · cases this

theorem MeanSetup.tables (h : MeanSetup solver covPairs meanPairs p q mv mc f window T tm x) :
    TablesSetup (meanPanel p q mv mc f lamda tm x T) (rowDict T tm x) solver window where
  experts := h.experts
  time_lt := fun s t hst ht => h.labels _ _ (by omega) (by simp only [meanPanel] at ht; omega)
  symm := fun t _ k => expertSigma_symm _ k
  covered := fun t _ ht => by
    simp only [meanPanel] at ht ⊢
    exact lookup_map_range (fun s t h1 h2 => h.labels s t h1 h2) _ _ (by omega)
  rows := by have := h.rows; simp only [meanPanel]; omega
  window_pos := h.window_pos
  feasible := h.feasible

theorem cmMean_ok_iff (h : MeanSetup solver covPairs meanPairs p q mv mc f window T tm x) (lamda : ℝ) (d : MeanTables τ n K) :
    cmMean solver covPairs meanPairs (rowDict T tm x) mv mc lamda window = .ok d ↔
      FiniteSigmas p q mv mc f x T ∧
      (meanPanel p q mv mc f lamda tm x T).Completes solver (meanWindow mc f window T) ∧
      d = runTables (meanPanel p q mv mc f lamda tm x T) solver (meanWindow mc f window T) := by
  rw [cmMean_eq h]
  split
  · next hfin =>
    rw [tables_ok_iff h.tables (W := meanWindow mc f window T) rfl]
    simp only [hfin, true_and]
  · next hfin =>
    constructor
    · intro h; cases h
    · rintro ⟨h, _⟩; exact absurd h hfin

end

end CovPred
