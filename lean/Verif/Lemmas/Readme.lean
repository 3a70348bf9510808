import Verif.Model.Readme
import Verif.Spec.Readme
import Verif.Lemmas.EwmStd
import Verif.Lemmas.CmIewma

/-
pandas' recursion for the exponentially weighted covariance computes the direct formula; the run of the README example.
-/
namespace CovPred
set_option linter.unusedSectionVars false

variable {τ : Type} [LinearOrder τ] {n K : ℕ}

/-- the biased covariance -/
noncomputable def bcov (b : ℝ) (x y : ℕ → ℝ) (t : ℕ) : ℝ :=
  (∑ u ∈ Finset.range (t + 1), b ^ (t - u) * ((x u - emaAvg b x t) * (y u - emaAvg b y t))) / wt b t

theorem bcov_mul {b : ℝ} (hb : 0 < b) (x y : ℕ → ℝ) (t : ℕ) :
    bcov b x y t * wt b t = ∑ u ∈ Finset.range (t + 1), b ^ (t - u) * (x u * y u) - wt b t * (emaAvg b x t * emaAvg b y t) := by
  unfold bcov
  rw [div_mul_cancel₀ _ (wt_pos hb t).ne']
  have e : ∀ u, b ^ (t - u) * ((x u - emaAvg b x t) * (y u - emaAvg b y t))
      = b ^ (t - u) * (x u * y u) - emaAvg b y t * (b ^ (t - u) * x u) - emaAvg b x t * (b ^ (t - u) * y u)
        + emaAvg b x t * emaAvg b y t * b ^ (t - u) := fun u => by ring
  simp only [e, Finset.sum_add_distrib, Finset.sum_sub_distrib, ← Finset.mul_sum]
  rw [← emaAvg_wt hb x t, ← emaAvg_wt hb y t]
  change _ - _ - _ + _ * wt b t = _
  ring

theorem bcov_step {b : ℝ} (hb : 0 < b) (x y : ℕ → ℝ) (t : ℕ) :
    bcov b x y (t + 1) = (wt b t * b * (bcov b x y t + (emaAvg b x t - emaAvg b x (t + 1)) * (emaAvg b y t - emaAvg b y (t + 1)))
      + (x (t + 1) - emaAvg b x (t + 1)) * (y (t + 1) - emaAvg b y (t + 1))) / (wt b t * b + 1) := by
  have h1 := bcov_mul hb x y (t + 1)
  have h0 := bcov_mul hb x y t
  rw [emaNum_succ b (fun u => x u * y u) t] at h1
  have hs : ∑ u ∈ Finset.range (t + 1), b ^ (t - u) * (x u * y u)
      = bcov b x y t * wt b t + wt b t * (emaAvg b x t * emaAvg b y t) := by linarith
  rw [hs, wt_succ] at h1
  have hw := wt_pos hb t
  have hm : ∀ x : ℕ → ℝ, emaAvg b x (t + 1) * (wt b t * b + 1) = wt b t * b * emaAvg b x t + x (t + 1) := fun x => by
    rw [emaAvg_next hb]
    exact div_mul_cancel₀ _ (by positivity)
  have hmx := hm x
  have hmy := hm y
  rw [eq_div_iff (by positivity), h1]
  generalize emaAvg b x (t + 1) = m' at hmx ⊢
  generalize emaAvg b x t = m at hmx ⊢
  generalize emaAvg b y (t + 1) = k' at hmy ⊢
  generalize emaAvg b y t = k at hmy ⊢
  have hx : x (t + 1) = m' * (wt b t * b + 1) - wt b t * b * m := by linarith
  have hy : y (t + 1) = k' * (wt b t * b + 1) - wt b t * b * k := by linarith
  rw [hx, hy]
  ring

/-- the unbiased covariance -/
noncomputable def ucov (b : ℝ) (x y : ℕ → ℝ) (t : ℕ) : ℝ := wt b t * wt b t / (wt b t * wt b t - wt2 b t) * bcov b x y t

theorem ewmCovLoop_spec {b : ℝ} (hb : 0 < b) (x y : ℕ → ℝ) (m t : ℕ) :
    ewmCovLoop b (emaAvg b x t) (emaAvg b y t) (bcov b x y t) (wt b t) (wt2 b t) (wt b t)
        ((List.range' (t + 1) m).map fun s => (x s, y s))
      = (List.range' (t + 1) m).map fun s => some (ucov b x y s) := by
  induction m generalizing t with
  | zero => rfl
  | succ m ih =>
    rw [List.range'_succ, List.map_cons, List.map_cons]
    unfold ewmCovLoop
    dsimp only
    have hw := wt_pos hb t
    have hmean : ∀ x : ℕ → ℝ, (if emaAvg b x t ≠ x (t + 1) then (wt b t * b * emaAvg b x t + x (t + 1)) / (wt b t * b + 1)
        else emaAvg b x t) = emaAvg b x (t + 1) := fun x => by
      rw [emaAvg_next hb]
      split
      · rfl
      · rename_i h
        push Not at h
        rw [← h]
        field_simp
    rw [hmean x, hmean y, ← bcov_step hb x y t, ← wt_succ, ← wt2_succ, ih (t + 1), if_pos (by linarith [wt_sq_gt hb t])]
    rfl

theorem halflifeCov_eq (h : ℝ) (x : ℕ → Vec n) (t : ℕ) (i j : Fin n) :
    halflifeCov h x t i j = ucov (betaOf h) (fun s => x s i) (fun s => x s j) t := by
  have hb := betaOf_pos h
  have hw := wt_pos hb t
  unfold halflifeCov ucov bcov halfWeight
  rw [Matrix.of_apply, halflifeAverage_eq, halflifeAverage_eq]
  simp only [← betaOf_pow]
  change _ / (wt (betaOf h) t - wt2 (betaOf h) t / wt (betaOf h) t) = _
  by_cases hz : wt (betaOf h) t * wt (betaOf h) t - wt2 (betaOf h) t = 0
  · have : wt (betaOf h) t - wt2 (betaOf h) t / wt (betaOf h) t = 0 := by
      field_simp
      linarith
    rw [this, hz]
    simp
  · have : wt (betaOf h) t - wt2 (betaOf h) t / wt (betaOf h) t = (wt (betaOf h) t * wt (betaOf h) t - wt2 (betaOf h) t) / wt (betaOf h) t := by
      field_simp
    rw [this]
    field_simp

theorem pandasEwmCov_spec (h : ℝ) (m : ℕ) (x : ℕ → Vec n) (i j : Fin n) (N : ℕ) :
    pandasEwmCov h m ((List.range N).map fun s => (x s i, x s j))
      = (List.range N).map fun t => if t < readmeFirst m then none else some (halflifeCov h x t i j) := by
  have hvals : ∀ N, ewmCovValues h ((List.range N).map fun s => (x s i, x s j))
      = (List.range N).map fun t => if t = 0 then none else some (halflifeCov h x t i j) := by
    intro N
    cases N with
    | zero => rfl
    | succ N =>
      rw [List.range_eq_range', List.range'_succ, List.map_cons, List.map_cons]
      unfold ewmCovValues
      simp only [zero_add]
      have hb : 1 - (1 - Real.exp (-Real.log 2 / h)) = betaOf h := by
        unfold betaOf
        ring_nf
      have h0 : ∀ k, emaAvg (betaOf h) (fun s => x s k) 0 = x 0 k := fun k => by unfold emaAvg; simp
      have h1 : bcov (betaOf h) (fun s => x s i) (fun s => x s j) 0 = 0 := by unfold bcov; simp [h0]
      have h2 : wt (betaOf h) 0 = 1 := by simp [wt]
      have h3 : wt2 (betaOf h) 0 = 1 := by simp [wt2]
      have := ewmCovLoop_spec (betaOf_pos h) (fun s => x s i) (fun s => x s j) N 0
      rw [h0, h0, h1, h2, h3, zero_add] at this
      rw [hb, this]
      congr 1
      refine List.map_congr_left fun t ht => ?_
      rw [List.mem_range'_1] at ht
      rw [if_neg (by omega), halflifeCov_eq]
  unfold pandasEwmCov
  dsimp only
  rw [hvals N]
  apply List.ext_getElem
  · simp
  · intro t h1 h2
    simp only [List.length_map, List.length_range, List.getElem_map, List.getElem_zip, List.getElem_range]
    unfold readmeFirst
    split
    · rw [if_pos (by omega)]
    · by_cases h0 : t = 0
      · rw [if_pos h0, if_pos (by omega)]
      · rw [if_neg h0, if_neg (by omega)]

theorem halflifeCov_symm (h : ℝ) (x : ℕ → Vec n) (t : ℕ) (i j : Fin n) : halflifeCov h x t i j = halflifeCov h x t j i := by
  unfold halflifeCov
  simp only [Matrix.of_apply]
  congr 1
  exact Finset.sum_congr rfl fun u _ => by ring

theorem ewmCovFrame_spec (h : ℝ) (m N : ℕ) (tm : ℕ → τ) (x : ℕ → Vec n) :
    ewmCovFrame h m (rowDict N tm x) = (List.range N).map fun t =>
      (tm t, fun i j => if t < readmeFirst m then none else some (halflifeCov h x t i j)) := by
  unfold ewmCovFrame rowDict
  apply List.ext_getElem
  · simp
  · intro t h1 h2
    simp only [List.length_map, List.length_range] at h2
    simp only [List.length_map, List.length_range, List.getElem_map, List.getElem_zip, List.getElem_range, List.map_map]
    congr 1
    funext i j
    have e : ((fun r : τ × Vec n => (r.2 (min i j), r.2 (max i j))) ∘ fun s => (tm s, x s))
        = fun s => (x s (min i j), x s (max i j)) := rfl
    rw [e, pandasEwmCov_spec h m x, List.getElem?_map, List.getElem?_range h2]
    simp only [Option.map_some, Option.join_some]
    split
    · rfl
    · congr 1
      rcases le_total i j with hij | hij
      · rw [min_eq_left hij, max_eq_right hij]
      · rw [min_eq_right hij, max_eq_left hij, halflifeCov_symm]

theorem readmeExpert_spec (hn : 0 < n) {h : ℝ} (hh : 0 < h) (m N : ℕ) (tm : ℕ → τ) (x : ℕ → Vec n) :
    readmeExpert (rowDict N tm x) m h = .ok ((List.range' (readmeFirst m) (N - readmeFirst m)).map fun t =>
      (tm t, halflifeCov h x t)) := by
  unfold readmeExpert
  rw [if_neg (not_le.mpr hh), ewmCovFrame_spec]
  have e : ((List.range N).map fun t =>
      (tm t, fun i j : Fin n => if t < readmeFirst m then none else some (halflifeCov h x t i j))).mapM expertItem
      = .ok ((List.range N).map fun t => if t < readmeFirst m then none else some (tm t, halflifeCov h x t)) := by
    rw [List.mapM_map]
    apply mapM_ok_of
    intro t _
    simp only [Function.comp]
    unfold expertItem
    by_cases ht : t < readmeFirst m
    · rw [if_neg, if_pos, if_pos ht]
      · intro i; exact ⟨i, by simp [ht]⟩
      · intro hall
        have := hall ⟨0, hn⟩ ⟨0, hn⟩
        simp [ht] at this
    · rw [if_pos, if_neg ht]
      · simp only [if_neg ht]
        rfl
      · intro i j; simp [ht]
  rw [e, ok_bind]
  congr 1
  rw [List.filterMap_map]
  have h2 : ∀ (N : ℕ), (List.range N).filterMap (id ∘ fun t => if t < readmeFirst m then none else some (tm t, halflifeCov h x t))
      = (List.range' (readmeFirst m) (N - readmeFirst m)).map fun t => (tm t, halflifeCov h x t) := by
    intro N
    induction N with
    | zero => simp
    | succ N ih =>
      rw [List.range_succ, List.filterMap_append, ih]
      by_cases hN : N < readmeFirst m
      · simp [hN, show N - readmeFirst m = 0 by omega, show N + 1 - readmeFirst m = 0 by omega]
      · rw [show N + 1 - readmeFirst m = N - readmeFirst m + 1 by omega, List.range'_concat, List.map_append]
        simp only [List.filterMap_cons, Function.comp, if_neg hN, id, List.filterMap_nil, List.map_cons, List.map_nil]
        rw [show readmeFirst m + 1 * (N - readmeFirst m) = N by omega]
  exact h2 N

theorem readme_ok_iff {solver : Solver n K} {halflives : Fin K → ℝ} {m window T : ℕ} {tm : ℕ → τ}
    (h : ReadmeSetup solver halflives m window T tm) (x : ℕ → Vec n) (d : Dict τ (Mat n)) :
    readmePredictors solver halflives m window (rowDict T tm x) = .ok d ↔
      (readmePanel halflives m tm x T).Completes solver (readmeWindow m window T) ∧
      d = (List.range' (readmeFirst m + readmeWindow m window T) (T - (readmeFirst m + readmeWindow m window T))).map fun s =>
        (tm s, blendCov (fun k => halflifeCov (halflives k) x s)
          ((readmePanel halflives m tm x T).weightsAt solver (readmeWindow m window T)
            (readmeWindow m window T) (s - readmeFirst m))) := by
  have hrows := h.rows
  set W := readmeWindow m window T with hW
  set P := readmePanel halflives m tm x T with hP
  have hlen : P.len = T - readmeFirst m := rfl
  have hWdef : W = min window (P.len - 1) := rfl
  have hsig : (finM fun i => readmeExpert (rowDict T tm x) m (halflives i)) = .ok P.sigmas := by
    apply finM_ok
    intro i
    rw [readmeExpert_spec h.assets (h.halflives i), map_range_shift]
    unfold Panel.sigmas
    rw [hlen]
    rfl
  have hPtime : ∀ s t, s < t → t < P.len → P.time s < P.time t := by
    intro s t hst ht
    exact h.labels _ _ (by omega) (by omega)
  unfold readmePredictors
  rw [hsig, ok_bind]
  have hd : ((List.range' (readmeFirst m + W) (T - (readmeFirst m + W))).map fun s =>
      (tm s, blendCov (fun k => halflifeCov (halflives k) x s) (P.weightsAt solver W W (s - readmeFirst m))))
      = (List.range' W (P.len - W)).map fun t => (P.time t, blendCov (P.cov t) (P.weightsAt solver W W t)) := by
    rw [map_range_shift, map_range_shift, show T - (readmeFirst m + W) = P.len - W by rw [hlen]; omega]
    apply List.map_congr_left
    intro j _
    show _ = (tm (readmeFirst m + (W + j)), blendCov (fun k => halflifeCov (halflives k) x (readmeFirst m + (W + j)))
      (P.weightsAt solver W W (W + j)))
    rw [show readmeFirst m + (W + j) = readmeFirst m + W + j by omega,
      show readmeFirst m + W + j - readmeFirst m = W + j by omega]
  rw [hd]
  by_cases hok : P.Ok
  · apply solve_window_completes h.experts (fun _ _ => rfl) hok ?_ (by omega) h.window_pos h.feasible d hWdef
    intro t _ ht
    exact lookup_map_range (fun s t h1 h2 => h.labels s t h1 h2) _ _ (by omega)
  · constructor
    · intro hc'
      exfalso
      apply hok
      rcases hc : fromSigmas P.sigmas (rowDict T tm x) none with e | c
      · rw [hc] at hc'; cases hc'
      · have hus := (C38_constructor_ok _ _ _).mp ⟨c, hc⟩
        refine ⟨hPtime, fun t ht i => ?_⟩
        refine (C38_usable_iff _ ?_).mp (hus.2.1 i _ (List.mem_map.mpr ⟨t, List.mem_range.mpr ht, rfl⟩))
        ext a b
        exact halflifeCov_symm _ _ _ _ _
    · rintro ⟨h, _⟩; exact absurd h.ok hok

end CovPred
