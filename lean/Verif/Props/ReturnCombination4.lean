import Verif.Lemmas.EwmStd
import Verif.Props.ReturnCombination3

/-
C120: `tune_alpha`; C121: `construct_rho`.
-/
namespace CovPred
open Matrix
set_option linter.unusedSectionVars false

variable {τ : Type} [LinearOrder τ] {n K : ℕ}

/-! ### C120: `tune_alpha` -/

private theorem flatten_block (a N : ℕ) (tm : ℕ → τ) (v : ℕ → Vec n) :
    flattenRows (blockDict a N tm v) = (List.range' a N).flatMap fun t => List.ofFn (v t) := by
  unfold flattenRows blockDict
  rw [List.flatMap_map]

private theorem sum_flat (a N : ℕ) (f : ℕ → Vec n) :
    ((List.range' a N).flatMap fun t => List.ofFn (f t)).sum = ∑ t ∈ Finset.Ico a (a + N), ∑ i, f t i := by
  induction N generalizing a with
  | zero => simp
  | succ N ih =>
    rw [List.range'_succ, List.flatMap_cons, List.sum_append, ih, List.sum_ofFn,
      Finset.sum_eq_sum_Ico_succ_bot (show a < a + (N + 1) by omega), show a + 1 + N = a + (N + 1) by omega]

private theorem map_flat (a N : ℕ) (v : ℕ → Vec n) (g : ℝ → ℝ) :
    ((List.range' a N).flatMap fun t => List.ofFn (v t)).map g = (List.range' a N).flatMap fun t => List.ofFn fun i => g (v t i) := by
  rw [List.map_flatMap]
  congr 1
  funext t
  rw [List.map_ofFn]
  rfl

private theorem zip_flat (a N : ℕ) (v u : ℕ → Vec n) (g : ℝ → ℝ → ℝ) :
    List.zipWith g ((List.range' a N).flatMap fun t => List.ofFn (v t)) ((List.range' a N).flatMap fun t => List.ofFn (u t))
      = (List.range' a N).flatMap fun t => List.ofFn fun i => g (v t i) (u t i) := by
  induction N generalizing a with
  | zero => rfl
  | succ N ih =>
    simp only [List.range'_succ, List.flatMap_cons]
    rw [List.zipWith_append (by simp), ih]
    congr 1
    apply List.ext_getElem
    · simp
    · intro i h1 h2
      simp

private theorem length_flat (a N : ℕ) (v : ℕ → Vec n) : ((List.range' a N).flatMap fun t => List.ofFn (v t)).length = N * n := by
  simp [List.length_flatMap]

private theorem mean_flat (a N : ℕ) (tm : ℕ → τ) (v : ℕ → Vec n) : npMean (flattenRows (blockDict a N tm v)) = panelMean a N v := by
  unfold npMean panelMean
  rw [flatten_block, sum_flat, length_flat]

theorem npCorr_block (a N : ℕ) (tm : ℕ → τ) (v u : ℕ → Vec n) :
    npCorr (flattenRows (blockDict a N tm v)) (flattenRows (blockDict a N tm u)) =
      open Classical in if panelSpread a N v = 0 ∨ panelSpread a N u = 0 then none else some (panelCorr a N v u) := by
  unfold npCorr
  simp only [mean_flat]
  simp only [flatten_block, map_flat, zip_flat, sum_flat]
  have h0 : 0 ≤ panelSpread a N v := Finset.sum_nonneg fun t _ => Finset.sum_nonneg fun i _ => sq_nonneg _
  unfold panelCorr
  rw [Real.sqrt_mul h0]
  rfl

theorem npRmse_block (a N : ℕ) (tm : ℕ → τ) (v u : ℕ → Vec n) :
    npRmse (flattenRows (blockDict a N tm v)) (flattenRows (blockDict a N tm u)) =
      if N * n = 0 then none else some (panelRmse a N v u) := by
  unfold npRmse
  rw [flatten_block, flatten_block, zip_flat]
  have hl := length_flat a N (fun t i => (v t i - u t i) ^ 2)
  have hm := mean_flat a N tm (fun t i => (v t i - u t i) ^ 2)
  rw [flatten_block] at hm
  generalize (List.range' a N).flatMap (fun t => List.ofFn fun i => (v t i - u t i) ^ 2) = l at hl hm ⊢
  cases l with
  | nil => rw [if_pos (by simpa using hl.symm)]
  | cons x l =>
    rw [if_neg (by rw [← hl]; simp)]
    dsimp only
    rw [hm]
    rfl

/-- **C120.** The four results of `tune_alpha` have one entry per `alpha`, in the same order, and the first is the list of the
`alpha`s; entry `j` of the others is what `fit` gives with the `j`-th `alpha`, whatever the other `alpha`s: its weights, and
the correlation and the error of its predictions, over all predicted dates and assets. -/
theorem C120_entries (hn : 0 < n) {T : ℕ} {tm : ℕ → τ} (htm : Increasing T tm) {p q : ℕ} (hpq : p + q ≤ T) (y : ℕ → Vec n)
    (x : Fin n → ℕ → Vec K) {memory : ℕ} (hm : 1 ≤ memory) {alphas as : List ℝ} {cs es : List (Option ℝ)}
    {wss : List (Dict τ (Fin n → Vec K))}
    (h : tuneAlpha (rowDict T tm y) (List.ofFn fun i => blockDict p q tm (x i)) alphas memory = .ok (as, cs, es, wss)) :
    as = alphas ∧ cs.length = alphas.length ∧ es.length = alphas.length ∧ wss.length = alphas.length ∧
    ∀ (j : ℕ) (alpha : ℝ), alphas[j]? = some alpha → ∃ (f : ℕ → Vec n) (ws : Dict τ (Fin n → Vec K)),
      combinatorFit (rowDict T tm y) (List.ofFn fun i => blockDict p q tm (x i)) memory alpha
        = .ok (blockDict (p + memory) (q - memory) tm f, ws) ∧
      wss[j]? = some ws ∧
      (panelSpread (p + memory) (q - memory) f ≠ 0 → panelSpread (p + memory) (q - memory) y ≠ 0 →
        cs[j]? = some (some (panelCorr (p + memory) (q - memory) f y))) ∧
      (panelSpread (p + memory) (q - memory) f = 0 ∨ panelSpread (p + memory) (q - memory) y = 0 → cs[j]? = some none) ∧
      (memory < q → es[j]? = some (some (panelRmse (p + memory) (q - memory) f y))) ∧
      (q ≤ memory → es[j]? = some none) := by
  unfold tuneAlpha at h
  rw [bind_ok_iff] at h
  obtain ⟨l, hl, h⟩ := h
  cases h
  rw [mapM_ok_iff_forall₂] at hl
  have hlen := hl.length_eq
  refine ⟨rfl, by simp [hlen], by simp [hlen], by simp [hlen], fun j alpha hj => ?_⟩
  obtain ⟨hj1, rfl⟩ := List.getElem?_eq_some_iff.1 hj
  have hrow := hl.get hj1 (by omega)
  simp only [List.get_eq_getElem] at hrow
  have hlj : l[j]? = some l[j] := List.getElem?_eq_getElem _
  rcases hr : l[j] with ⟨c, e, ws⟩
  rw [hr] at hrow
  unfold tuneOne at hrow
  rw [bind_ok_iff] at hrow
  obtain ⟨⟨hats, ws'⟩, hfit, hrow⟩ := hrow
  dsimp only at hrow
  rw [bind_ok_iff] at hrow
  obtain ⟨actual, hact, hrow⟩ := hrow
  cases hrow
  obtain ⟨w, hw, rfl, rfl⟩ := (combinatorFit_ok_iff hn htm hpq y x hm _ hats _).1 hfit
  have hact' : actual = blockDict (p + memory) (q - memory) tm y := by
    rw [List.map_map] at hact
    change restrict _ ((List.range' (p + memory) (q - memory)).map tm) = _ at hact
    obtain ⟨v, hv, rfl⟩ := (restrict_ok_iff _ _ _ _).1 hact
    refine List.map_congr_left fun t ht => ?_
    have hl := hv t ht
    rw [List.mem_range'_1] at ht
    rw [lookup_rows htm y (by omega)] at hl
    rw [Option.some.inj hl]
  have hc := npCorr_block (p + memory) (q - memory) tm (fun t i => ∑ k, x i t k * w t i k) y
  have he := npRmse_block (p + memory) (q - memory) tm (fun t i => ∑ k, x i t k * w t i k) y
  rw [← hact'] at hc he
  refine ⟨fun t i => ∑ k, x i t k * w t i k, _, hfit, by rw [List.getElem?_map, hlj, hr]; rfl, fun h1 h2 => ?_, fun h1 => ?_,
    fun h1 => ?_, fun h1 => ?_⟩
  · rw [List.getElem?_map, hlj, hr]
    rw [if_neg (not_or.2 ⟨h1, h2⟩)] at hc
    exact congrArg some hc
  · rw [List.getElem?_map, hlj, hr]
    rw [if_pos h1] at hc
    exact congrArg some hc
  · rw [List.getElem?_map, hlj, hr]
    rw [if_neg (by rw [Nat.mul_eq_zero]; omega)] at he
    exact congrArg some he
  · rw [List.getElem?_map, hlj, hr]
    rw [if_pos (by rw [Nat.mul_eq_zero]; omega)] at he
    exact congrArg some he

/-- **C120.** The correlation is between -1 and 1, and does not change if the predictions are shifted and scaled by a
positive factor. -/
theorem C120_correlation (a N : ℕ) (v u : ℕ → Vec n) :
    |panelCorr a N v u| ≤ 1 ∧ ∀ c d : ℝ, 0 < c → 0 < N * n → panelCorr a N (fun t i => c * v t i + d) u = panelCorr a N v u := by
  constructor
  · have h0 : ∀ v : ℕ → Vec n, 0 ≤ panelSpread a N v := fun v => Finset.sum_nonneg fun t _ => Finset.sum_nonneg fun i _ => sq_nonneg _
    unfold panelCorr
    rw [abs_div, abs_of_nonneg (Real.sqrt_nonneg _)]
    apply div_le_one_of_le₀ _ (Real.sqrt_nonneg _)
    apply Real.abs_le_sqrt
    have := Finset.sum_mul_sq_le_sq_mul_sq (Finset.Ico a (a + N) ×ˢ (Finset.univ : Finset (Fin n)))
      (fun r => v r.1 r.2 - panelMean a N v) (fun r => u r.1 r.2 - panelMean a N u)
    rw [Finset.sum_product, Finset.sum_product, Finset.sum_product] at this
    exact this
  · intro c d hc hN
    have hm : panelMean a N (fun t i => c * v t i + d) = c * panelMean a N v + d := by
      unfold panelMean
      have : ((N * n : ℕ) : ℝ) ≠ 0 := by exact_mod_cast hN.ne'
      simp only [Finset.sum_add_distrib, ← Finset.mul_sum, Finset.sum_const, Finset.card_univ, Fintype.card_fin, Nat.card_Ico,
        nsmul_eq_mul, add_tsub_cancel_left]
      rw [add_div, mul_div_assoc]
      congr 1
      rw [← mul_assoc, ← Nat.cast_mul, mul_comm N n] at *
      field_simp
    unfold panelCorr panelSpread
    rw [hm]
    have e1 : ∀ t i, c * v t i + d - (c * panelMean a N v + d) = c * (v t i - panelMean a N v) := fun t i => by ring
    simp only [e1, mul_assoc, mul_pow, ← Finset.mul_sum]
    rw [Real.sqrt_mul (by positivity), Real.sqrt_sq hc.le, mul_div_mul_left _ _ hc.ne']

/-- **C120.** The error is not negative, and zero exactly if all predictions are right. -/
theorem C120_error (a N : ℕ) (v u : ℕ → Vec n) (hN : 0 < N * n) :
    0 ≤ panelRmse a N v u ∧ (panelRmse a N v u = 0 ↔ ∀ t, a ≤ t → t < a + N → v t = u t) := by
  unfold panelRmse
  refine ⟨Real.sqrt_nonneg _, ?_⟩
  have hN' : ((N * n : ℕ) : ℝ) ≠ 0 := by exact_mod_cast hN.ne'
  have h1 : ∀ t ∈ Finset.Ico a (a + N), 0 ≤ ∑ i, (v t i - u t i) ^ 2 := fun t _ => Finset.sum_nonneg fun i _ => sq_nonneg _
  have h2 : 0 ≤ panelMean a N fun t i => (v t i - u t i) ^ 2 := div_nonneg (Finset.sum_nonneg h1) (Nat.cast_nonneg _)
  rw [Real.sqrt_eq_zero h2]
  unfold panelMean
  rw [div_eq_zero_iff, or_iff_left hN', Finset.sum_eq_zero_iff_of_nonneg h1]
  constructor
  · intro h t h3 h4
    have := (Finset.sum_eq_zero_iff_of_nonneg fun i _ => sq_nonneg _).1 (h t (Finset.mem_Ico.2 ⟨h3, h4⟩))
    funext i
    exact sub_eq_zero.1 (pow_eq_zero_iff two_ne_zero |>.1 (this i (Finset.mem_univ i)))
  · intro h t ht
    rw [Finset.mem_Ico] at ht
    rw [h t ht.1 ht.2]
    simp

/-! ### C121: `construct_rho` -/

/-- **C121.** What `construct_rho` returns: a table with the rows of the returns; zero on the first two rows; on row `t` of
asset `i`, `n_devs` times the standard deviation (unbiased, half-life 125) of its returns before row `t`. An empty table
raises `IndexError`. -/
theorem C121_rho (T : ℕ) (tm : ℕ → τ) (x : ℕ → Vec n) (nDevs : ℝ) :
    (T = 0 → constructRho (rowDict T tm x) nDevs = .error .indexError) ∧
    (0 < T → constructRho (rowDict T tm x) nDevs =
      .ok (rowDict T tm fun t i => if t < 2 then 0 else nDevs * Real.sqrt (halflifeVariance 125 (fun s => x s i) (t - 1)))) := by
  constructor
  · rintro rfl
    rfl
  · intro hT
    have hne : rowDict T tm x ≠ [] := by
      intro h
      have := congrArg List.length h
      simp [rowDict] at this
      omega
    have e : constructRho (rowDict T tm x) nDevs = .ok ((List.range (rowDict T tm x).length).zip ((rowDict T tm x).map Prod.fst) |>.map fun p =>
      (p.2, fun i => nDevs * (shiftSeries (pandasEwmStd 125 ((rowDict T tm x).map fun r => r.2 i)) 1 |>.map (·.getD 0))[p.1]?.getD 0)) := by
      unfold constructRho
      split
      · rename_i h
        exact absurd h hne
      · rfl
    rw [e]
    congr 1
    apply List.ext_getElem
    · simp [rowDict]
    · intro t h1 h2
      have ht : t < T := by simpa [rowDict] using h2
      simp only [rowDict, List.length_map, List.length_range, List.getElem_map, List.getElem_zip, List.getElem_range, List.map_map]
      congr 1
      funext i
      have e2 : ((fun r : τ × Vec n => r.2 i) ∘ fun s => (tm s, x s)) = fun s => x s i := rfl
      rw [e2, pandasEwmStd_spec]
      unfold shiftSeries
      rw [List.getElem?_map, List.getElem?_map, List.length_map, List.length_range, List.getElem?_range ht]
      by_cases h0 : t = 0
      · subst h0
        simp
      · have : ((t : Int) - 1).toNat = t - 1 := by omega
        simp only [Option.map_some, Option.getD_some]
        rw [if_neg (by omega), this, List.getElem?_map, List.getElem?_range (by omega)]
        by_cases h3 : t < 2
        · rw [if_pos h3, Option.map_some, if_pos (by omega)]
          simp
        · rw [if_neg h3, Option.map_some, if_neg (by omega)]
          simp

private theorem wsum_pairs (N : ℕ) (w x : ℕ → ℝ) (m : ℝ) (hm : (∑ u ∈ Finset.range N, w u) * m = ∑ u ∈ Finset.range N, w u * x u) :
    (∑ u ∈ Finset.range N, w u) * ∑ u ∈ Finset.range N, w u * (x u - m) ^ 2
      = (∑ u ∈ Finset.range N, ∑ v ∈ Finset.range N, w u * w v * (x u - x v) ^ 2) / 2 := by
  have e1 : ∑ u ∈ Finset.range N, w u * (x u - m) ^ 2
      = ∑ u ∈ Finset.range N, w u * x u ^ 2 - 2 * m * ∑ u ∈ Finset.range N, w u * x u + m ^ 2 * ∑ u ∈ Finset.range N, w u := by
    rw [Finset.mul_sum, Finset.mul_sum, ← Finset.sum_sub_distrib, ← Finset.sum_add_distrib]
    exact Finset.sum_congr rfl fun u _ => by ring
  have e2 : ∑ u ∈ Finset.range N, ∑ v ∈ Finset.range N, w u * w v * (x u - x v) ^ 2
      = 2 * ((∑ u ∈ Finset.range N, w u) * ∑ u ∈ Finset.range N, w u * x u ^ 2) - 2 * (∑ u ∈ Finset.range N, w u * x u) ^ 2 := by
    have : ∀ u, ∑ v ∈ Finset.range N, w u * w v * (x u - x v) ^ 2
        = w u * x u ^ 2 * ∑ v ∈ Finset.range N, w v - 2 * (w u * x u) * ∑ v ∈ Finset.range N, w v * x v
          + w u * ∑ v ∈ Finset.range N, w v * x v ^ 2 := by
      intro u
      rw [Finset.mul_sum, Finset.mul_sum, Finset.mul_sum, ← Finset.sum_sub_distrib, ← Finset.sum_add_distrib]
      exact Finset.sum_congr rfl fun v _ => by ring
    simp only [this]
    rw [Finset.sum_add_distrib, Finset.sum_sub_distrib, ← Finset.sum_mul, ← Finset.sum_mul, ← Finset.sum_mul, ← Finset.mul_sum]
    ring
  rw [e1, e2, ← hm]
  ring

/-- **C121.** That variance is the average of `(x u - x v)² / 2` over all pairs of different rows, a pair weighted by the
product of the weights of the two rows; this makes it unbiased. -/
theorem C121_pairs (h : ℝ) (x : ℕ → ℝ) {t : ℕ} (ht : 1 ≤ t) :
    halflifeVariance h x t =
      (∑ u ∈ Finset.range (t + 1), ∑ v ∈ (Finset.range (t + 1)).erase u,
        ((2 : ℝ) ^ (-((t - u : ℕ) : ℝ) / h) * (2 : ℝ) ^ (-((t - v : ℕ) : ℝ) / h)) * ((x u - x v) ^ 2 / 2)) /
      ∑ u ∈ Finset.range (t + 1), ∑ v ∈ (Finset.range (t + 1)).erase u,
        ((2 : ℝ) ^ (-((t - u : ℕ) : ℝ) / h) * (2 : ℝ) ^ (-((t - v : ℕ) : ℝ) / h)) ∧
    0 < ∑ u ∈ Finset.range (t + 1), ∑ v ∈ (Finset.range (t + 1)).erase u,
        ((2 : ℝ) ^ (-((t - u : ℕ) : ℝ) / h) * (2 : ℝ) ^ (-((t - v : ℕ) : ℝ) / h)) := by
  set w : ℕ → ℝ := fun u => (2 : ℝ) ^ (-((t - u : ℕ) : ℝ) / h) with hw
  have hwp : ∀ u, 0 < w u := fun u => Real.rpow_pos_of_pos (by norm_num) _
  have hW : 0 < ∑ u ∈ Finset.range (t + 1), w u := Finset.sum_pos (fun u _ => hwp u) ⟨0, by simp⟩
  have hm : (∑ u ∈ Finset.range (t + 1), w u) * halflifeAverage h x t = ∑ u ∈ Finset.range (t + 1), w u * x u := by
    unfold halflifeAverage
    rw [mul_div_cancel₀ _ hW.ne']
  have hp := wsum_pairs (t + 1) w x _ hm
  have hden : ∑ u ∈ Finset.range (t + 1), ∑ v ∈ (Finset.range (t + 1)).erase u, w u * w v
      = (∑ u ∈ Finset.range (t + 1), w u) * (∑ u ∈ Finset.range (t + 1), w u) - ∑ u ∈ Finset.range (t + 1), w u ^ 2 := by
    rw [Finset.sum_mul_sum, ← Finset.sum_sub_distrib]
    refine Finset.sum_congr rfl fun u hu => ?_
    rw [← Finset.add_sum_erase _ _ hu]
    ring
  have hpos : 0 < ∑ u ∈ Finset.range (t + 1), ∑ v ∈ (Finset.range (t + 1)).erase u, w u * w v := by
    refine Finset.sum_pos (fun u hu => Finset.sum_pos (fun v _ => mul_pos (hwp u) (hwp v)) ?_) ⟨0, by simp⟩
    by_cases h0 : u = 0
    · exact ⟨1, by rw [Finset.mem_erase, Finset.mem_range]; omega⟩
    · exact ⟨0, by rw [Finset.mem_erase, Finset.mem_range]; omega⟩
  have hnum : ∑ u ∈ Finset.range (t + 1), ∑ v ∈ (Finset.range (t + 1)).erase u, w u * w v * ((x u - x v) ^ 2 / 2)
      = (∑ u ∈ Finset.range (t + 1), w u) * ∑ u ∈ Finset.range (t + 1), w u * (x u - halflifeAverage h x t) ^ 2 := by
    rw [hp, Finset.sum_div]
    refine Finset.sum_congr rfl fun u hu => ?_
    rw [Finset.sum_div, ← Finset.add_sum_erase _ _ hu, sub_self]
    rw [show w u * w u * (0 : ℝ) ^ 2 / 2 = 0 by ring, zero_add]
    exact Finset.sum_congr rfl fun v _ => by ring
  refine ⟨?_, hpos⟩
  rw [hnum]
  rw [hden] at hpos ⊢
  unfold halflifeVariance
  have : (∑ u ∈ Finset.range (t + 1), w u) - (∑ u ∈ Finset.range (t + 1), w u ^ 2) / ∑ u ∈ Finset.range (t + 1), w u
      = ((∑ u ∈ Finset.range (t + 1), w u) * (∑ u ∈ Finset.range (t + 1), w u) - ∑ u ∈ Finset.range (t + 1), w u ^ 2)
        / ∑ u ∈ Finset.range (t + 1), w u := by
    field_simp
  rw [this]
  rw [div_div_eq_mul_div, mul_comm]

/-- **C121.** On rows from the third on the deviation is at least zero; it is zero exactly if the asset had the same return on
all rows before. A constant added to the returns does not change it, and a factor multiplies it by its absolute value. -/
theorem C121_facts (h : ℝ) (x : ℕ → ℝ) {t : ℕ} (ht : 1 ≤ t) :
    0 ≤ halflifeVariance h x t ∧ (Real.sqrt (halflifeVariance h x t) = 0 ↔ ∀ u ≤ t, x u = x 0) ∧
    (∀ c, Real.sqrt (halflifeVariance h (fun s => x s + c) t) = Real.sqrt (halflifeVariance h x t)) ∧
    ∀ c, Real.sqrt (halflifeVariance h (fun s => c * x s) t) = |c| * Real.sqrt (halflifeVariance h x t) := by
  obtain ⟨hp, hpos⟩ := C121_pairs h x ht
  have hwp : ∀ u : ℕ, 0 < (2 : ℝ) ^ (-((t - u : ℕ) : ℝ) / h) := fun u => Real.rpow_pos_of_pos (by norm_num) _
  have h1 : ∀ u v : ℕ, 0 ≤ ((2 : ℝ) ^ (-((t - u : ℕ) : ℝ) / h) * (2 : ℝ) ^ (-((t - v : ℕ) : ℝ) / h)) * ((x u - x v) ^ 2 / 2) :=
    fun u v => mul_nonneg (mul_pos (hwp u) (hwp v)).le (by positivity)
  have h2 : ∀ u ∈ Finset.range (t + 1), 0 ≤ ∑ v ∈ (Finset.range (t + 1)).erase u,
      ((2 : ℝ) ^ (-((t - u : ℕ) : ℝ) / h) * (2 : ℝ) ^ (-((t - v : ℕ) : ℝ) / h)) * ((x u - x v) ^ 2 / 2) :=
    fun u _ => Finset.sum_nonneg fun v _ => h1 u v
  have hnn : 0 ≤ halflifeVariance h x t := by
    rw [hp]
    exact div_nonneg (Finset.sum_nonneg h2) hpos.le
  refine ⟨hnn, ?_, fun c => ?_, fun c => ?_⟩
  · rw [Real.sqrt_eq_zero hnn, hp, div_eq_zero_iff, or_iff_left hpos.ne', Finset.sum_eq_zero_iff_of_nonneg h2]
    constructor
    · intro hz u hu
      by_cases h0 : u = 0
      · rw [h0]
      · have := (Finset.sum_eq_zero_iff_of_nonneg fun v _ => h1 u v).1 (hz u (Finset.mem_range.2 (by omega))) 0
          (by rw [Finset.mem_erase, Finset.mem_range]; omega)
        rcases mul_eq_zero.1 this with h | h
        · exact absurd h (mul_pos (hwp u) (hwp 0)).ne'
        · have : (x u - x 0) ^ 2 = 0 := by linarith
          exact sub_eq_zero.1 (pow_eq_zero_iff two_ne_zero |>.1 this)
    · intro he u hu
      refine Finset.sum_eq_zero fun v hv => ?_
      rw [Finset.mem_erase, Finset.mem_range] at hv
      rw [Finset.mem_range] at hu
      rw [he u (by omega), he v (by omega)]
      ring
  · congr 1
    rw [(C121_pairs h _ ht).1, hp]
    simp only [add_sub_add_right_eq_sub]
  · have : halflifeVariance h (fun s => c * x s) t = c ^ 2 * halflifeVariance h x t := by
      rw [(C121_pairs h _ ht).1, hp, ← mul_div_assoc, Finset.mul_sum]
      congr 1
      refine Finset.sum_congr rfl fun u _ => ?_
      rw [Finset.mul_sum]
      exact Finset.sum_congr rfl fun v _ => by ring
    rw [this, Real.sqrt_mul (sq_nonneg c), Real.sqrt_sq_eq_abs]

/-- **C121.** With two rows the weights do not matter: it is the sample deviation of the two returns. -/
theorem C121_two_rows (h : ℝ) (x : ℕ → ℝ) : Real.sqrt (halflifeVariance h x 1) = |x 1 - x 0| / Real.sqrt 2 := by
  have : halflifeVariance h x 1 = (x 1 - x 0) ^ 2 / 2 := by
    obtain ⟨hp, hpos⟩ := C121_pairs h x (t := 1) le_rfl
    rw [hp]
    rw [div_eq_iff hpos.ne']
    have e0 : (Finset.range 2).erase 0 = {1} := by decide
    have e1 : (Finset.range 2).erase 1 = {0} := by decide
    rw [show 1 + 1 = 2 from rfl, Finset.sum_range_succ, Finset.sum_range_one, Finset.sum_range_succ, Finset.sum_range_one, e0, e1]
    simp only [Finset.sum_singleton]
    ring
  rw [this, Real.sqrt_div (sq_nonneg _), Real.sqrt_sq_eq_abs]

/-- **C121.** No look-ahead: row `t` only depends on the returns before row `t`. -/
theorem C121_no_lookahead {T T' : ℕ} {tm : ℕ → τ} (htm : Increasing T tm) (htm' : Increasing T' tm) (x x' : ℕ → Vec n) (nDevs : ℝ)
    {t : ℕ} (ht : t < T) (ht' : t < T') (hx : ∀ s < t, x s = x' s) : ∃ (d d' : Dict τ (Vec n)) (r : Vec n),
      constructRho (rowDict T tm x) nDevs = .ok d ∧ constructRho (rowDict T' tm x') nDevs = .ok d' ∧
      d.lookup (tm t) = some r ∧ d'.lookup (tm t) = some r := by
  refine ⟨_, _, _, (C121_rho T tm x nDevs).2 (by omega), (C121_rho T' tm x' nDevs).2 (by omega), lookup_rows htm _ ht, ?_⟩
  rw [lookup_rows htm' _ ht']
  congr 1
  funext i
  by_cases h2 : t < 2
  · rw [if_pos h2, if_pos h2]
  · rw [if_neg h2, if_neg h2]
    have e : ∀ s ≤ t - 1, x' s i = x s i := fun s hs => by rw [hx s (by omega)]
    have em : halflifeAverage 125 (fun s => x' s i) (t - 1) = halflifeAverage 125 (fun s => x s i) (t - 1) := by
      unfold halflifeAverage
      congr 1
      refine Finset.sum_congr rfl fun u hu => ?_
      rw [Finset.mem_range] at hu
      dsimp only
      rw [e u (by omega)]
    congr 2
    unfold halflifeVariance
    rw [em]
    congr 1
    refine Finset.sum_congr rfl fun u hu => ?_
    rw [Finset.mem_range] at hu
    dsimp only
    rw [e u (by omega)]

end CovPred
