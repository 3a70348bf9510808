import Verif.Props.RealizedEwma
import Verif.Props.Smoothing

/-
Properties C136 and C137: `ewma_smoothing` and `frob_difference`.
-/
set_option linter.unusedSectionVars false
namespace CovPred
open Matrix

variable {τ : Type} [LinearOrder τ] {n : ℕ}

/-- The half-life weighted average of the matrices `X 0, ..., X k`, entry by entry. -/
noncomputable def averageMat (h : ℝ) (X : ℕ → Mat n) (k : ℕ) : Mat n :=
  Matrix.of fun i j => halflifeAverage h (fun s => X s i j) k

/-- **C136.** `ewma_smoothing` of the matrices `X 0, ..., X K` (for the dates `times 0, ..., times K`) returns for every date BUT
THE FIRST the half-life weighted average of all matrices up to and including that date. -/
theorem C136_average {h : ℝ} (hh : 0 < h) (times : ℕ → τ) (X : ℕ → Mat n) (K : ℕ) :
    ewmaSmoothing ((List.range (K + 1)).map fun i => (times i, X i)) (XR.fin h)
      = .ok ((List.range' 1 K).map fun k => (times k, Arr.ofFn fun ij => XR.fin
        ((∑ s ∈ Finset.range (k + 1), (2 : ℝ) ^ (-((k - s : ℕ) : ℝ) / h) * X s ij.1 ij.2)
          / ∑ s ∈ Finset.range (k + 1), (2 : ℝ) ^ (-((k - s : ℕ) : ℝ) / h)))) := by
  have h1 := ewmaDict_fin hh times (fun s (ij : Fin n × Fin n) => X s ij.1 ij.2) none K
  unfold ewmaSmoothing matFrame
  rw [List.map_map]
  change (match ewmaDict ((List.range (K + 1)).map fun s =>
    (times s, finRow fun ij : Fin n × Fin n => X s ij.1 ij.2)) (XR.fin h) none none with
    | (items, none) => Except.ok items
    | (_, some e) => Except.error e) = _
  rw [h1]
  rfl

private theorem weight_pos (h : ℝ) (k : ℕ) : 0 < ∑ s ∈ Finset.range (k + 1), (2 : ℝ) ^ (-((k - s : ℕ) : ℝ) / h) :=
  Finset.sum_pos (fun s _ => Real.rpow_pos_of_pos (by norm_num) _) ⟨0, by simp⟩

private theorem average_sub (h : ℝ) (X : ℕ → Mat n) (B : Mat n) (k : ℕ) :
    averageMat h (fun s => X s - B) k = averageMat h X k - B := by
  ext i j
  have hw := (weight_pos h k).ne'
  simp only [averageMat, Matrix.of_apply, Matrix.sub_apply]
  unfold halflifeAverage
  simp only [mul_sub, Finset.sum_sub_distrib, ← Finset.sum_mul]
  field_simp

private theorem average_psd (h : ℝ) {X : ℕ → Mat n} {k : ℕ} (hX : ∀ s ≤ k, (X s).PosSemidef) :
    (averageMat h X k).PosSemidef := by
  have : averageMat h X k = averageMat h (fun s => if s ≤ k then X s else 0) k := by
    ext i j
    simp only [averageMat, Matrix.of_apply]
    unfold halflifeAverage
    congr 1
    refine Finset.sum_congr rfl fun s hs => ?_
    rw [Finset.mem_range] at hs
    dsimp only
    rw [if_pos (by omega : s ≤ k)]
  rw [this]
  refine avg_posSemidef (fun s => ?_) k
  split
  · exact hX s ‹_›
  · exact Matrix.PosSemidef.zero

/-- **C136.** Every smoothed matrix is as good a covariance as the ones averaged: bounds `B ⪯ X s ⪯ C` (in the order of
positive semidefinite matrices) carry over, so does positive semidefiniteness and positive definiteness, and matrices that
have not changed are returned unchanged. -/
theorem C136_valid {h : ℝ} (hh : 0 < h) (times : ℕ → τ) (X : ℕ → Mat n) (K : ℕ) :
    ∃ Y : ℕ → Mat n,
      ewmaSmoothing ((List.range (K + 1)).map fun i => (times i, X i)) (XR.fin h)
        = .ok ((List.range' 1 K).map fun k => (times k, Arr.ofFn fun ij => XR.fin (Y k ij.1 ij.2))) ∧
      ∀ k, (∀ B, (∀ s ≤ k, (X s - B).PosSemidef) → (Y k - B).PosSemidef) ∧
        (∀ C, (∀ s ≤ k, (C - X s).PosSemidef) → (C - Y k).PosSemidef) ∧
        ((∀ s ≤ k, (X s).PosSemidef) → (Y k).PosSemidef) ∧
        ((∀ s ≤ k, (X s).PosDef) → (Y k).PosDef) ∧
        (∀ A, (∀ s ≤ k, X s = A) → Y k = A) := by
  refine ⟨averageMat h X, C136_average hh times X K, fun k => ⟨fun B hB => ?_, fun C hC => ?_, average_psd h, ?_, ?_⟩⟩
  · rw [← average_sub]; exact average_psd h hB
  · have e : C - averageMat h X k = averageMat h (fun s => C - X s) k := by
      have := average_sub h X C k
      rw [← neg_sub, ← this]
      ext i j
      simp only [averageMat, Matrix.of_apply, Matrix.sub_apply, Matrix.neg_apply]
      unfold halflifeAverage
      rw [← neg_div, ← Finset.sum_neg_distrib]
      congr 1
      exact Finset.sum_congr rfl fun s _ => by ring
    rw [e]; exact average_psd h hC
  · intro hX
    have hw := weight_pos h k
    generalize hW : (∑ s ∈ Finset.range (k + 1), (2 : ℝ) ^ (-((k - s : ℕ) : ℝ) / h)) = W at hw
    have e : averageMat h X k = (1 / W) • X k
        + ∑ s ∈ Finset.range k, ((2 : ℝ) ^ (-((k - s : ℕ) : ℝ) / h) / W) • X s := by
      ext i j
      rw [Matrix.add_apply, Matrix.sum_apply]
      simp only [averageMat, Matrix.of_apply, Matrix.smul_apply, smul_eq_mul]
      unfold halflifeAverage
      rw [hW, Finset.sum_range_succ, add_div, add_comm, Finset.sum_div]
      congr 1
      · simp; ring
      · exact Finset.sum_congr rfl fun s _ => by ring
    rw [e]
    refine ((hX k le_rfl).smul (by positivity)).add_posSemidef (Matrix.posSemidef_sum _ fun s hs => ?_)
    rw [Finset.mem_range] at hs
    exact (hX s (by omega)).posSemidef.smul (div_nonneg (Real.rpow_nonneg (by norm_num) _) hw.le)
  · intro A hA
    ext i j
    simp only [averageMat, Matrix.of_apply]
    unfold halflifeAverage
    have : ∑ s ∈ Finset.range (k + 1), (2 : ℝ) ^ (-((k - s : ℕ) : ℝ) / h) * X s i j
        = (∑ s ∈ Finset.range (k + 1), (2 : ℝ) ^ (-((k - s : ℕ) : ℝ) / h)) * A i j := by
      rw [Finset.sum_mul]
      refine Finset.sum_congr rfl fun s hs => ?_
      rw [Finset.mem_range] at hs
      rw [hA s (by omega)]
    rw [this]
    exact mul_div_cancel_left₀ _ (weight_pos h k).ne'

/-- **C136.** The smoothed matrix of a date uses no later matrix, and the first date is not among the results (a single
date gives an empty dictionary, no date raises `IndexError`). -/
theorem C136_causal {h : ℝ} (hh : 0 < h) {K K' : ℕ} {times : ℕ → τ} (ht : ∀ a b, times a = times b → a = b) {X X' : ℕ → Mat n}
    {D D' : Dict τ (Arr (Fin n × Fin n) XR)}
    (hD : ewmaSmoothing ((List.range (K + 1)).map fun i => (times i, X i)) (XR.fin h) = .ok D)
    (hD' : ewmaSmoothing ((List.range (K' + 1)).map fun i => (times i, X' i)) (XR.fin h) = .ok D') :
    (∀ k, k ≤ K → k ≤ K' → (∀ s ≤ k, X s = X' s) → D.lookup (times k) = D'.lookup (times k)) ∧
    D.lookup (times 0) = none ∧ D.length = K ∧
    ewmaSmoothing ([] : Dict τ (Mat n)) (XR.fin h) = .error .indexError := by
  rw [C136_average hh] at hD hD'
  cases hD
  cases hD'
  have hlk : ∀ (L k : ℕ) (f : ℕ → Arr (Fin n × Fin n) XR),
      ((List.range' 1 L).map fun i => (times i, f i)).lookup (times k) = if 1 ≤ k ∧ k ≤ L then some (f k) else none := by
    intro L k f
    have gen : ∀ (m a : ℕ), ((List.range' a m).map fun i => (times i, f i)).lookup (times k)
        = if a ≤ k ∧ k < a + m then some (f k) else none := by
      intro m
      induction m with
      | zero => intro a; rw [if_neg (by omega)]; rfl
      | succ m ih =>
        intro a
        rw [List.range'_succ, List.map_cons, List.lookup_cons]
        by_cases hka : k = a
        · subst hka
          rw [if_pos (by omega)]
          simp
        · have : (times k == times a) = false := by
            rw [beq_eq_false_iff_ne]; exact fun hc => hka (ht _ _ hc)
          rw [this, ih]
          by_cases hc : a + 1 ≤ k ∧ k < a + 1 + m
          · rw [if_pos hc, if_pos (by omega)]
          · rw [if_neg hc, if_neg (by omega)]
    rw [gen]
    by_cases hc : 1 ≤ k ∧ k < 1 + L
    · rw [if_pos hc, if_pos (by omega)]
    · rw [if_neg hc, if_neg (by omega)]
  refine ⟨fun k hk hk' hX => ?_, ?_, by simp, rfl⟩
  · rw [hlk, hlk]
    by_cases hc : 1 ≤ k
    · rw [if_pos ⟨hc, hk⟩, if_pos ⟨hc, hk'⟩]
      congr 2
      funext ij
      congr 2
      refine Finset.sum_congr rfl fun s hs => ?_
      rw [Finset.mem_range] at hs
      rw [hX s (by omega)]
    · rw [if_neg (by omega), if_neg (by omega)]
  · rw [hlk, if_neg (by omega)]

/-- Both cases occur: three dates, two smoothed matrices. -/
example (X : ℕ → Mat 2) : ∃ D, ewmaSmoothing ((List.range 3).map fun i : ℕ => (i, X i)) (XR.fin 1) = .ok D ∧
    D.map Prod.fst = [1, 2] ∧ ((∀ s, (X s).PosDef) → ∃ Y : Mat 2, Y.PosDef ∧ ∀ p ∈ D, p.1 = 2 →
      ∀ i j, p.2 (i, j) = XR.fin (Y i j)) := by
  obtain ⟨Y, hY, hv⟩ := C136_valid (h := 1) one_pos (fun i : ℕ => i) X 2
  refine ⟨_, hY, rfl, fun hX => ⟨Y 2, (hv 2).2.2.2.1 fun s _ => hX s, ?_⟩⟩
  intro p hp h2 i j
  simp only [List.range', List.map_cons, List.map_nil, List.mem_cons, List.not_mem_nil, or_false] at hp
  rcases hp with rfl | rfl
  · simp at h2
  · simp

/-! ### C137: `frob_difference` -/

private theorem frobDiff_eq {τ : Type} (times : ℕ → τ) (X : ℕ → Mat n) : ∀ (m a : ℕ),
    frobDiffLoop (X a) ((List.range' (a + 1) m).map fun i => (times i, X i))
      = (List.range' (a + 1) m).map fun i => (times i,
        XR.fin (dist2 (X i) (X (i - 1))) / XR.fin (dist2 (X (i - 1)) 0)) := by
  intro m
  induction m with
  | zero => intro a; rfl
  | succ m ih =>
    intro a
    rw [List.range'_succ, List.map_cons, List.map_cons, frobDiffLoop, ih]
    simp only [Nat.add_sub_cancel, dist2, sub_zero]
    rfl

private theorem pos_div_zero {x : ℝ} (hx : 0 < x) : (XR.fin x / XR.fin 0 : XR) = XR.pinf := by
  change XR.div _ _ = _
  simp [XR.div, XR.infSign, hx, hx.ne']

private theorem zero_div_zero : (XR.fin 0 / XR.fin 0 : XR) = XR.nan := by
  change XR.div _ _ = _
  simp [XR.div, XR.infSign]

/-- **C137.** `frob_difference` of the matrices `X 0, ..., X K` returns one number for every date but the first: the
Frobenius distance from the matrix of the date before, relative to the Frobenius norm of that one. -/
theorem C137_value (times : ℕ → τ) (X : ℕ → Mat n) (K : ℕ) (hX : ∀ k < K, X k ≠ 0) :
    frobDifference ((List.range (K + 1)).map fun i => (times i, X i))
      = .ok ((List.range K).map fun k => (times (k + 1), XR.fin
        (Real.sqrt (∑ i, ∑ j, (X (k + 1) i j - X k i j) ^ 2) / Real.sqrt (∑ i, ∑ j, X k i j ^ 2)))) := by
  rw [List.range_eq_range', List.range'_succ, List.map_cons, frobDifference, frobDiff_eq, List.range'_eq_map_range,
    List.map_map]
  congr 1
  refine List.map_congr_left fun k hk => ?_
  rw [List.mem_range] at hk
  have hne : dist2 (X k) 0 ≠ 0 := by
    have : dist2 (X k) 0 = frobNorm (X k) := by simp [dist2, frobNorm_eq_frob]
    rw [this, Ne, frobNorm_zero_iff]
    exact hX k hk
  have e' : 0 + 1 + k = k + 1 := by omega
  simp only [Function.comp, e', Nat.add_sub_cancel]
  rw [XR.fin_div hne]
  simp [dist2, frob]

/-- **C137.** The numbers are not negative, they are zero exactly where the matrix has not changed, they do not depend on the
unit of the returns; where a matrix is zero the next number is `nan` (if the next is zero too) or `+inf`; an empty dictionary raises
`ValueError`. -/
theorem C137_laws (times : ℕ → τ) (X : ℕ → Mat n) (K : ℕ) :
    ∃ d : ℕ → XR, frobDifference ((List.range (K + 1)).map fun i => (times i, X i))
        = .ok ((List.range K).map fun k => (times (k + 1), d k)) ∧
      (∀ c : ℝ, c ≠ 0 → frobDifference ((List.range (K + 1)).map fun i => (times i, c • X i))
        = .ok ((List.range K).map fun k => (times (k + 1), d k))) ∧
      (∀ k, X k ≠ 0 → ∃ x : ℝ, d k = XR.fin x ∧ 0 ≤ x ∧ (x = 0 ↔ X (k + 1) = X k)) ∧
      (∀ k, X k = 0 → X (k + 1) = 0 → d k = XR.nan) ∧
      (∀ k, X k = 0 → X (k + 1) ≠ 0 → d k = XR.pinf) ∧
      frobDifference ([] : Dict τ (Mat n)) = .error .valueError := by
  have hform : ∀ Z : ℕ → Mat n, frobDifference ((List.range (K + 1)).map fun i => (times i, Z i))
      = .ok ((List.range K).map fun k => (times (k + 1), XR.fin (frobNorm (Z (k + 1) - Z k)) / XR.fin (frobNorm (Z k)))) := by
    intro Z
    rw [List.range_eq_range', List.range'_succ, List.map_cons, frobDifference, frobDiff_eq, List.range'_eq_map_range,
      List.map_map]
    congr 1
    refine List.map_congr_left fun k hk => ?_
    have e' : 0 + 1 + k = k + 1 := by omega
    simp only [Function.comp, e', Nat.add_sub_cancel]
    simp [dist2, frobNorm_eq_frob]
  refine ⟨fun k => XR.fin (frobNorm (X (k + 1) - X k)) / XR.fin (frobNorm (X k)), hform X, fun c hc => ?_, fun k hk => ?_,
    fun k h0 h1 => ?_, fun k h0 h1 => ?_, rfl⟩
  · rw [hform fun i => c • X i]
    congr 1
    refine List.map_congr_left fun k _ => ?_
    have hcp : 0 < |c| := abs_pos.mpr hc
    simp only [Prod.mk.injEq, true_and]
    rw [← smul_sub, frobNorm_smul, frobNorm_smul]
    by_cases hk : X k = 0
    · have h0 : frobNorm (X k) = 0 := (frobNorm_zero_iff _).mpr hk
      rw [h0, mul_zero, hk, sub_zero]
      by_cases h1 : X (k + 1) = 0
      · rw [(frobNorm_zero_iff _).mpr h1, mul_zero]
      · have hp : 0 < frobNorm (X (k + 1)) :=
          lt_of_le_of_ne (frobNorm_nonneg _) fun h => h1 ((frobNorm_zero_iff _).mp h.symm)
        have hp' : 0 < |c| * frobNorm (X (k + 1)) := mul_pos hcp hp
        rw [pos_div_zero hp, pos_div_zero hp']
    · have hne : frobNorm (X k) ≠ 0 := fun h => hk ((frobNorm_zero_iff _).mp h)
      rw [XR.fin_div (mul_ne_zero hcp.ne' hne), XR.fin_div hne, mul_div_mul_left _ _ hcp.ne']
  · have hne : frobNorm (X k) ≠ 0 := fun h => hk ((frobNorm_zero_iff _).mp h)
    refine ⟨_, XR.fin_div hne, div_nonneg (frobNorm_nonneg _) (frobNorm_nonneg _), ?_⟩
    rw [div_eq_zero_iff, frobNorm_zero_iff, sub_eq_zero]
    exact ⟨fun h => h.resolve_right hne, Or.inl⟩
  · dsimp only
    rw [h0, h1, sub_zero, (frobNorm_zero_iff (0 : Mat n)).mpr rfl]
    exact zero_div_zero
  · dsimp only
    rw [h0, sub_zero, (frobNorm_zero_iff (0 : Mat n)).mpr rfl]
    exact pos_div_zero (lt_of_le_of_ne (frobNorm_nonneg _) fun h => h1 ((frobNorm_zero_iff _).mp h.symm))

end CovPred
