import Verif.Model.ExpUtils
import Verif.Spec.ExpUtils
import Mathlib.Tactic.FieldSimp
import Mathlib.Tactic.LinearCombination
import Mathlib.LinearAlgebra.Matrix.Notation
import Mathlib.Tactic.NormNum

/-
`rolling_window`.
-/
set_option linter.unusedSectionVars false
namespace CovPred
open Matrix

variable {τ : Type} [LinearOrder τ] {n : ℕ}

theorem outerR_eq_dyad (x : Vec n) : outerR x = dyad x := rfl

/-- the value of `rolling_window` at row `t`, multiplied by its weight -/
private theorem rollingSigma_closed (rows : List (τ × Vec n)) {M : ℕ} (hM : 2 ≤ M) (t : ℕ) :
    ((min (t + 2) M : ℕ) : ℝ) • rollingSigma rows M t
      = dyad (rowAt rows 0) + ∑ s ∈ Finset.Icc (t + 1 - M) t, dyad (rowAt rows s) := by
  induction t with
  | zero =>
    have h1 : min (0 + 2) M = 2 := by omega
    have h2 : 0 + 1 - M = 0 := by omega
    rw [h1, h2, rollingSigma, outerR_eq_dyad]
    simp only [Finset.Icc_self, Finset.sum_singleton]
    push_cast
    rw [two_smul]
  | succ t ih =>
    have ha : ((min (t + 1 + 1) M : ℕ) : ℝ) ≠ 0 := by
      have : min (t + 1 + 1) M ≠ 0 := by omega
      exact_mod_cast this
    have hb : ((min (t + 1 + 2) M : ℕ) : ℝ) ≠ 0 := by
      have : min (t + 1 + 2) M ≠ 0 := by omega
      exact_mod_cast this
    rw [rollingSigma]
    have hcoef : ((min (t + 1 + 2) M : ℕ) : ℝ) * (1 / ((min (t + 1 + 2) M : ℕ) : ℝ) / (1 / ((min (t + 1 + 1) M : ℕ) : ℝ)))
        = ((min (t + 2) M : ℕ) : ℝ) := by
      field_simp
    have hone : ((min (t + 1 + 2) M : ℕ) : ℝ) * (1 / ((min (t + 1 + 2) M : ℕ) : ℝ)) = 1 := mul_one_div_cancel hb
    split
    · rename_i hge
      rw [smul_add, smul_smul, smul_smul, hcoef, hone, one_smul, ih, outerR_eq_dyad, outerR_eq_dyad, add_assoc]
      congr 1
      have e1 : t + 1 - M + 1 = t + 1 + 1 - M := by omega
      rw [← e1, Finset.sum_Icc_succ_top (by omega : t + 1 - M + 1 ≤ t + 1),
        ← Finset.add_sum_Ioc_eq_sum_Icc (f := fun s => dyad (rowAt rows s)) (by omega : t + 1 - M ≤ t)]
      have : Finset.Icc (t + 1 - M + 1) t = Finset.Ioc (t + 1 - M) t := by
        ext x; simp only [Finset.mem_Icc, Finset.mem_Ioc]; omega
      rw [this]
      abel
    · rename_i hlt
      rw [smul_add, smul_smul, smul_smul, hcoef, hone, one_smul, ih, outerR_eq_dyad, add_assoc]
      congr 1
      have e1 : t + 1 + 1 - M = 0 := by omega
      have e2 : t + 1 - M = 0 := by omega
      rw [e1, e2, Finset.sum_Icc_succ_top (by omega : 0 ≤ t + 1)]

private theorem rollingSigma_one (rows : List (τ × Vec n)) (t : ℕ) :
    rollingSigma rows 1 t = dyad (rowAt rows t) := by
  induction t with
  | zero => rfl
  | succ t ih =>
    rw [rollingSigma, ih]
    have h1 : min (t + 1 + 1) 1 = 1 := by omega
    have h2 : min (t + 1 + 2) 1 = 1 := by omega
    rw [if_pos (by omega), h1, h2]
    simp [outerR_eq_dyad]

private theorem rowAt_panel (T : ℕ) (tm : ℕ → τ) (r : ℕ → Vec n) {t : ℕ} (h : t < T) :
    rowAt ((List.range T).map fun t => (tm t, r t)) t = r t := by
  simp [rowAt, h]

private theorem rolling_list (T : ℕ) (tm : ℕ → τ) (r : ℕ → Vec n) (M k : ℕ) :
    List.zip (((((List.range T).map fun t => (tm t, r t))).map Prod.fst).drop k)
      (((List.range T).map (rollingSigma ((List.range T).map fun t => (tm t, r t)) M)).drop k)
    = (List.range' k (T - k)).map fun t => (tm t, rollingSigma ((List.range T).map fun t => (tm t, r t)) M t) := by
  rw [← List.map_drop, ← List.map_drop, ← List.map_drop, List.range_eq_range', List.drop_range', List.map_map]
  rw [List.zip_map']
  simp

/-- **C49.** For a memory of at least two the estimate at row `t` (counted from 0) is
`(r_0 r_0ᵀ + sum of the last min(t + 1, memory) outer products) / min(t + 2, memory)`; the rows before
`max(min_periods, 1)` observations are left out. (At `t = 0` the formula reads `2 r_0 r_0ᵀ / 2`.) -/
theorem C49_rolling_window (T : ℕ) (hT : 0 < T) (tm : ℕ → τ) (r : ℕ → Vec n) {M : ℕ} (hM : 2 ≤ M) (minPeriods : Int) :
    rollingWindow ((List.range T).map fun t => (tm t, r t)) M minPeriods
      = .ok ((List.range' (max minPeriods 1 - 1).toNat (T - (max minPeriods 1 - 1).toNat)).map fun t =>
          (tm t, (1 / ((min (t + 2) M : ℕ) : ℝ)) • (dyad (r 0) + ∑ s ∈ Finset.Icc (t + 1 - M) t, dyad (r s)))) := by
  unfold rollingWindow
  dsimp only
  rw [if_neg (by simp; omega), if_neg (by omega)]
  rw [List.length_map, List.length_range, rolling_list]
  congr 1
  apply List.map_congr_left
  intro t ht
  have htT : t < T := by simp only [List.mem_range'_1] at ht; omega
  congr 1
  have hb : ((min (t + 2) M : ℕ) : ℝ) ≠ 0 := by
    have : min (t + 2) M ≠ 0 := by omega
    exact_mod_cast this
  have := rollingSigma_closed ((List.range T).map fun t => (tm t, r t)) hM t
  rw [rowAt_panel T tm r hT] at this
  have hs : ∑ s ∈ Finset.Icc (t + 1 - M) t, dyad (rowAt ((List.range T).map fun t => (tm t, r t)) s)
      = ∑ s ∈ Finset.Icc (t + 1 - M) t, dyad (r s) := by
    apply Finset.sum_congr rfl
    intro s hs
    rw [rowAt_panel T tm r (by simp only [Finset.mem_Icc] at hs; omega)]
  rw [hs] at this
  rw [← this, smul_smul, one_div, inv_mul_cancel₀ hb, one_smul]

/-- **C49.** So once the memory is full the estimate is the window mean plus `r_0 r_0ᵀ / memory`, forever: the first
return never leaves it, and for a non-zero first return it is never the mean over the window. -/
theorem C49_first_return_stays (T : ℕ) (tm : ℕ → τ) (r : ℕ → Vec n) {M : ℕ} (hM : 2 ≤ M) (minPeriods : Int)
    {S : Dict τ (Mat n)} (h : rollingWindow ((List.range T).map fun t => (tm t, r t)) M minPeriods = .ok S)
    {t : ℕ} (ht : t < T) (hmp : minPeriods ≤ t + 1) (hfull : M ≤ t + 1) :
    (tm t, windowMean r M t + (1 / (M : ℝ)) • dyad (r 0)) ∈ S ∧
      (r 0 ≠ 0 → windowMean r M t + (1 / (M : ℝ)) • dyad (r 0) ≠ windowMean r M t) := by
  rw [C49_rolling_window T (by omega) tm r hM minPeriods] at h
  cases h
  constructor
  · rw [List.mem_map]
    refine ⟨t, ?_, ?_⟩
    · simp only [List.mem_range'_1]; omega
    · have : min (t + 2) M = M := by omega
      rw [this, smul_add, add_comm]
      rfl
  · intro h0 heq
    apply h0
    have hM0 : (M : ℝ) ≠ 0 := by
      have : M ≠ 0 := by omega
      exact_mod_cast this
    have h1 : (1 / (M : ℝ)) • dyad (r 0) = 0 := by simpa using heq
    have h2 : dyad (r 0) = 0 := by
      rcases smul_eq_zero.1 h1 with h | h
      · exact absurd h (one_div_ne_zero hM0)
      · exact h
    funext i
    have := congrFun (congrFun h2 i) i
    simpa [dyad] using this

/-- **C49.** With a memory of one the estimate is the last outer product alone. -/
theorem C49_memory_one (T : ℕ) (hT : 0 < T) (tm : ℕ → τ) (r : ℕ → Vec n) (minPeriods : Int) :
    rollingWindow ((List.range T).map fun t => (tm t, r t)) 1 minPeriods
      = .ok ((List.range' (max minPeriods 1 - 1).toNat (T - (max minPeriods 1 - 1).toNat)).map fun t =>
          (tm t, dyad (r t))) := by
  unfold rollingWindow
  dsimp only
  rw [if_neg (by simp; omega), if_neg (by omega), List.length_map, List.length_range, rolling_list]
  congr 1
  apply List.map_congr_left
  intro t ht
  rw [rollingSigma_one, rowAt_panel T tm r (by simp only [List.mem_range'_1] at ht; omega)]

/-- **C49.** An empty frame raises `IndexError`; a memory of zero fails on any frame with two rows. -/
theorem C49_errors (rows : List (τ × Vec n)) (M : ℕ) (minPeriods : Int) :
    rollingWindow ([] : List (τ × Vec n)) M minPeriods = .error .indexError ∧
      (2 ≤ rows.length → rollingWindow rows 0 minPeriods = .error .other) := by
  constructor
  · simp [rollingWindow]
  · intro h
    unfold rollingWindow
    dsimp only
    rw [if_neg (by omega), if_pos ⟨rfl, h⟩]

/-- Three rows, memory two: the third estimate holds all three returns, although the window has two. -/
example : ∃ S, rollingWindow ((List.range 3).map fun t : ℕ => (t, (![(t : ℝ) + 1] : Vec 1))) 2 1 = .ok S ∧
    (2, windowMean (fun t => (![(t : ℝ) + 1] : Vec 1)) 2 2 + (1 / ((2 : ℕ) : ℝ)) • dyad (![((0 : ℕ) : ℝ) + 1] : Vec 1)) ∈ S ∧
    windowMean (fun t => (![(t : ℝ) + 1] : Vec 1)) 2 2 + (1 / ((2 : ℕ) : ℝ)) • dyad (![((0 : ℕ) : ℝ) + 1] : Vec 1)
      ≠ windowMean (fun t => (![(t : ℝ) + 1] : Vec 1)) 2 2 := by
  have h := C49_rolling_window 3 (by norm_num) (fun t => t) (fun t => (![(t : ℝ) + 1] : Vec 1)) (M := 2) le_rfl 1
  refine ⟨_, h, ?_⟩
  have := C49_first_return_stays 3 (fun t => t) (fun t => (![(t : ℝ) + 1] : Vec 1)) (M := 2) le_rfl 1 h
    (t := 2) (by norm_num) (by norm_num) (by norm_num)
  refine ⟨this.1, this.2 ?_⟩
  intro h0
  have := congrFun h0 0
  norm_num at this

end CovPred
