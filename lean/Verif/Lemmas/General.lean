import Verif.Model.Ewma
import Verif.Lemmas.XR
import Verif.Spec.Ewma

/-
Unrolling of `general` into a sequence, for any scalar type; and the finite case over `XR`.
-/
namespace CovPred
open Scalar

section Generic
variable {τ ι κ : Type} [Ix ι] [Ix κ] {α : Type} [Scalar α]

/-- the sequence of values of `_ewma` for the data `x 0, x 1, ...` -/
def ewSeq (beta : α) (minP : Int) (clipAt : Option α) (x : ℕ → Arr κ α) : ℕ → Arr κ α
  | 0 => x 0
  | n + 1 => ewmaUpdate beta minP clipAt (n + 1) (ewSeq beta minP clipAt x n) (x (n + 1))

theorem ewSeq_congr {beta : α} {minP : Int} {clipAt : Option α} {x y : ℕ → Arr κ α} {n : ℕ}
    (h : ∀ k ≤ n, x k = y k) : ewSeq beta minP clipAt x n = ewSeq beta minP clipAt y n := by
  induction n with
  | zero => exact h 0 le_rfl
  | succ n ih =>
    simp only [ewSeq]
    rw [ih (fun k hk => h k (by omega)), h (n + 1) le_rfl]

theorem generalLoop_range (beta : α) (fct : Arr ι α → Arr κ α) (minP : Int) (clipAt : Option α)
    (tm : ℕ → τ) (y : ℕ → Arr ι α) (m s : ℕ) :
    generalLoop beta fct minP clipAt (s + 1) (ewSeq beta minP clipAt (fun k => fct (y k)) s)
      ((List.range' (s + 1) m).map fun k => (tm k, y k)) =
    (List.range' (s + 1) m).map fun k =>
      (tm k, maskWarmup minP k (ewSeq beta minP clipAt (fun k => fct (y k)) k)) := by
  induction m generalizing s with
  | zero => simp [generalLoop]
  | succ m ih =>
    rw [List.range'_succ]
    simp only [List.map_cons, generalLoop]
    congr 1
    exact ih (s + 1)

/-- `general` on the rows `0..T-1`. -/
theorem general_range {beta : α} {hl al : Option α} (hb : decay hl al = .ok beta)
    (fct : Arr ι α → Arr κ α) (minP : Int) (clipAt : Option α) (tm : ℕ → τ) (y : ℕ → Arr ι α) {T : ℕ}
    (hT : 0 < T) :
    general ((List.range T).map fun k => (tm k, y k)) hl al fct minP clipAt =
      .ok ((List.range T).map fun k =>
        (tm k, maskWarmup minP k (ewSeq beta minP clipAt (fun k => fct (y k)) k))) := by
  obtain ⟨m, rfl⟩ : ∃ m, T = m + 1 := ⟨T - 1, by omega⟩
  unfold general
  rw [hb]
  rw [List.range_eq_range', List.range'_succ]
  simp only [List.map_cons, Nat.zero_add]
  have := generalLoop_range beta fct minP clipAt tm y m 0
  simp only [Nat.zero_add, ewSeq] at this
  rw [this]
  rfl

/-- every frame is a frame of numbered rows -/
theorem frame_eq_range {A : Type} (f : List A) (d : A) :
    f = (List.range f.length).map fun k => f.getD k d := by
  apply List.ext_getElem
  · simp
  · intro n h1 h2
    simp [h1]

end Generic

/-! ### finite data -/
open XR

/-- the decay factor of a half-life -/
noncomputable def betaOf (h : ℝ) : ℝ := Real.exp (-Real.log 2 / h)

theorem decay_fin {h : ℝ} (hh : h ≠ 0) (al : Option XR) : decay (some (fin h)) al = .ok (fin (betaOf h)) := by
  have : Scalar.truthy (some (fin h)) = some (fin h) := by
    simp only [Scalar.truthy]
    rw [if_neg]
    rw [isZero_fin]; exact hh
  unfold decay
  rw [this]
  simp only [lit_def, Nat.cast_ofNat]
  rw [fin_log (by norm_num), fin_neg, fin_div hh, fin_exp, one_def, fin_sub, fin_sub]
  simp [betaOf]

theorem betaOf_pos (h : ℝ) : 0 < betaOf h := Real.exp_pos _
theorem betaOf_lt_one {h : ℝ} (hh : 0 < h) : betaOf h < 1 := by
  unfold betaOf
  rw [Real.exp_lt_one_iff]
  exact div_neg_of_neg_of_pos (by have := Real.log_pos (show (1:ℝ) < 2 by norm_num); linarith) hh
theorem betaOf_pow (h : ℝ) (m : ℕ) : betaOf h ^ m = (2 : ℝ) ^ (-(m : ℝ) / h) := by
  rw [Real.rpow_def_of_pos (by norm_num), betaOf, ← Real.exp_nat_mul]
  congr 1
  ring

/-- the weighted average in terms of the decay factor -/
noncomputable def emaAvg (b : ℝ) (x : ℕ → ℝ) (t : ℕ) : ℝ :=
  (∑ k ∈ Finset.range (t + 1), b ^ (t - k) * x k) / ∑ k ∈ Finset.range (t + 1), b ^ (t - k)

theorem halflifeAverage_eq (h : ℝ) (x : ℕ → ℝ) (t : ℕ) : halflifeAverage h x t = emaAvg (betaOf h) x t := by
  simp only [halflifeAverage, emaAvg, betaOf_pow]

theorem emaNum_succ (b : ℝ) (x : ℕ → ℝ) (t : ℕ) :
    ∑ k ∈ Finset.range (t + 2), b ^ (t + 1 - k) * x k =
      b * ∑ k ∈ Finset.range (t + 1), b ^ (t - k) * x k + x (t + 1) := by
  rw [Finset.sum_range_succ, Finset.mul_sum]
  congr 1
  · apply Finset.sum_congr rfl
    intro k hk
    have hk := Finset.mem_range.mp hk
    rw [show t + 1 - k = (t - k) + 1 by omega, pow_succ]; ring
  · simp

theorem emaDen_eq {b : ℝ} (hb : b ≠ 1) (t : ℕ) :
    ∑ k ∈ Finset.range (t + 1), b ^ (t - k) = (1 - b ^ (t + 1)) / (1 - b) := by
  have h1 : (1 - b) ≠ 0 := sub_ne_zero.mpr (Ne.symm hb)
  induction t with
  | zero => simp [h1]
  | succ t ih =>
    have := emaNum_succ b (fun _ => 1) t
    simp only [mul_one] at this
    rw [this, ih]
    field_simp
    ring

theorem one_sub_pow_pos {b : ℝ} (h0 : 0 < b) (h1 : b < 1) (n : ℕ) : 0 < 1 - b ^ (n + 1) :=
  sub_pos.mpr (pow_lt_one₀ h0.le h1 (by omega))

theorem emaAvg_succ {b : ℝ} (h0 : 0 < b) (h1 : b < 1) (x : ℕ → ℝ) (t : ℕ) :
    emaAvg b x t + (1 - b) * (x (t + 1) - emaAvg b x t) / (1 - b ^ (t + 1 + 1)) = emaAvg b x (t + 1) := by
  have hd : (1 : ℝ) - b ≠ 0 := by linarith
  have hp := (one_sub_pow_pos h0 h1 t).ne'
  have hq := (one_sub_pow_pos h0 h1 (t + 1)).ne'
  have hnum := emaNum_succ b x t
  unfold emaAvg
  rw [hnum, emaDen_eq h1.ne t, emaDen_eq h1.ne (t + 1)]
  generalize ∑ k ∈ Finset.range (t + 1), b ^ (t - k) * x k = S
  field_simp
  ring

/-- without clipping the state is the weighted average -/
theorem ewSeq_fin {κ : Type} [Ix κ] {b : ℝ} (h0 : 0 < b) (h1 : b < 1) (minP : Int) (x : ℕ → κ → ℝ) (n : ℕ) :
    ewSeq (fin b) minP none (fun k => finRow (x k)) n = finRow fun i => emaAvg b (fun k => x k i) n := by
  induction n with
  | zero => ext i; simp [ewSeq, finRow, emaAvg]
  | succ n ih =>
    simp only [ewSeq, ewmaUpdate, Scalar.truthy]
    rw [ih]
    ext i
    simp only [finRow, Arr.get_ofFn, one_def, fin_sub, fin_mul, fin_npow]
    rw [fin_div (one_sub_pow_pos h0 h1 (n + 1)).ne', fin_add, emaAvg_succ h0 h1]

theorem all_isNaN_finRow {κ : Type} [Ix κ] [Nonempty κ] (x : κ → ℝ) : (finRow x).all Scalar.isNaN = false := by
  obtain ⟨i⟩ := ‹Nonempty κ›
  rw [Bool.eq_false_iff]
  intro h
  have := (Arr.all_iff _ _).mp h i
  simp [finRow] at this

theorem all_isNaN_mulNan {κ : Type} [Ix κ] (x : Arr κ XR) : (x.map (· * Scalar.nan)).all Scalar.isNaN = true := by
  rw [Arr.all_iff]; intro i; simp [nan_def]

/-- filtering out the warm-up rows -/
theorem filter_mask {τ κ : Type} [Ix κ] [Nonempty κ] (minP : Int) (tm : ℕ → τ) (x : ℕ → κ → ℝ) (l : List ℕ) :
    ((l.map fun k => (tm k, maskWarmup minP k (finRow (x k)))).filter fun p => !(p.2.all Scalar.isNaN)) =
      finRows (l.filter fun t => minP - 1 ≤ (t : Int)) tm x := by
  induction l with
  | nil => rfl
  | cons k l ih =>
    rw [List.map_cons, List.filter_cons, List.filter_cons, ih]
    unfold maskWarmup
    by_cases h : (k : Int) < minP - 1
    · simp [h, all_isNaN_mulNan, not_le.mpr h]
    · simp [h, all_isNaN_finRow, not_lt.mp h, finRows]

theorem ewmaMean_fin {τ ι : Type} [Ix ι] [Nonempty ι] {h : ℝ} (hh : 0 < h) (minP : Int) {T : ℕ} (hT : 0 < T)
    (tm : ℕ → τ) (x : ℕ → ι → ℝ) :
    ewmaMean (finFrame T tm x) (fin h) minP none =
      .ok (finRows (rowsFrom minP T) tm fun t i => emaAvg (betaOf h) (fun k => x k i) t) := by
  unfold ewmaMean finFrame finRows
  rw [general_range (decay_fin hh.ne' none) _ _ _ _ _ hT]
  simp only [ewSeq_fin (betaOf_pos h) (betaOf_lt_one hh), Except.map]
  rw [filter_mask]
  rfl

end CovPred
