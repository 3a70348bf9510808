import Verif.Lemmas.IewmaMain

/-
More facts about the winsorised variance recursion and the weighted average.
-/
namespace CovPred
open XR

theorem clippedQ_le {mv : Int} {clip : Option ℝ} {n : ℕ} {q V : ℝ} : clippedQ mv clip n q V ≤ q := by
  unfold clippedQ
  split
  · split
    · exact min_le_left _ _
    · exact le_rfl
  · exact le_rfl

/-- when the winsorised variance vanishes -/
theorem varSeq_eq_zero_iff {b : ℝ} (h0 : 0 < b) (h1 : b < 1) (mv : Int) (clip : Option ℝ) {q : ℕ → ℝ}
    (hq : ∀ k, 0 ≤ q k) (t : ℕ) :
    varSeq b mv clip q t = 0 ↔ ∀ k ≤ t, (clip = none ∨ (k : Int) ≤ mv ∨ k = 0) → q k = 0 := by
  induction t with
  | zero =>
    constructor
    · intro h k hk _
      have : k = 0 := by omega
      subst this; exact h
    · intro h; exact h 0 le_rfl (Or.inr (Or.inr rfl))
  | succ t ih =>
    have hw := newWeight_pos h0 h1 (t + 1)
    have hw1 := newWeight_lt_one h0 h1 t
    have hV := varSeq_nonneg h0 h1 mv clip hq t
    have hQ := clippedQ_nonneg (mv := mv) (clip := clip) (n := t + 1) (hq (t + 1)) hV
    rw [varSeq_succ]
    have hsum : (1 - newWeight b (t + 1)) * varSeq b mv clip q t +
        newWeight b (t + 1) * clippedQ mv clip (t + 1) (q (t + 1)) (varSeq b mv clip q t) = 0 ↔
        varSeq b mv clip q t = 0 ∧ clippedQ mv clip (t + 1) (q (t + 1)) (varSeq b mv clip q t) = 0 := by
      rw [add_eq_zero_iff_of_nonneg (mul_nonneg (by linarith) hV) (mul_nonneg hw.le hQ)]
      rw [mul_eq_zero, mul_eq_zero]
      have e1 : ¬ (1 - newWeight b (t + 1) = 0) := by linarith
      have e2 : ¬ (newWeight b (t + 1) = 0) := hw.ne'
      simp [e1, e2]
    rw [hsum, ih]
    constructor
    · rintro ⟨hall, hlast⟩ k hk hc
      rcases Nat.lt_or_ge k (t + 1) with hlt | hge
      · exact hall k (by omega) hc
      · have : k = t + 1 := by omega
        subst this
        unfold clippedQ at hlast
        cases clip with
        | none => exact hlast
        | some c =>
          have : ¬ (mv + 1 ≤ ((t + 1 : ℕ) : Int)) := by
            rcases hc with h | h | h
            · cases h
            · omega
            · omega
          simpa only [if_neg this] using hlast
    · intro hall
      have hprev : ∀ k ≤ t, (clip = none ∨ (k : Int) ≤ mv ∨ k = 0) → q k = 0 := fun k hk hc => hall k (by omega) hc
      refine ⟨hprev, ?_⟩
      have hz := ih.mpr hprev
      rw [hz]
      unfold clippedQ
      cases clip with
      | none => exact hall (t + 1) le_rfl (Or.inl rfl)
      | some c =>
        simp only [mul_zero]
        split
        · exact min_eq_right (hq _)
        · next h => exact hall (t + 1) le_rfl (Or.inr (Or.inl (by omega)))

theorem emaAvg_den_pos {b : ℝ} (h0 : 0 < b) (t : ℕ) : 0 < ∑ k ∈ Finset.range (t + 1), b ^ (t - k) :=
  Finset.sum_pos (fun k _ => pow_pos h0 _) ⟨0, by simp⟩

theorem emaAvg_le {b : ℝ} (h0 : 0 < b) {x : ℕ → ℝ} {t : ℕ} {hi : ℝ} (hx : ∀ k ≤ t, x k ≤ hi) :
    emaAvg b x t ≤ hi := by
  unfold emaAvg
  rw [div_le_iff₀ (emaAvg_den_pos h0 t), Finset.mul_sum]
  apply Finset.sum_le_sum
  intro k hk
  rw [_root_.mul_comm]
  exact mul_le_mul_of_nonneg_right (hx k (by have := Finset.mem_range.mp hk; omega)) (pow_nonneg h0.le _)

theorem le_emaAvg {b : ℝ} (h0 : 0 < b) {x : ℕ → ℝ} {t : ℕ} {lo : ℝ} (hx : ∀ k ≤ t, lo ≤ x k) :
    lo ≤ emaAvg b x t := by
  unfold emaAvg
  rw [le_div_iff₀ (emaAvg_den_pos h0 t), Finset.mul_sum]
  apply Finset.sum_le_sum
  intro k hk
  rw [_root_.mul_comm]
  exact mul_le_mul_of_nonneg_left (hx k (by have := Finset.mem_range.mp hk; omega)) (pow_nonneg h0.le _)

theorem emaAvg_congr {b : ℝ} {x y : ℕ → ℝ} {t : ℕ} (h : ∀ k ≤ t, x k = y k) : emaAvg b x t = emaAvg b y t := by
  unfold emaAvg
  congr 1
  apply Finset.sum_congr rfl
  intro k hk
  rw [h k (by have := Finset.mem_range.mp hk; omega)]

theorem emaAvg_add (b : ℝ) (x y : ℕ → ℝ) (t : ℕ) :
    emaAvg b (fun k => x k + y k) t = emaAvg b x t + emaAvg b y t := by
  unfold emaAvg
  rw [← add_div, ← Finset.sum_add_distrib]
  congr 1
  apply Finset.sum_congr rfl
  intro k _; ring

theorem emaAvg_mul (b c : ℝ) (x : ℕ → ℝ) (t : ℕ) : emaAvg b (fun k => c * x k) t = c * emaAvg b x t := by
  unfold emaAvg
  rw [← mul_div_assoc, Finset.mul_sum]
  congr 1
  apply Finset.sum_congr rfl
  intro k _; ring

theorem emaAvg_const {b : ℝ} (h0 : 0 < b) (c : ℝ) (t : ℕ) : emaAvg b (fun _ => c) t = c := by
  have := emaAvg_den_pos h0 t
  unfold emaAvg
  rw [← Finset.sum_mul, _root_.mul_comm, mul_div_assoc, div_self this.ne', mul_one]

theorem emaAvg_eq_zero_iff {b : ℝ} (h0 : 0 < b) {x : ℕ → ℝ} {t : ℕ} (hx : ∀ k ≤ t, 0 ≤ x k) :
    emaAvg b x t = 0 ↔ ∀ k ≤ t, x k = 0 := by
  unfold emaAvg
  rw [div_eq_zero_iff, or_iff_left (emaAvg_den_pos h0 t).ne', Finset.sum_eq_zero_iff_of_nonneg]
  · constructor
    · intro h k hk
      have := h k (Finset.mem_range.mpr (by omega))
      rcases mul_eq_zero.mp this with h | h
      · exact absurd h (pow_pos h0 _).ne'
      · exact h
    · intro h k hk
      rw [h k (by have := Finset.mem_range.mp hk; omega), mul_zero]
  · intro k hk
    exact mul_nonneg (pow_nonneg h0.le _) (hx k (by have := Finset.mem_range.mp hk; omega))

/-- clipping that never bites changes nothing -/
theorem varSeq_inactive {b : ℝ} (mv : Int) {c : ℝ} {q : ℕ → ℝ} {t : ℕ}
    (h : ∀ k, k + 1 ≤ t → mv + 1 ≤ ((k + 1 : ℕ) : Int) → q (k + 1) ≤ c ^ 2 * varSeq b mv none q k) :
    varSeq b mv (some c) q t = varSeq b mv none q t := by
  induction t with
  | zero => rfl
  | succ t ih =>
    have ih := ih fun k hk => h k (by omega)
    simp only [varSeq, ih]
    have : clippedQ mv (some c) (t + 1) (q (t + 1)) (varSeq b mv none q t) = q (t + 1) := by
      unfold clippedQ
      simp only []
      split
      · next hm => exact min_eq_left (h t le_rfl hm)
      · rfl
    rw [this]
    simp [clippedQ]

theorem frame_of_represents {τ ι : Type} [Ix ι] {f : Frame τ ι XR} {T : ℕ} {tm : ℕ → τ} {x : ℕ → ι → ℝ}
    (hf : Represents f false T tm x) : f = finFrame T tm x := by
  obtain ⟨R, rfl, hR⟩ := hf
  unfold finFrame finRows
  apply List.map_congr_left
  intro t ht
  congr 1
  ext i
  rcases hR t (List.mem_range.mp ht) i with h | ⟨h, _⟩
  · rw [h]; simp [finRow]
  · cases h

end CovPred
