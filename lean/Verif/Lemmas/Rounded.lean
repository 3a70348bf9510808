import Verif.Spec.Rounded
import Verif.Lemmas.General
import Mathlib.Analysis.SpecialFunctions.Exponential

/-
Error analysis of one EWMA update, of the decay factor and of the whole recursion, in real numbers.
-/
namespace CovPred

theorem Rounds.abs_le {u η r x : ℝ} (h : Rounds u η r x) : |r| ≤ (1 + u) * |x| + η := by
  unfold Rounds at h
  have := abs_sub_abs_le_abs_sub r x
  linarith

set_option maxHeartbeats 1000000 in
/-- one update with rounding, against the exact update of the same state -/
theorem step_error {u η a d0 A D N Q R E e z : ℝ} (hu : 0 ≤ u) (hη : 0 ≤ η) (ha : 0 < a) (had : a ≤ d0) (hd1 : d0 ≤ 1)
    (he : u + η ≤ a / 24) (hA : |A - a| ≤ u + η) (hD : |D - d0| ≤ 3 * (u + η)) (hN : Rounds u η N z)
    (hQ : Rounds u η Q (A * N)) (hR : Rounds u η R (Q / D)) (hE : Rounds u η E (e + R)) :
    |E - (e + a / d0 * z)| ≤ 25 * ((u + η) / a) * |z| + (u + η) / a * |e| + 8 * (η / a) ∧
    a / 2 ≤ D ∧ |N| ≤ 2 * |z| + η ∧ |Q| ≤ 8 * |z| + 5 * η ∧ |R| ≤ 2 * |z| + 6 * (η / a) := by
  have hd0 : 0 < d0 := lt_of_lt_of_le ha had
  have ha1 : a ≤ 1 := had.trans hd1
  set w := (u + η) / a with hw
  set H := η / a with hH
  set Z := |z| with hZ
  have hZ0 : 0 ≤ Z := abs_nonneg z
  have hwa : w * a = u + η := div_mul_cancel₀ _ ha.ne'
  have hHa : H * a = η := div_mul_cancel₀ _ ha.ne'
  have hw0 : 0 ≤ w := by positivity
  have hH0 : 0 ≤ H := by positivity
  have hw1 : w ≤ 1 / 24 := by rw [hw, div_le_iff₀ ha]; linarith
  have huw : u + η ≤ w := by nlinarith
  have hηH : η ≤ H := by nlinarith
  have hD2 : a / 2 ≤ D := by have := (abs_le.1 hD).1; linarith
  have hDp : 0 < D := by linarith
  -- the gain
  have hg : |A / D - a / d0| ≤ 8 * w := by
    have e1 : A / D - a / d0 = ((A - a) * d0 + a * (d0 - D)) / (D * d0) := by field_simp; ring
    rw [e1, abs_div, abs_of_pos (mul_pos hDp hd0), div_le_iff₀ (mul_pos hDp hd0)]
    have h1 : |(A - a) * d0 + a * (d0 - D)| ≤ (u + η) * d0 + a * (3 * (u + η)) := by
      refine (abs_add_le _ _).trans (add_le_add ?_ ?_)
      · rw [abs_mul, abs_of_pos hd0]; exact mul_le_mul_of_nonneg_right hA hd0.le
      · rw [abs_mul, abs_of_pos ha, abs_sub_comm]; exact mul_le_mul_of_nonneg_left hD ha.le
    have h2 : (u + η) * d0 + a * (3 * (u + η)) ≤ 4 * (u + η) * d0 := by nlinarith
    have h3 : 4 * (u + η) * d0 ≤ 8 * w * (D * d0) := by
      have : 4 * (u + η) ≤ 8 * w * D := by nlinarith
      nlinarith
    linarith
  have hg1 : |a / d0| ≤ 1 := by
    rw [abs_of_pos (by positivity), div_le_one hd0]; exact had
  have hAD : |A / D| ≤ 2 := by
    have := abs_sub_abs_le_abs_sub (A / D) (a / d0); linarith
  have hN1 : |N - z| ≤ w * Z + η := by
    have : u * Z ≤ w * Z := by nlinarith
    unfold Rounds at hN; linarith
  have hN2 : |N| ≤ 2 * Z + η := by
    have := abs_sub_abs_le_abs_sub N z
    nlinarith
  have hQD : |Q / D - A / D * N| ≤ 2 * u * |N| + 2 * H := by
    have e1 : Q / D - A / D * N = (Q - A * N) / D := by field_simp
    rw [e1, abs_div, abs_of_pos hDp]
    unfold Rounds at hQ
    have h1 : |Q - A * N| / D ≤ (u * |A * N| + η) / D := div_le_div_of_nonneg_right hQ hDp.le
    have h2 : (u * |A * N| + η) / D = u * (|A / D| * |N|) + η / D := by
      rw [abs_mul, abs_div, abs_of_pos hDp]; field_simp
    have h3 : η / D ≤ 2 * H := by
      rw [div_le_iff₀ hDp]; nlinarith
    have h4 : u * (|A / D| * |N|) ≤ 2 * u * |N| := by
      have := mul_le_mul_of_nonneg_right hAD (abs_nonneg N)
      nlinarith [mul_le_mul_of_nonneg_left this hu]
    linarith
  have hQg : |Q / D - a / d0 * z| ≤ 21 * w * Z + 4 * H := by
    have e1 : Q / D - a / d0 * z = (Q / D - A / D * N) + ((A / D - a / d0) * N + a / d0 * (N - z)) := by ring
    rw [e1]
    have h1 : |(A / D - a / d0) * N| ≤ 8 * w * (2 * Z + η) := by
      rw [abs_mul]; exact mul_le_mul hg hN2 (abs_nonneg _) (by positivity)
    have h2 : |a / d0 * (N - z)| ≤ w * Z + η := by
      rw [abs_mul]
      calc |a / d0| * |N - z| ≤ 1 * |N - z| := mul_le_mul_of_nonneg_right hg1 (abs_nonneg _)
        _ ≤ _ := by linarith
    have h3 : 2 * u * |N| ≤ 2 * w * (2 * Z + η) := by
      have : u ≤ w := by linarith
      nlinarith [mul_le_mul this hN2 (abs_nonneg N) hw0]
    have h4 : w * η ≤ 1 / 24 * H := mul_le_mul hw1 hηH hη (by norm_num)
    have h5 := abs_add_le (Q / D - A / D * N) ((A / D - a / d0) * N + a / d0 * (N - z))
    have h6 := abs_add_le ((A / D - a / d0) * N) (a / d0 * (N - z))
    linarith
  have hgz : |a / d0 * z| ≤ Z := by
    rw [abs_mul]
    calc |a / d0| * |z| ≤ 1 * |z| := mul_le_mul_of_nonneg_right hg1 (abs_nonneg _)
      _ = Z := by rw [one_mul]
  have hwZ : w * Z ≤ 1 / 24 * Z := mul_le_mul_of_nonneg_right hw1 hZ0
  have hQD2 : |Q / D| ≤ 2 * Z + 4 * H := by
    have := abs_sub_abs_le_abs_sub (Q / D) (a / d0 * z)
    linarith
  have huw' : u ≤ w := by linarith
  have hwH : w * H ≤ 1 / 24 * H := mul_le_mul_of_nonneg_right hw1 hH0
  have hRg : |R - a / d0 * z| ≤ 23 * w * Z + 6 * H := by
    have e1 : R - a / d0 * z = (R - Q / D) + (Q / D - a / d0 * z) := by ring
    rw [e1]
    unfold Rounds at hR
    have h1 := abs_add_le (R - Q / D) (Q / D - a / d0 * z)
    have h2 : u * |Q / D| ≤ w * (2 * Z + 4 * H) := mul_le_mul huw' hQD2 (abs_nonneg _) hw0
    linarith
  have hR2 : |R| ≤ 2 * Z + 6 * H := by
    have := abs_sub_abs_le_abs_sub R (a / d0 * z)
    linarith
  refine ⟨?_, hD2, hN2, ?_, hR2⟩
  · have e1 : E - (e + a / d0 * z) = (E - (e + R)) + (R - a / d0 * z) := by ring
    rw [e1]
    unfold Rounds at hE
    have h1 := abs_add_le (E - (e + R)) (R - a / d0 * z)
    have h2 : u * |e + R| ≤ w * (|e| + (2 * Z + 6 * H)) :=
      mul_le_mul huw' ((abs_add_le e R).trans (by linarith)) (abs_nonneg _) hw0
    linarith
  · have h1 := hQ.abs_le
    have hA2 : |A| ≤ 2 := by
      have := abs_sub_abs_le_abs_sub A a
      rw [abs_of_pos ha] at this; linarith
    have h2 : |A * N| ≤ 2 * (2 * Z + η) := by
      rw [abs_mul]; exact mul_le_mul hA2 hN2 (abs_nonneg _) (by norm_num)
    have hu1 : u ≤ 1 := by linarith
    have h3 : (1 + u) * |A * N| ≤ 2 * (2 * (2 * Z + η)) := mul_le_mul (by linarith) h2 (abs_nonneg _) (by norm_num)
    linarith

end CovPred
