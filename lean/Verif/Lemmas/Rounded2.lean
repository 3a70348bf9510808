import Verif.Lemmas.Rounded

/-
The decay factor with rounding, and how an exponentially weighted average depends on its decay factor.
-/
namespace CovPred

/-! ### the average as a function of the decay factor -/

/-- the sum of the weights of `n + 1` observations -/
noncomputable def weightSum (b : ℝ) : ℕ → ℝ
  | 0 => 1
  | n + 1 => 1 + b * weightSum b n

theorem weightSum_ge_one {b : ℝ} (hb : 0 ≤ b) (n : ℕ) : 1 ≤ weightSum b n := by
  induction n with
  | zero => exact le_rfl
  | succ n ih => rw [weightSum]; nlinarith

theorem weightSum_mono {b : ℝ} (hb : 0 ≤ b) (n : ℕ) : weightSum b n ≤ weightSum b (n + 1) := by
  induction n with
  | zero => simp [weightSum, hb]
  | succ n ih => rw [weightSum, weightSum]; nlinarith

theorem weightSum_eq {b : ℝ} (h1 : b < 1) (n : ℕ) : weightSum b n = (1 - b ^ (n + 1)) / (1 - b) := by
  have : (1 : ℝ) - b ≠ 0 := by linarith
  induction n with
  | zero => simp [weightSum, this]
  | succ n ih => rw [weightSum, ih]; field_simp; ring

theorem weightSum_diff {b c : ℝ} (hb : 0 ≤ b) (hc : 0 ≤ c) (n : ℕ) :
    |weightSum b n - weightSum c n| ≤ |b - c| * (weightSum b n * weightSum c n) := by
  induction n with
  | zero => simp [weightSum]
  | succ n ih =>
    have e : weightSum b (n + 1) - weightSum c (n + 1) = b * (weightSum b n - weightSum c n) + (b - c) * weightSum c n := by
      rw [weightSum, weightSum]; ring
    rw [e]
    have h1 := abs_add_le (b * (weightSum b n - weightSum c n)) ((b - c) * weightSum c n)
    rw [abs_mul, abs_mul, abs_of_nonneg hb, abs_of_nonneg (zero_le_one.trans (weightSum_ge_one hc n))] at h1
    have h2 := mul_le_mul_of_nonneg_left ih hb
    have h3 : |b - c| * (weightSum c n * weightSum b (n + 1)) ≤ |b - c| * (weightSum b (n + 1) * weightSum c (n + 1)) := by
      refine mul_le_mul_of_nonneg_left ?_ (abs_nonneg _)
      have := mul_le_mul_of_nonneg_right (weightSum_mono hc n) (zero_le_one.trans (weightSum_ge_one hb (n + 1)))
      linarith
    have h4 : b * (|b - c| * (weightSum b n * weightSum c n)) + |b - c| * weightSum c n
        = |b - c| * (weightSum c n * weightSum b (n + 1)) := by
      rw [weightSum]; ring
    linarith

/-- the gain of an update is Lipschitz in the decay factor, with constant one -/
theorem gain_diff {b c : ℝ} (hb : 0 ≤ b) (hb1 : b < 1) (hc : 0 ≤ c) (hc1 : c < 1) (n : ℕ) :
    |(1 - b) / (1 - b ^ (n + 1)) - (1 - c) / (1 - c ^ (n + 1))| ≤ |b - c| := by
  have e : ∀ d : ℝ, d < 1 → (1 - d) / (1 - d ^ (n + 1)) = 1 / weightSum d n := fun d hd => by
    rw [weightSum_eq hd, one_div_div]
  rw [e b hb1, e c hc1]
  have hB := zero_lt_one.trans_le (weightSum_ge_one hb n)
  have hC := zero_lt_one.trans_le (weightSum_ge_one hc n)
  have e2 : 1 / weightSum b n - 1 / weightSum c n = (weightSum c n - weightSum b n) / (weightSum b n * weightSum c n) := by
    field_simp
  rw [e2, abs_div, abs_of_pos (mul_pos hB hC), div_le_iff₀ (mul_pos hB hC), abs_sub_comm]
  exact weightSum_diff hb hc n

theorem gain_bounds {b : ℝ} (h0 : 0 < b) (h1 : b < 1) (n : ℕ) :
    1 - b ≤ 1 - b ^ (n + 1) ∧ 1 - b ^ (n + 1) ≤ 1 ∧ 1 - b ≤ (1 - b) / (1 - b ^ (n + 1)) ∧ (1 - b) / (1 - b ^ (n + 1)) ≤ 1 := by
  have hp : b ^ (n + 1) ≤ b := by
    rw [pow_succ]
    have := pow_le_one₀ (n := n) h0.le h1.le
    nlinarith
  have hq : 0 < b ^ (n + 1) := pow_pos h0 _
  have hd : 0 < 1 - b ^ (n + 1) := by linarith
  refine ⟨by linarith, by linarith, ?_, ?_⟩
  · rw [le_div_iff₀ hd]; nlinarith
  · rw [div_le_one hd]; linarith

theorem emaAvg_abs_le {b : ℝ} (h0 : 0 < b) {x : ℕ → ℝ} {M : ℝ} (t : ℕ) (hx : ∀ k ≤ t, |x k| ≤ M) : |emaAvg b x t| ≤ M := by
  unfold emaAvg
  have hpos : 0 < ∑ k ∈ Finset.range (t + 1), b ^ (t - k) :=
    Finset.sum_pos (fun k _ => pow_pos h0 _) ⟨0, by simp⟩
  rw [abs_div, abs_of_pos hpos, div_le_iff₀ hpos, Finset.mul_sum]
  refine (Finset.abs_sum_le_sum_abs _ _).trans (Finset.sum_le_sum fun k hk => ?_)
  rw [abs_mul, abs_of_pos (pow_pos h0 _), mul_comm]
  exact mul_le_mul_of_nonneg_right (hx k (by rw [Finset.mem_range] at hk; omega)) (pow_pos h0 _).le

theorem emaAvg_zero (b : ℝ) (x : ℕ → ℝ) : emaAvg b x 0 = x 0 := by simp [emaAvg]

theorem emaAvg_diff {b c : ℝ} (hb : 0 < b) (hb1 : b < 1) (hc : 0 < c) (hc1 : c < 1) {x : ℕ → ℝ} {M : ℝ} (t : ℕ)
    (hx : ∀ k ≤ t, |x k| ≤ M) : |emaAvg b x t - emaAvg c x t| ≤ 2 * M * |b - c| / (1 - b) := by
  have hM : 0 ≤ M := (abs_nonneg _).trans (hx 0 (by omega))
  have ha : 0 < 1 - b := by linarith
  induction t with
  | zero =>
    rw [emaAvg_zero, emaAvg_zero, sub_self, abs_zero]
    positivity
  | succ t ih =>
    have hi := ih fun k hk => hx k (by omega)
    rw [← emaAvg_succ hb hb1, ← emaAvg_succ hc hc1]
    set p := emaAvg b x t
    set q := emaAvg c x t with hq
    set g := (1 - b) / (1 - b ^ (t + 1 + 1)) with hg
    set g' := (1 - c) / (1 - c ^ (t + 1 + 1)) with hg'
    have e1 : p + (1 - b) * (x (t + 1) - p) / (1 - b ^ (t + 1 + 1)) = p + g * (x (t + 1) - p) := by rw [hg]; ring
    have e2 : q + (1 - c) * (x (t + 1) - q) / (1 - c ^ (t + 1 + 1)) = q + g' * (x (t + 1) - q) := by rw [hg']; ring
    rw [e1, e2]
    have e3 : p + g * (x (t + 1) - p) - (q + g' * (x (t + 1) - q)) = (1 - g) * (p - q) + (g - g') * (x (t + 1) - q) := by ring
    rw [e3]
    obtain ⟨-, -, h1, h2⟩ := gain_bounds hb hb1 (t + 1)
    have h3 : |x (t + 1) - q| ≤ 2 * M := by
      have a1 := hx (t + 1) le_rfl
      have a2 : |q| ≤ M := emaAvg_abs_le hc t fun k hk => hx k (by omega)
      have a3 : |x (t + 1) - q| ≤ |x (t + 1)| + |q| := abs_sub _ _
      linarith
    have h4 : |g - g'| ≤ |b - c| := gain_diff hb.le hb1 hc.le hc1 (t + 1)
    have h5 : |(1 - g) * (p - q)| ≤ b * (2 * M * |b - c| / (1 - b)) := by
      rw [abs_mul, abs_of_nonneg (by linarith)]
      exact mul_le_mul (by linarith) hi (abs_nonneg _) hb.le
    have h6 : |(g - g') * (x (t + 1) - q)| ≤ |b - c| * (2 * M) := by
      rw [abs_mul]; exact mul_le_mul h4 h3 (abs_nonneg _) (abs_nonneg _)
    have h7 := abs_add_le ((1 - g) * (p - q)) ((g - g') * (x (t + 1) - q))
    have h8 : b * (2 * M * |b - c| / (1 - b)) + |b - c| * (2 * M) = 2 * M * |b - c| / (1 - b) := by
      field_simp; ring
    linarith

/-! ### the decay factor -/

/-- the decay factor computed with rounding -/
theorem decay_error {u η h L V X Y b : ℝ} (hu : 0 ≤ u) (hη : 0 ≤ η) (hh : 0 < h) (hq : 3 * (u + η) * (1 + 1 / h) ≤ 1)
    (hL : Rounds u η L (Real.log 2)) (hV : Rounds u η V (-L / h)) (hX : Rounds u η X (Real.exp V))
    (hY : Rounds u η Y (1 - X)) (hb : Rounds u η b (1 - Y)) :
    |b - betaOf h| ≤ 18 * (u + η) * (1 + 1 / h) ∧ |L| ≤ 2 ∧ |V| ≤ 4 * (1 / h) + 1 ∧ |X| ≤ 4 ∧ |Y| ≤ 8 ∧ |b| ≤ 16 := by
  set q := 1 / h with hqd
  have hq0 : 0 < q := by positivity
  set ε := u + η with hε
  have hε0 : 0 ≤ ε := by positivity
  have huε : u ≤ ε := by linarith
  have hεq : 0 ≤ ε * q := by positivity
  have hε1 : ε ≤ 1 / 3 := by nlinarith
  have hl0 : 0 < Real.log 2 := Real.log_pos (by norm_num)
  have hl1 : Real.log 2 ≤ 1 := by
    have := Real.log_le_sub_one_of_pos (show (0 : ℝ) < 2 by norm_num); linarith
  have dL : |L - Real.log 2| ≤ ε := by
    unfold Rounds at hL
    rw [abs_of_pos hl0] at hL
    nlinarith
  have aL : |L| ≤ 2 := by
    have := abs_sub_abs_le_abs_sub L (Real.log 2)
    rw [abs_of_pos hl0] at this; linarith
  have eq1 : |(-L / h)| = |L| * q := by rw [abs_div, abs_neg, abs_of_pos hh, hqd]; ring
  have dV1 : |V - (-L / h)| ≤ 2 * ε * q + η := by
    unfold Rounds at hV
    rw [eq1] at hV
    have : u * (|L| * q) ≤ ε * (2 * q) := mul_le_mul huε (mul_le_mul_of_nonneg_right aL hq0.le) (by positivity) hε0
    linarith
  have dV : |V + Real.log 2 / h| ≤ ε + 3 * ε * q := by
    have e : V + Real.log 2 / h = (V - (-L / h)) - (L - Real.log 2) * q := by rw [hqd]; field_simp; ring
    rw [e]
    have h1 : |V - -L / h - (L - Real.log 2) * q| ≤ |V - -L / h| + |(L - Real.log 2) * q| := abs_sub _ _
    have h2 : |(L - Real.log 2) * q| ≤ ε * q := by
      rw [abs_mul, abs_of_pos hq0]; exact mul_le_mul_of_nonneg_right dL hq0.le
    linarith
  have hv1 : |V + Real.log 2 / h| ≤ 1 := by linarith
  have hβ0 : 0 < betaOf h := betaOf_pos h
  have hβ1 : betaOf h < 1 := betaOf_lt_one hh
  have hexp : Real.exp V = betaOf h * Real.exp (V + Real.log 2 / h) := by
    unfold betaOf; rw [← Real.exp_add]; congr 1; ring
  have dE : |Real.exp V - betaOf h| ≤ 2 * (ε + 3 * ε * q) := by
    have h1 := Real.abs_exp_sub_one_le hv1
    have e : Real.exp V - betaOf h = betaOf h * (Real.exp (V + Real.log 2 / h) - 1) := by rw [hexp]; ring
    rw [e, abs_mul, abs_of_pos hβ0]
    have h2 := mul_le_mul hβ1.le h1 (abs_nonneg _) zero_le_one
    linarith
  have aE : Real.exp V ≤ 3 := by
    have := (abs_le.1 dE).2; linarith
  have dX : |X - Real.exp V| ≤ 3 * ε := by
    unfold Rounds at hX
    rw [abs_of_pos (Real.exp_pos V)] at hX
    have : u * Real.exp V ≤ u * 3 := mul_le_mul_of_nonneg_left aE hu
    linarith
  have aX : |X| ≤ 4 := by
    have := abs_sub_abs_le_abs_sub X (Real.exp V)
    rw [abs_of_pos (Real.exp_pos V)] at this; linarith
  have aX' : |1 - X| ≤ 3 := by
    have h0 := Real.exp_pos V
    rw [abs_le]; constructor <;> linarith [(abs_le.1 dX).1, (abs_le.1 dX).2]
  have dY : |Y - (1 - X)| ≤ 3 * ε := by
    unfold Rounds at hY
    have : u * |1 - X| ≤ u * 3 := mul_le_mul_of_nonneg_left aX' hu
    linarith
  have aY : |Y| ≤ 4 := by
    have := abs_sub_abs_le_abs_sub Y (1 - X); linarith
  have aY' : |1 - Y| ≤ 5 := by
    have : |1 - Y| ≤ |(1 : ℝ)| + |Y| := abs_sub _ _
    rw [abs_one] at this; linarith
  have db : |b - (1 - Y)| ≤ 5 * ε := by
    unfold Rounds at hb
    have : u * |1 - Y| ≤ u * 5 := mul_le_mul_of_nonneg_left aY' hu
    linarith
  refine ⟨?_, aL, ?_, aX, by linarith, ?_⟩
  · have e : b - betaOf h = (b - (1 - Y)) - (Y - (1 - X)) + (X - Real.exp V) + (Real.exp V - betaOf h) := by ring
    rw [e]
    have h1 := abs_add_le ((b - (1 - Y)) - (Y - (1 - X)) + (X - Real.exp V)) (Real.exp V - betaOf h)
    have h2 := abs_add_le ((b - (1 - Y)) - (Y - (1 - X))) (X - Real.exp V)
    have h3 : |(b - (1 - Y)) - (Y - (1 - X))| ≤ |b - (1 - Y)| + |Y - (1 - X)| := abs_sub _ _
    nlinarith
  · have h1 := abs_sub_abs_le_abs_sub V (-L / h)
    rw [eq1] at h1
    have : |L| * q ≤ 2 * q := mul_le_mul_of_nonneg_right aL hq0.le
    nlinarith
  · have := abs_sub_abs_le_abs_sub b (1 - Y); linarith

end CovPred
