import Verif.Lemmas.Rounded6
import Verif.Lemmas.VarSeq
import Verif.Props.Rounded

/-
Two numbers whose distance is at most `K` times a quantity `e`, through sums, products, quotients, roots and half-life averages.
Used for property C206.
-/
namespace CovPred

/-- both are at most `A`, their distance is at most `K e` -/
structure Tight (K A e b a : ℝ) : Prop where
  diff : |b - a| ≤ K * e
  left : |b| ≤ A
  right : |a| ≤ A

variable {K A L B e a a' b b' : ℝ}

theorem Tight.nonneg (h : Tight K A e a' a) : 0 ≤ K * e := (abs_nonneg _).trans h.diff
theorem Tight.bound_nonneg (h : Tight K A e a' a) : 0 ≤ A := (abs_nonneg _).trans h.left

theorem Tight.add (h : Tight K A e a' a) (g : Tight L B e b' b) : Tight (K + L) (A + B) e (a' + b') (a + b) where
  diff := by
    have e1 : a' + b' - (a + b) = (a' - a) + (b' - b) := by ring
    rw [e1, add_mul]
    exact (abs_add_le _ _).trans (add_le_add h.diff g.diff)
  left := (abs_add_le _ _).trans (add_le_add h.left g.left)
  right := (abs_add_le _ _).trans (add_le_add h.right g.right)

theorem Tight.sub (h : Tight K A e a' a) (g : Tight L B e b' b) : Tight (K + L) (A + B) e (a' - b') (a - b) where
  diff := by
    have e1 : a' - b' - (a - b) = (a' - a) - (b' - b) := by ring
    rw [e1, add_mul]
    exact (abs_sub _ _).trans (add_le_add h.diff g.diff)
  left := (abs_sub _ _).trans (add_le_add h.left g.left)
  right := (abs_sub _ _).trans (add_le_add h.right g.right)

theorem Tight.mul (h : Tight K A e a' a) (g : Tight L B e b' b) : Tight (K * B + A * L) (A * B) e (a' * b') (a * b) where
  diff := by
    have e1 : a' * b' - a * b = (a' - a) * b' + a * (b' - b) := by ring
    have h1 : |a' - a| * |b'| ≤ K * e * B := mul_le_mul h.diff g.left (abs_nonneg _) h.nonneg
    have h2 : |a| * |b' - b| ≤ A * (L * e) := mul_le_mul h.right g.diff (abs_nonneg _) h.bound_nonneg
    rw [e1]
    refine (abs_add_le _ _).trans ?_
    rw [abs_mul, abs_mul]
    linarith
  left := by rw [abs_mul]; exact mul_le_mul h.left g.left (abs_nonneg _) h.bound_nonneg
  right := by rw [abs_mul]; exact mul_le_mul h.right g.right (abs_nonneg _) h.bound_nonneg

theorem Tight.div (h : Tight K A e a' a) (g : Tight L B e b' b) {m : ℝ} (hm : 0 < m) (hb : m ≤ b) (hb' : m ≤ b') :
    Tight (K / m + A * L / (m * m)) (A / m) e (a' / b') (a / b) where
  diff := by
    have p : 0 < b := hm.trans_le hb
    have p' : 0 < b' := hm.trans_le hb'
    have e1 : a' / b' - a / b = (a' - a) / b' - a * (b' - b) / (b * b') := by field_simp; ring
    have h1 : |(a' - a) / b'| ≤ K * e / m := by
      rw [abs_div, abs_of_pos p']
      exact div_le_div₀ h.nonneg h.diff hm hb'
    have h2 : |a * (b' - b) / (b * b')| ≤ A * (L * e) / (m * m) := by
      rw [abs_div, abs_mul, abs_of_pos (mul_pos p p')]
      exact div_le_div₀ (mul_nonneg h.bound_nonneg g.nonneg) (mul_le_mul h.right g.diff (abs_nonneg _) h.bound_nonneg) (mul_pos hm hm)
        (mul_le_mul hb hb' hm.le p.le)
    rw [e1]
    refine (abs_sub _ _).trans ((add_le_add h1 h2).trans (le_of_eq ?_))
    ring
  left := by rw [abs_div, abs_of_pos (hm.trans_le hb')]; exact div_le_div₀ h.bound_nonneg h.left hm hb'
  right := by rw [abs_div, abs_of_pos (hm.trans_le hb)]; exact div_le_div₀ h.bound_nonneg h.right hm hb

theorem Tight.sqrt (h : Tight K A e a' a) {m : ℝ} (hm : 0 < m) (ha : m ≤ Real.sqrt a) (ha' : m ≤ Real.sqrt a') :
    Tight (K / m) (Real.sqrt A) e (Real.sqrt a') (Real.sqrt a) where
  diff := by
    have p : 0 < a := Real.sqrt_pos.1 (hm.trans_le ha)
    have p' : 0 < a' := Real.sqrt_pos.1 (hm.trans_le ha')
    have e1 : (Real.sqrt a' - Real.sqrt a) * (Real.sqrt a' + Real.sqrt a) = a' - a := by
      have h1 := Real.mul_self_sqrt p.le
      have h2 := Real.mul_self_sqrt p'.le
      linear_combination h2 - h1
    have h1 : |Real.sqrt a' - Real.sqrt a| * m ≤ K * e := by
      refine le_trans ?_ h.diff
      rw [← e1, abs_mul]
      refine mul_le_mul_of_nonneg_left ?_ (abs_nonneg _)
      rw [abs_of_pos (by linarith)]
      linarith
    rw [div_mul_eq_mul_div, le_div_iff₀ hm]
    exact h1
  left := by rw [abs_of_nonneg (Real.sqrt_nonneg _)]; exact Real.sqrt_le_sqrt ((le_abs_self _).trans h.left)
  right := by rw [abs_of_nonneg (Real.sqrt_nonneg _)]; exact Real.sqrt_le_sqrt ((le_abs_self _).trans h.right)

/-- how much a half-life average with decay `b` increases the distance, if it shrinks at most by the factor `r` per row -/
noncomputable def memoryGain (b r : ℝ) : ℝ := 1 / (1 - b / r)

theorem memoryGain_nonneg {b r : ℝ} (h0 : 0 < b) (h1 : b < r) : 0 ≤ memoryGain b r := by
  have : b / r < 1 := (div_lt_one (h0.trans h1)).2 h1
  unfold memoryGain
  exact div_nonneg zero_le_one (by linarith)

theorem Tight.avg {d r : ℝ} (h0 : 0 < d) (h1 : d < r) {x y ε : ℕ → ℝ} {t : ℕ} (hK : 0 ≤ K)
    (hε : ∀ k ≤ t, ε k * r ^ (t - k) ≤ ε t) (h : ∀ k ≤ t, Tight K A (ε k) (y k) (x k)) :
    Tight (K * memoryGain d r) A (ε t) (emaAvg d y t) (emaAvg d x t) where
  left := emaAvg_abs_le h0 t fun k hk => (h k hk).left
  right := emaAvg_abs_le h0 t fun k hk => (h k hk).right
  diff := by
    have hr : 0 < r := h0.trans h1
    have hq0 : 0 < d / r := div_pos h0 hr
    have hq : d / r < 1 := (div_lt_one hr).2 h1
    have hden := emaAvg_den_pos h0 t
    have hden1 : 1 ≤ ∑ k ∈ Finset.range (t + 1), d ^ (t - k) := by
      have := Finset.single_le_sum (f := fun k => d ^ (t - k)) (s := Finset.range (t + 1)) (fun k _ => by positivity)
        (Finset.mem_range.2 (Nat.lt_succ_self t))
      simpa using this
    have e1 : emaAvg d y t - emaAvg d x t = (∑ k ∈ Finset.range (t + 1), d ^ (t - k) * (y k - x k)) / ∑ k ∈ Finset.range (t + 1), d ^ (t - k) := by
      unfold emaAvg
      rw [← sub_div, ← Finset.sum_sub_distrib]
      congr 1
      exact Finset.sum_congr rfl fun k _ => by ring
    have hterm : ∀ k ∈ Finset.range (t + 1), |d ^ (t - k) * (y k - x k)| ≤ K * ε t * (d / r) ^ (t - k) := by
      intro k hk
      have hk : k ≤ t := by have := Finset.mem_range.1 hk; omega
      rw [abs_mul, abs_of_pos (pow_pos h0 _)]
      have h2 := (h k hk).diff
      have hrp : 0 < r ^ (t - k) := pow_pos hr _
      have h3 : ε k ≤ ε t / r ^ (t - k) := (le_div_iff₀ hrp).2 (hε k hk)
      calc d ^ (t - k) * |y k - x k| ≤ d ^ (t - k) * (K * (ε t / r ^ (t - k))) :=
            mul_le_mul_of_nonneg_left (h2.trans (mul_le_mul_of_nonneg_left h3 hK)) (pow_pos h0 _).le
        _ = K * ε t * (d / r) ^ (t - k) := by rw [div_pow]; field_simp
    have hKe : 0 ≤ K * ε t := (h t le_rfl).nonneg
    have hgeo : ∑ k ∈ Finset.range (t + 1), (d / r) ^ (t - k) ≤ memoryGain d r := by
      rw [emaDen_eq hq.ne]
      unfold memoryGain
      refine div_le_div_of_nonneg_right ?_ (by linarith)
      have := pow_pos hq0 (t + 1)
      linarith
    rw [e1, abs_div, abs_of_pos hden]
    calc _ ≤ |∑ k ∈ Finset.range (t + 1), d ^ (t - k) * (y k - x k)| := div_le_self (abs_nonneg _) hden1
      _ ≤ ∑ k ∈ Finset.range (t + 1), K * ε t * (d / r) ^ (t - k) := (Finset.abs_sum_le_sum_abs _ _).trans (Finset.sum_le_sum hterm)
      _ = K * ε t * ∑ k ∈ Finset.range (t + 1), (d / r) ^ (t - k) := by rw [Finset.mul_sum]
      _ ≤ K * ε t * memoryGain d r := mul_le_mul_of_nonneg_left hgeo hKe
      _ = K * memoryGain d r * ε t := by ring

/-- the distance bound of rows after row `s` -/
theorem rate_step {r : ℝ} (hr : 0 < r) (h1 : r < 1) (s0 s : ℕ) {k t : ℕ} (hk : k ≤ t) : r ^ (s0 + k - s) * r ^ (t - k) ≤ r ^ (s0 + t - s) := by
  rw [← pow_add]
  exact pow_le_pow_of_le_one hr.le h1.le (by omega)

end CovPred
