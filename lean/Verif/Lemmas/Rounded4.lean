import Verif.Props.Rounded

/-
Numbers that are near each other, to first order in the unit roundoff, and the operations with rounding on them.
-/
set_option linter.unusedSectionVars false
namespace CovPred

/-- `a'` differs from `a` by at most `K e`, and `a` is at most `A` -/
def Near (K A e a' a : ℝ) : Prop := |a' - a| ≤ K * e ∧ |a| ≤ A

variable {F : FloatOps} {u η K A L B e a a' b b' : ℝ}

theorem Near.abs_bound (h : Near K A e a' a) (hK : 0 ≤ K) (he : e ≤ 1) : |a'| ≤ A + K := by
  have := abs_sub_abs_le_abs_sub a' a
  have h1 := h.1
  have h2 := h.2
  nlinarith

theorem Near.mono (h : Near K A e a' a) (he : 0 ≤ e) (hKL : K ≤ L) (hAB : A ≤ B) : Near L B e a' a :=
  ⟨h.1.trans (mul_le_mul_of_nonneg_right hKL he), h.2.trans hAB⟩

theorem near_self (he : 0 ≤ e) (h : |a| ≤ A) : Near 0 A e a a := ⟨by simp, h⟩

theorem Near.lower (h : Near K A e a' a) {m : ℝ} (hm : m ≤ a) (hs : K * e ≤ m / 2) : m / 2 ≤ a' := by
  have := (abs_le.1 h.1).1
  linarith

/-- rounding adds at most the size of the number plus one -/
theorem rounds_near (hu : 0 ≤ u) (hη : 0 ≤ η) (he : u + η = e) {r x y C : ℝ} (hr : Rounds u η r x) (hx : |x| ≤ C) (hxy : |x - y| ≤ K * e) :
    |r - y| ≤ (K + C + 1) * e := by
  have h1 := abs_add_le (r - x) (x - y)
  rw [sub_add_sub_cancel] at h1
  unfold Rounds at hr
  have hC : 0 ≤ C := (abs_nonneg _).trans hx
  have h2 : u * |x| ≤ e * C := mul_le_mul (by linarith) hx (abs_nonneg _) (by linarith)
  have h3 : η ≤ e := by linarith
  linarith

/-- constant of a product -/
def mulK (K A L B : ℝ) : ℝ := (A * L + B * K + K * L) + (A + K) * (B + L) + 1

theorem mulK_nonneg (hK : 0 ≤ K) (hA : 0 ≤ A) (hL : 0 ≤ L) (hB : 0 ≤ B) : 0 ≤ mulK K A L B := by unfold mulK; positivity

theorem mul_diff (ha : Near K A e a' a) (hb : Near L B e b' b) (hK : 0 ≤ K) (hL : 0 ≤ L) (he0 : 0 ≤ e) (he1 : e ≤ 1) :
    |a' * b' - a * b| ≤ (A * L + B * K + K * L) * e := by
  have hA : 0 ≤ A := (abs_nonneg _).trans ha.2
  have e1 : a' * b' - a * b = a * (b' - b) + b * (a' - a) + (a' - a) * (b' - b) := by ring
  rw [e1]
  have h1 := abs_add_three (a * (b' - b)) (b * (a' - a)) ((a' - a) * (b' - b))
  rw [abs_mul, abs_mul, abs_mul] at h1
  have h2 : |a| * |b' - b| ≤ A * (L * e) := mul_le_mul ha.2 hb.1 (abs_nonneg _) hA
  have h3 : |b| * |a' - a| ≤ B * (K * e) := mul_le_mul hb.2 ha.1 (abs_nonneg _) ((abs_nonneg _).trans hb.2)
  have h4 : |a' - a| * |b' - b| ≤ (K * e) * (L * 1) :=
    mul_le_mul ha.1 (hb.1.trans (by nlinarith)) (abs_nonneg _) (by positivity)
  linarith

theorem Near.mul_of (hu : 0 ≤ u) (hη : 0 ≤ η) (he : u + η = e) (he1 : e ≤ 1) {r : ℝ} (hr : Rounds u η r (a' * b'))
    (ha : Near K A e a' a) (hb : Near L B e b' b) (hK : 0 ≤ K) (hL : 0 ≤ L) : Near (mulK K A L B) (A * B) e r (a * b) := by
  have he0 : 0 ≤ e := by linarith
  refine ⟨?_, ?_⟩
  · unfold mulK
    refine rounds_near hu hη he hr ?_ (mul_diff ha hb hK hL he0 he1)
    rw [abs_mul]
    exact mul_le_mul (ha.abs_bound hK he1) (hb.abs_bound hL he1) (abs_nonneg _) ((abs_nonneg _).trans (ha.abs_bound hK he1))
  · rw [abs_mul]
    exact mul_le_mul ha.2 hb.2 (abs_nonneg _) ((abs_nonneg _).trans ha.2)

/-- constant of a sum or difference -/
def addK (K A L B : ℝ) : ℝ := (K + L) + (A + K + (B + L)) + 1

theorem addK_nonneg (hK : 0 ≤ K) (hA : 0 ≤ A) (hL : 0 ≤ L) (hB : 0 ≤ B) : 0 ≤ addK K A L B := by unfold addK; positivity

theorem Near.add_of (hu : 0 ≤ u) (hη : 0 ≤ η) (he : u + η = e) (he1 : e ≤ 1) {r : ℝ} (hr : Rounds u η r (a' + b'))
    (ha : Near K A e a' a) (hb : Near L B e b' b) (hK : 0 ≤ K) (hL : 0 ≤ L) : Near (addK K A L B) (A + B) e r (a + b) := by
  refine ⟨?_, (abs_add_le _ _).trans (add_le_add ha.2 hb.2)⟩
  unfold addK
  refine rounds_near hu hη he hr ((abs_add_le _ _).trans (add_le_add (ha.abs_bound hK he1) (hb.abs_bound hL he1))) ?_
  have e1 : a' + b' - (a + b) = (a' - a) + (b' - b) := by ring
  rw [e1]
  have := abs_add_le (a' - a) (b' - b)
  linarith [ha.1, hb.1]

theorem Near.sub_of (hu : 0 ≤ u) (hη : 0 ≤ η) (he : u + η = e) (he1 : e ≤ 1) {r : ℝ} (hr : Rounds u η r (a' - b'))
    (ha : Near K A e a' a) (hb : Near L B e b' b) (hK : 0 ≤ K) (hL : 0 ≤ L) : Near (addK K A L B) (A + B) e r (a - b) := by
  have hb' : Near L B e (-b') (-b) := ⟨by rw [← neg_sub', abs_neg]; exact hb.1, by rw [abs_neg]; exact hb.2⟩
  rw [sub_eq_add_neg] at hr ⊢
  exact Near.add_of hu hη he he1 hr ha hb' hK hL

/-- constant of a quotient by a number of at least `m` -/
noncomputable def divK (m K A L : ℝ) : ℝ := (2 * K / m + 2 * A * L / m ^ 2) + 2 * (A + K) / m + 1

theorem divK_nonneg {m : ℝ} (hm : 0 < m) (hK : 0 ≤ K) (hA : 0 ≤ A) (hL : 0 ≤ L) : 0 ≤ divK m K A L := by unfold divK; positivity

theorem Near.div_of (hu : 0 ≤ u) (hη : 0 ≤ η) (he : u + η = e) (he1 : e ≤ 1) {r m : ℝ} (hr : Rounds u η r (a' / b'))
    (ha : Near K A e a' a) (hb : Near L B e b' b) (hK : 0 ≤ K) (hm0 : 0 < m) (hm : m ≤ b) (hs : L * e ≤ m / 2) :
    Near (divK m K A L) (A / m) e r (a / b) := by
  have hA : 0 ≤ A := (abs_nonneg _).trans ha.2
  have hb0 : 0 < b := by linarith
  have hb1 := hb.lower hm hs
  have hb2 : 0 < b' := by linarith
  have he0 : 0 ≤ e := by linarith
  refine ⟨?_, ?_⟩
  · unfold divK
    refine rounds_near hu hη he hr ?_ ?_
    · rw [abs_div, abs_of_pos hb2, div_le_div_iff₀ hb2 hm0]
      have := ha.abs_bound hK he1
      have h1 : |a'| * m ≤ (A + K) * m := mul_le_mul_of_nonneg_right this hm0.le
      have h2 : (A + K) * (m / 2) ≤ (A + K) * b' := mul_le_mul_of_nonneg_left hb1 (by positivity)
      linarith
    · have e1 : a' / b' - a / b = (a' - a) / b' - a * (b' - b) / (b * b') := by field_simp; ring
      rw [e1]
      have h1 := abs_sub ((a' - a) / b') (a * (b' - b) / (b * b'))
      have h2 : |(a' - a) / b'| ≤ 2 * K / m * e := by
        rw [abs_div, abs_of_pos hb2, div_le_iff₀ hb2]
        have e2 : 2 * K / m * e * b' = K * e * (b' / (m / 2)) := by field_simp
        rw [e2]
        have : 1 ≤ b' / (m / 2) := by rw [le_div_iff₀ (by linarith)]; linarith
        have h3 : 0 ≤ K * e := by positivity
        nlinarith [ha.1]
      have h3 : |a * (b' - b) / (b * b')| ≤ 2 * A * L / m ^ 2 * e := by
        have hL : 0 ≤ L * e := (abs_nonneg _).trans hb.1
        rw [abs_div, abs_mul, abs_of_pos (mul_pos hb0 hb2), div_le_iff₀ (mul_pos hb0 hb2)]
        have e2 : 2 * A * L / m ^ 2 * e * (b * b') = A * (L * e) * (b / m * (b' / (m / 2))) := by field_simp
        rw [e2]
        have h4 : 1 ≤ b' / (m / 2) := by rw [le_div_iff₀ (by linarith)]; linarith
        have h5 : 1 ≤ b / m := by rw [le_div_iff₀ hm0]; linarith
        have h6 : 1 ≤ b / m * (b' / (m / 2)) := by nlinarith
        have h7 : |a| * |b' - b| ≤ A * (L * e) := mul_le_mul ha.2 hb.1 (abs_nonneg _) hA
        have h8 : 0 ≤ A * (L * e) := mul_nonneg hA hL
        nlinarith
      linarith
  · rw [abs_div, abs_of_pos hb0]
    exact div_le_div₀ hA ha.2 hm0 hm

/-- constant of a root of a number of at least `m ^ 2` -/
noncomputable def sqrtK (m K A : ℝ) : ℝ := K / m + (A + K + 1) + 1

theorem sqrtK_nonneg {m : ℝ} (hm : 0 < m) (hK : 0 ≤ K) (hA : 0 ≤ A) : 0 ≤ sqrtK m K A := by unfold sqrtK; positivity

theorem sqrt_le_add_one {x : ℝ} (hx : 0 ≤ x) : Real.sqrt x ≤ x + 1 := by
  rw [Real.sqrt_le_left (by linarith)]; nlinarith

theorem Near.sqrt_of (hu : 0 ≤ u) (hη : 0 ≤ η) (he : u + η = e) (he1 : e ≤ 1) {r m : ℝ} (hr : Rounds u η r (Real.sqrt a'))
    (ha : Near K A e a' a) (hK : 0 ≤ K) (hm0 : 0 < m) (hm : m ^ 2 ≤ a) (hs : K * e ≤ m ^ 2 / 2) :
    Near (sqrtK m K A) (A + 1) e r (Real.sqrt a) := by
  have h1 := ha.lower hm hs
  have hm2 : 0 < m ^ 2 := by positivity
  have ha0 : 0 < a := by linarith
  have ha1 : 0 < a' := by linarith
  refine ⟨?_, ?_⟩
  · unfold sqrtK
    refine rounds_near hu hη he hr ?_ ?_
    · rw [abs_of_nonneg (Real.sqrt_nonneg _)]
      have := ha.abs_bound hK he1
      rw [abs_of_pos ha1] at this
      linarith [sqrt_le_add_one ha1.le]
    · have hs1 := Real.sqrt_pos.2 ha0
      have hs2 := Real.sqrt_pos.2 ha1
      have hq1 : Real.sqrt a ^ 2 = a := Real.sq_sqrt ha0.le
      have hq2 : Real.sqrt a' ^ 2 = a' := Real.sq_sqrt ha1.le
      have hms : m ≤ Real.sqrt a := Real.le_sqrt_of_sq_le hm
      rw [div_mul_eq_mul_div, le_div_iff₀ hm0]
      have e1 : a' - a = (Real.sqrt a' - Real.sqrt a) * (Real.sqrt a' + Real.sqrt a) := by nlinarith
      have h3 := ha.1
      rw [e1, abs_mul, abs_of_pos (show 0 < Real.sqrt a' + Real.sqrt a by linarith)] at h3
      nlinarith [abs_nonneg (Real.sqrt a' - Real.sqrt a)]
  · rw [abs_of_nonneg (Real.sqrt_nonneg _)]
    have := sqrt_le_add_one ha0.le
    have h2 := ha.2
    rw [abs_of_pos ha0] at h2
    linarith

/-- constant of an average -/
noncomputable def avgK (h K A : ℝ) : ℝ := errorFactor h * (A + K + 1) + K

theorem avgK_nonneg {h : ℝ} (hh : 0 < h) (hK : 0 ≤ K) (hA : 0 ≤ A) : 0 ≤ avgK h K A := by
  unfold avgK
  have := errorFactor_ge hh
  have : 0 ≤ errorFactor h := by linarith
  positivity

theorem avg_near {h : ℝ} (hh : 0 < h) (hu : 0 ≤ u) (he : u + η = e) {x x' : ℕ → ℝ} {z : ℝ} {t : ℕ}
    (hx : ∀ k ≤ t, Near K A e (x' k) (x k)) (hz : |z - halflifeAverage h x' t| ≤ errorFactor h * ((u + η) * (A + K) + η)) :
    Near (avgK h K A) A e z (halflifeAverage h x t) := by
  have hE := errorFactor_ge hh
  refine ⟨?_, ?_⟩
  · have h1 := abs_add_le (z - halflifeAverage h x' t) (halflifeAverage h x' t - halflifeAverage h x t)
    rw [sub_add_sub_cancel] at h1
    have h2 : |halflifeAverage h x' t - halflifeAverage h x t| ≤ K * e := by
      rw [halflifeAverage_eq, halflifeAverage_eq]
      exact emaAvg_sub_le (betaOf_pos h) t fun k hk => (hx k hk).1
    have h3 : errorFactor h * ((u + η) * (A + K) + η) ≤ errorFactor h * ((A + K + 1) * e) :=
      mul_le_mul_of_nonneg_left (by rw [he]; linarith) (by linarith)
    unfold avgK
    linarith
  · rw [halflifeAverage_eq]
    exact emaAvg_abs_le (betaOf_pos h) t fun k hk => (hx k hk).2

end CovPred
