import Verif.Spec.Conditioning
import Verif.Props.Iewma
import Verif.Props.Memory
import Verif.Props.IewmaMore
import Mathlib.Data.List.GetD

/-
Property C191: `iterated_ewma` is well conditioned.
-/
set_option linter.unusedSectionVars false
namespace CovPred
open XR

variable {τ ι : Type} [DecidableEq τ] [Ix ι]

theorem varSeq_smul (b : ℝ) (mv : Int) (clip : Option ℝ) (q : ℕ → ℝ) {l : ℝ} (hl : 0 ≤ l) (t : ℕ) :
    varSeq b mv clip (fun k => l * q k) t = l * varSeq b mv clip q t := by
  induction t with
  | zero => rfl
  | succ t ih =>
    rw [varSeq_succ, varSeq_succ, ih, clippedQ_smul hl]
    ring

theorem FactorClose.abs_le {ρ x y : ℝ} (hρ : 1 ≤ ρ) (h : FactorClose ρ x y) : |y| ≤ ρ * |x| ∧ |x| ≤ ρ * |y| := by
  obtain ⟨q, h1, h2, rfl⟩ := h
  have h0 : 0 < ρ⁻¹ := by positivity
  rw [abs_mul, abs_of_nonneg (show 0 ≤ q by linarith)]
  have hx := abs_nonneg x
  refine ⟨mul_le_mul_of_nonneg_right h2 hx, ?_⟩
  have h3 : 1 ≤ ρ * q := by
    have := mul_le_mul_of_nonneg_left h1 (show 0 ≤ ρ by linarith)
    rwa [mul_inv_cancel₀ (by linarith)] at this
  rw [← _root_.mul_assoc]
  exact le_mul_of_one_le_left hx h3

theorem FactorClose.of_nonneg {ρ x y : ℝ} (hρ : 1 ≤ ρ) (hx : 0 ≤ x) (h1 : y ≤ ρ * x) (h2 : x ≤ ρ * y) : FactorClose ρ x y := by
  have hρ1 : ρ⁻¹ ≤ 1 := inv_le_one_of_one_le₀ hρ
  rcases hx.eq_or_lt with h | h
  · have : y = 0 := by rw [← h] at h1 h2; nlinarith
    exact ⟨1, hρ1, hρ, by rw [this, ← h, mul_zero]⟩
  · refine ⟨y / x, ?_, ?_, by field_simp⟩
    · rw [le_div_iff₀ h, inv_mul_le_iff₀ (by linarith)]; exact h2
    · rw [div_le_iff₀ h]; exact h1

theorem FactorClose.neg {ρ x y : ℝ} (h : FactorClose ρ x y) : FactorClose ρ (-x) (-y) := by
  obtain ⟨q, h1, h2, rfl⟩ := h
  exact ⟨q, h1, h2, by ring⟩

theorem FactorClose.refl {ρ : ℝ} (hρ : 1 ≤ ρ) (x : ℝ) : FactorClose ρ x x := ⟨1, inv_le_one_of_one_le₀ hρ, hρ, by ring⟩

theorem FactorClose.mul {ρ σ x y x' y' : ℝ} (hρ : 1 ≤ ρ) (hσ : 1 ≤ σ) (h : FactorClose ρ x y) (h' : FactorClose σ x' y') :
    FactorClose (ρ * σ) (x * x') (y * y') := by
  obtain ⟨q, h1, h2, rfl⟩ := h
  obtain ⟨p, h3, h4, rfl⟩ := h'
  have a1 : 0 < ρ⁻¹ := by positivity
  have a2 : 0 < σ⁻¹ := by positivity
  exact ⟨q * p, by rw [_root_.mul_inv]; exact mul_le_mul h1 h3 a2.le (by linarith), mul_le_mul h2 h4 (by linarith) (by linarith), by ring⟩

/-- clamping keeps factors -/
theorem FactorClose.clamp {ρ x y c : ℝ} (hρ : 1 ≤ ρ) (hc : 0 ≤ c) (h : FactorClose ρ x y) : FactorClose ρ (max (-c) (min x c)) (max (-c) (min y c)) := by
  have key : ∀ x y, 0 ≤ x → FactorClose ρ x y → FactorClose ρ (max (-c) (min x c)) (max (-c) (min y c)) := by
    intro x y hx h
    have hy : 0 ≤ y := by
      obtain ⟨q, h1, _, rfl⟩ := h
      have : 0 < ρ⁻¹ := by positivity
      exact mul_nonneg (by linarith) hx
    obtain ⟨h1, h2⟩ := h.abs_le hρ
    rw [abs_of_nonneg hx, abs_of_nonneg hy] at h1 h2
    have hcc : c ≤ ρ * c := le_mul_of_one_le_left hc hρ
    have mm : ∀ p, ρ * min p c = min (ρ * p) (ρ * c) := fun p => mul_min_of_nonneg _ _ (by linarith)
    rw [max_eq_right (le_trans (by linarith) (le_min hx hc)), max_eq_right (le_trans (by linarith) (le_min hy hc))]
    exact .of_nonneg hρ (le_min hx hc) (by rw [mm]; exact min_le_min h1 hcc) (by rw [mm]; exact min_le_min h2 hcc)
  rcases le_total 0 x with hx | hx
  · exact key x y hx h
  · have := (key (-x) (-y) (by linarith) h.neg).neg
    have e : ∀ p, -max (-c) (min (-p) c) = max (-c) (min p c) := fun p => by
      simp only [max_def, min_def]
      split_ifs <;> linarith
    rwa [e, e] at this

theorem adj_close {ρ x y s s' : ℝ} (hρ : 1 ≤ ρ) (clip : Option ℝ) (hx : FactorClose ρ x y) (hs : 0 ≤ s) (hs' : 0 ≤ s') (h1 : s' ≤ ρ * s)
    (h2 : s ≤ ρ * s') : FactorClose (ρ ^ 2) (adjReal clip x s) (adjReal clip y s') := by
  have hρ2 : 1 ≤ ρ ^ 2 := one_le_pow₀ hρ
  have hz : s = 0 ↔ s' = 0 := by
    constructor
    · intro h; rw [h] at h1; linarith
    · intro h; rw [h] at h2; linarith
  have hq : s ≠ 0 → FactorClose (ρ ^ 2) (x / s) (y / s') := by
    intro h
    have p1 : 0 < s := lt_of_le_of_ne hs (Ne.symm h)
    have p2 : 0 < s' := lt_of_le_of_ne hs' (Ne.symm fun h' => h (hz.2 h'))
    have := hx.mul hρ hρ (FactorClose.of_nonneg (x := s⁻¹) (y := s'⁻¹) hρ (by positivity)
      (by rw [← div_eq_mul_inv, inv_eq_one_div, div_le_div_iff₀ p2 p1]; linarith)
      (by rw [← div_eq_mul_inv, inv_eq_one_div, div_le_div_iff₀ p1 p2]; linarith))
    rwa [← pow_two, ← div_eq_mul_inv, ← div_eq_mul_inv] at this
  unfold adjReal
  cases clip with
  | none =>
    by_cases h : s = 0
    · simp only [h, hz.1 h, div_zero]
      exact .refl hρ2 _
    · exact hq h
  | some c =>
    by_cases h : s = 0
    · simp only [if_pos h, if_pos (hz.1 h)]
      obtain ⟨q, hq1, hq2, rfl⟩ := hx
      have : 0 < q := lt_of_lt_of_le (by positivity) hq1
      have hneg : q * x < 0 ↔ x < 0 := by
        constructor
        · intro h; by_contra h'; exact absurd (mul_nonneg this.le (not_lt.1 h')) (not_le.2 h)
        · intro h; exact mul_neg_of_pos_of_neg this h
      simp only [mul_pos_iff_of_pos_left this, hneg]
      exact .refl hρ2 _
    · simp only [if_neg h, if_neg (fun h' => h (hz.2 h'))]
      exact (hq h).clamp hρ2 (abs_nonneg c)

theorem emaAvg_mono {b : ℝ} (h0 : 0 < b) {x y : ℕ → ℝ} {t : ℕ} (h : ∀ k ≤ t, x k ≤ y k) : emaAvg b x t ≤ emaAvg b y t := by
  unfold emaAvg
  refine div_le_div_of_nonneg_right (Finset.sum_le_sum fun k hk => ?_) (emaAvg_den_pos h0 t).le
  exact mul_le_mul_of_nonneg_left (h k (by have := Finset.mem_range.mp hk; omega)) (pow_nonneg h0.le _)

theorem emaAvg_abs {b : ℝ} (h0 : 0 < b) (x : ℕ → ℝ) (t : ℕ) : |emaAvg b x t| ≤ emaAvg b (fun k => |x k|) t := by
  rw [abs_le]
  constructor
  · have := emaAvg_mono h0 (x := fun k => -1 * |x k|) (y := x) (t := t) fun k _ => by linarith [neg_abs_le (x k)]
    rw [emaAvg_mul] at this
    linarith
  · exact emaAvg_mono h0 fun k _ => le_abs_self _

/-- products of close sequences -/
theorem cross_close {b L : ℝ} (h0 : 0 < b) (hL : 1 ≤ L) {u v u' v' : ℕ → ℝ} {t : ℕ} (hu : ∀ k ≤ t, FactorClose L (u k) (u' k))
    (hv : ∀ k ≤ t, FactorClose L (v k) (v' k)) :
    |emaAvg b (fun k => u' k * v' k) t - emaAvg b (fun k => u k * v k) t|
      ≤ (L ^ 2 - 1) * Real.sqrt (emaAvg b (fun k => u k * u k) t * emaAvg b (fun k => v k * v k) t) := by
  have e : emaAvg b (fun k => u' k * v' k) t - emaAvg b (fun k => u k * v k) t = emaAvg b (fun k => u' k * v' k - u k * v k) t := by
    have := emaAvg_add b (fun k => u' k * v' k) (fun k => -1 * (u k * v k)) t
    rw [emaAvg_mul] at this
    rw [show (fun k => u' k * v' k - u k * v k) = fun k => u' k * v' k + -1 * (u k * v k) by funext k; ring, this]
    ring
  have hL2 : 0 ≤ L ^ 2 - 1 := by nlinarith
  rw [e]
  refine (emaAvg_abs h0 _ t).trans ?_
  have h1 : emaAvg b (fun k => |u' k * v' k - u k * v k|) t ≤ emaAvg b (fun k => (L ^ 2 - 1) * (|u k| * |v k|)) t := by
    refine emaAvg_mono h0 fun k hk => ?_
    obtain ⟨q, q1, q2, hq⟩ := (hu k hk).mul hL hL (hv k hk)
    rw [hq, ← abs_mul, show q * (u k * v k) - u k * v k = (q - 1) * (u k * v k) by ring, abs_mul]
    refine mul_le_mul_of_nonneg_right ?_ (abs_nonneg _)
    have hLL : 1 ≤ L * L := by nlinarith
    have : 2 - L * L ≤ (L * L)⁻¹ := by
      rw [inv_eq_one_div, le_div_iff₀ (by linarith)]; nlinarith
    rw [abs_le]
    constructor <;> nlinarith
  refine h1.trans ?_
  rw [emaAvg_mul]
  refine mul_le_mul_of_nonneg_left ?_ hL2
  refine Real.le_sqrt_of_sq_le ?_
  have := emaAvg_cauchy h0 (fun k => |u k|) (fun k => |v k|) t
  simpa only [abs_mul_abs_self] using this

theorem self_close {b L : ℝ} (h0 : 0 < b) (hL : 1 ≤ L) {u u' : ℕ → ℝ} {t : ℕ} (hu : ∀ k ≤ t, FactorClose L (u k) (u' k)) :
    emaAvg b (fun k => u' k * u' k) t ≤ L ^ 2 * emaAvg b (fun k => u k * u k) t ∧
    emaAvg b (fun k => u k * u k) t ≤ L ^ 2 * emaAvg b (fun k => u' k * u' k) t := by
  rw [← emaAvg_mul, ← emaAvg_mul]
  constructor
  · refine emaAvg_mono h0 fun k hk => ?_
    have := ((hu k hk).mul hL hL (hu k hk)).abs_le (by nlinarith)
    rw [abs_mul_self, abs_mul_self] at this
    rw [pow_two]; exact this.1
  · refine emaAvg_mono h0 fun k hk => ?_
    have := ((hu k hk).mul hL hL (hu k hk)).abs_le (by nlinarith)
    rw [abs_mul_self, abs_mul_self] at this
    rw [pow_two]; exact this.2

/-- correlations of close moments -/
theorem corr_close {L A A' B B' C C' : ℝ} (hL : 1 ≤ L) (hA : 0 < A) (hB : 0 < B) (hA' : 0 < A') (hB' : 0 < B') (a1 : A' ≤ L ^ 2 * A) (a2 : A ≤ L ^ 2 * A')
    (b1 : B' ≤ L ^ 2 * B) (b2 : B ≤ L ^ 2 * B') (hC : |C| ≤ Real.sqrt (A * B)) (hCC : |C' - C| ≤ (L ^ 2 - 1) * Real.sqrt (A * B)) :
    |C' / (Real.sqrt A' * Real.sqrt B') - C / (Real.sqrt A * Real.sqrt B)| ≤ L ^ 4 - 1 := by
  rw [Real.sqrt_mul hA.le] at hC hCC
  set a := Real.sqrt A
  set b := Real.sqrt B
  set a' := Real.sqrt A'
  set b' := Real.sqrt B'
  have pa : 0 < a := Real.sqrt_pos.2 hA
  have pb : 0 < b := Real.sqrt_pos.2 hB
  have pa' : 0 < a' := Real.sqrt_pos.2 hA'
  have pb' : 0 < b' := Real.sqrt_pos.2 hB'
  have sq : ∀ X Y : ℝ, Y ≤ L ^ 2 * X → Real.sqrt Y ≤ L * Real.sqrt X := fun X Y h => by
    have := Real.sqrt_le_sqrt h
    rwa [Real.sqrt_mul (sq_nonneg L), Real.sqrt_sq (by linarith)] at this
  have c1 : a' * b' ≤ L ^ 2 * (a * b) := by
    have := mul_le_mul (sq A A' a1) (sq B B' b1) pb'.le (by positivity)
    linarith
  have c2 : a * b ≤ L ^ 2 * (a' * b') := by
    have := mul_le_mul (sq A' A a2) (sq B' B b2) pb.le (by positivity)
    linarith
  set p := a * b
  set p' := a' * b'
  have pp : 0 < p := mul_pos pa pb
  have pp' : 0 < p' := mul_pos pa' pb'
  have hL2 : 1 ≤ L ^ 2 := one_le_pow₀ hL
  -- the ratio of the normalisers
  set s := p / p' with hs
  have s1 : s ≤ L ^ 2 := by rw [hs, div_le_iff₀ pp']; exact c2
  have s0 : 0 < s := by positivity
  have s2 : 1 ≤ L ^ 2 * s := by
    have e : L ^ 2 * s = L ^ 2 * p / p' := by rw [hs]; ring
    rw [e, le_div_iff₀ pp']; linarith
  have s3 : |s - 1| ≤ L ^ 2 - 1 := by
    rw [abs_le]
    constructor <;> nlinarith
  have e : C' / p' - C / p = (C' - C) / p * s + C / p * (s - 1) := by
    rw [hs]; field_simp; ring
  rw [e]
  have t1 : |(C' - C) / p * s| ≤ (L ^ 2 - 1) * L ^ 2 := by
    rw [abs_mul, abs_div, abs_of_pos pp, abs_of_pos s0]
    exact mul_le_mul (by rw [div_le_iff₀ pp]; exact hCC) s1 s0.le (by linarith)
  have t2 : |C / p * (s - 1)| ≤ 1 * (L ^ 2 - 1) := by
    rw [abs_mul, abs_div, abs_of_pos pp]
    exact mul_le_mul (by rw [div_le_iff₀ pp, one_mul]; exact hC) s3 (abs_nonneg _) zero_le_one
  have := abs_add_le ((C' - C) / p * s) (C / p * (s - 1))
  nlinarith

section

variable {a : RealArgs} {T : ℕ} {x y : ℕ → ι → ℝ} {ρ : ℝ}

theorem cRet_plain (hm : a.mean = false) (x : ℕ → ι → ℝ) : cRet a x = x := by
  funext t i
  simp [cRet, muOf, hm]

theorem vol_close (ha : a.Valid) (hm : a.mean = false) (hρ : 1 ≤ ρ) {t : ℕ} {i : ι} (h : ∀ k ≤ t, FactorClose ρ (x k i) (y k i)) :
    vol a y t i ≤ ρ * vol a x t i ∧ vol a x t i ≤ ρ * vol a y t i := by
  have key : ∀ x y : ℕ → ι → ℝ, (∀ k ≤ t, |y k i| ≤ ρ * |x k i|) → vol a y t i ≤ ρ * vol a x t i := by
    intro x y h
    unfold vol volSq
    rw [cRet_plain hm, cRet_plain hm]
    have h1 := varSeq_mono (decayOf_pos a.volaHalflife) (decayOf_lt_one ha.vola) a.minPeriodsVola a.clip (q := fun k => y k i ^ 2)
      (q' := fun k => ρ ^ 2 * x k i ^ 2) t fun k hk => by
        rw [← sq_abs (y k i), ← sq_abs (x k i), ← mul_pow]
        exact pow_le_pow_left₀ (abs_nonneg _) (h k hk) 2
    rw [varSeq_smul _ _ _ _ (sq_nonneg ρ)] at h1
    have := Real.sqrt_le_sqrt h1
    rwa [Real.sqrt_mul (sq_nonneg ρ), Real.sqrt_sq (by linarith)] at this
  exact ⟨key x y fun k hk => ((h k hk).abs_le hρ).1, key y x fun k hk => ((h k hk).abs_le hρ).2⟩

theorem vol_nonneg' (t : ℕ) (i : ι) : 0 ≤ vol a x t i := Real.sqrt_nonneg _

theorem live_close (ha : a.Valid) (hm : a.mean = false) (hρ : 1 ≤ ρ) (h : ∀ t < T, ∀ i, FactorClose ρ (x t i) (y t i)) : live a T y = live a T x := by
  unfold live
  refine List.filter_congr fun t ht => ?_
  have ht := List.mem_range.1 ht
  rw [decide_eq_decide]
  refine and_congr_right fun _ => exists_congr fun i => not_congr (and_congr ?_ ?_)
  · have := vol_close ha hm hρ (t := t) (i := i) fun k hk => h k (by omega) i
    have h1 := vol_nonneg' (a := a) (x := x) t i
    have h2 := vol_nonneg' (a := a) (x := y) t i
    constructor
    · intro h0; rw [h0] at this; linarith
    · intro h0; rw [h0] at this; linarith
  · rw [cRet_plain hm, cRet_plain hm]
    have := (h t ht i).abs_le hρ
    constructor
    · intro h0; rw [h0, abs_zero] at this; exact abs_nonpos_iff.1 (by linarith)
    · intro h0; rw [h0, abs_zero] at this; exact abs_nonpos_iff.1 (by linarith)

theorem live_row_lt {j : ℕ} (hj : j < (live a T x).length) : (live a T x).getD j 0 < T := by
  rw [List.getD_eq_getElem _ _ hj]
  exact List.mem_range.1 (List.mem_filter.1 (List.getElem_mem hj)).1

theorem z_close (ha : a.Valid) (hm : a.mean = false) (hρ : 1 ≤ ρ) (h : ∀ t < T, ∀ i, FactorClose ρ (x t i) (y t i)) {j : ℕ}
    (hj : j < (live a T x).length) (i : ι) : FactorClose (ρ ^ 2) (zAt a T x j i) (zAt a T y j i) := by
  have hz : ∀ x : ℕ → ι → ℝ, zAt a T x j i = adjAt a T x j i := fun x => by simp [zAt, muOf, hm]
  rw [hz, hz]
  unfold adjAt
  rw [live_close ha hm hρ h, cRet_plain hm, cRet_plain hm]
  have ht := live_row_lt hj
  have := vol_close ha hm hρ (t := (live a T x).getD j 0) (i := i) fun k hk => h k (by omega) i
  exact adj_close hρ _ (h _ ht i) (vol_nonneg' _ _) (vol_nonneg' _ _) this.1 this.2

theorem item_close (ha : a.Valid) (hm : a.mean = false) (hρ : 1 ≤ ρ) (h : ∀ t < T, ∀ i, FactorClose ρ (x t i) (y t i)) (tm : ℕ → τ) {j : ℕ}
    (hj : j < (live a T x).length) : CloseResults ρ (itemAt a T tm x j) (itemAt a T tm y j) := by
  have hl := live_close ha hm hρ h
  have ht := live_row_lt hj
  set s := (live a T x).getD j 0 with hs
  have hρ2 : 1 ≤ ρ ^ 2 := one_le_pow₀ hρ
  have hv : ∀ i, vol a y s i ≤ ρ * vol a x s i ∧ vol a x s i ≤ ρ * vol a y s i := fun i =>
    vol_close ha hm hρ fun k hk => h k (by omega) i
  refine ⟨by simp only [itemAt, hl], vol a x s, vol a y s, rfl, by simp only [itemAt, hl, hs], hv, fun i k => ?_⟩
  have hz : ∀ i, ∀ l ≤ j, FactorClose (ρ ^ 2) (zAt a T x l i) (zAt a T y l i) := fun i l hl => z_close ha hm hρ h (by omega) i
  have hself : ∀ i, covAt a T y j (i, i) ≤ (ρ ^ 2) ^ 2 * covAt a T x j (i, i) ∧ covAt a T x j (i, i) ≤ (ρ ^ 2) ^ 2 * covAt a T y j (i, i) := fun i => by
    unfold covAt
    simp only [halflifeAverage_eq]
    exact self_close (betaOf_pos _) hρ2 (hz i)
  have hzero : ∀ i, covAt a T y j (i, i) = 0 ↔ covAt a T x j (i, i) = 0 := fun i => by
    have h1 := covAt_self_nonneg a T x j i
    have h2 := covAt_self_nonneg a T y j i
    have := hself i
    constructor
    · intro h0; rw [h0] at this; linarith
    · intro h0; rw [h0] at this; linarith
  simp only [itemAt, Arr.get_ofFn, sigmaAt, hzero, hl]
  by_cases h0 : covAt a T x j (i, i) = 0 ∨ covAt a T x j (k, k) = 0
  · rw [if_pos h0, if_pos h0]; exact Or.inl ⟨rfl, rfl⟩
  · rw [if_neg h0, if_neg h0]
    push Not at h0
    have pos : ∀ i, covAt a T x j (i, i) ≠ 0 → 0 < covAt a T x j (i, i) ∧ 0 < covAt a T y j (i, i) := fun i hi =>
      ⟨lt_of_le_of_ne (covAt_self_nonneg a T x j i) (Ne.symm hi), lt_of_le_of_ne (covAt_self_nonneg a T y j i) (Ne.symm fun h => hi ((hzero i).1 h))⟩
    obtain ⟨pi, pi'⟩ := pos i h0.1
    obtain ⟨pk, pk'⟩ := pos k h0.2
    have hC : |covAt a T x j (i, k)| ≤ Real.sqrt (covAt a T x j (i, i) * covAt a T x j (k, k)) := by
      refine Real.le_sqrt_of_sq_le ?_
      rw [sq_abs]
      unfold covAt
      simp only [halflifeAverage_eq]
      exact emaAvg_cauchy (betaOf_pos _) _ _ _
    have hCC : |covAt a T y j (i, k) - covAt a T x j (i, k)| ≤ ((ρ ^ 2) ^ 2 - 1) * Real.sqrt (covAt a T x j (i, i) * covAt a T x j (k, k)) := by
      unfold covAt
      simp only [halflifeAverage_eq]
      exact cross_close (betaOf_pos _) hρ2 (hz i) (hz k)
    have hcorr := corr_close hρ2 pi pk pi' pk' (hself i).1 (hself i).2 (hself k).1 (hself k).2 hC hCC
    have hR : |covAt a T x j (i, k) / (Real.sqrt (covAt a T x j (i, i)) * Real.sqrt (covAt a T x j (k, k)))| ≤ 1 := by
      rw [abs_div, ← Real.sqrt_mul pi.le, abs_of_nonneg (Real.sqrt_nonneg _)]
      exact div_le_one_of_le₀ hC (Real.sqrt_nonneg _)
    set R := covAt a T x j (i, k) / (Real.sqrt (covAt a T x j (i, i)) * Real.sqrt (covAt a T x j (k, k)))
    set R' := covAt a T y j (i, k) / (Real.sqrt (covAt a T y j (i, i)) * Real.sqrt (covAt a T y j (k, k)))
    refine Or.inr ⟨_, _, rfl, rfl, ?_, ?_⟩
    · rw [← hs]
      have n1 := vol_nonneg' (a := a) (x := x) s i
      have n2 := vol_nonneg' (a := a) (x := x) s k
      have n3 := vol_nonneg' (a := a) (x := y) s i
      have n4 := vol_nonneg' (a := a) (x := y) s k
      set p := vol a x s i * vol a x s k with hp
      set p' := vol a y s i * vol a y s k with hp'
      have p0 : 0 ≤ p := mul_nonneg n1 n2
      have p0' : 0 ≤ p' := mul_nonneg n3 n4
      have c1 : p' ≤ ρ ^ 2 * p := by
        have := mul_le_mul (hv i).1 (hv k).1 n4 (by positivity)
        rw [hp, hp']; linarith
      have c2 : p ≤ ρ ^ 2 * p' := by
        have := mul_le_mul (hv i).2 (hv k).2 n2 (by positivity)
        rw [hp, hp']; linarith
      have c3 : |p' - p| ≤ (ρ ^ 2 - 1) * p := by
        rw [abs_le]
        refine ⟨?_, by linarith⟩
        have : p / ρ ^ 2 ≤ p' := by rw [div_le_iff₀ (by linarith)]; linarith
        have h5 : (2 - ρ ^ 2) * p ≤ p / ρ ^ 2 := by
          rw [le_div_iff₀ (by linarith)]
          nlinarith [mul_nonneg (sq_nonneg (ρ ^ 2 - 1)) p0]
        linarith
      have e : p' * R' - p * R = p' * (R' - R) + (p' - p) * R := by ring
      rw [e]
      have t1 : |p' * (R' - R)| ≤ ρ ^ 2 * p * ((ρ ^ 2) ^ 4 - 1) := by
        rw [abs_mul, abs_of_nonneg p0']
        exact mul_le_mul c1 hcorr (abs_nonneg _) (by positivity)
      have t2 : |(p' - p) * R| ≤ (ρ ^ 2 - 1) * p * 1 := by
        rw [abs_mul]
        exact mul_le_mul c3 hR (abs_nonneg _) (mul_nonneg (by linarith) p0)
      have := abs_add_le (p' * (R' - R)) ((p' - p) * R)
      refine this.trans ((add_le_add t1 t2).trans (le_of_eq ?_))
      ring
    · rw [← hs]
      by_cases hvz : vol a x s i * vol a x s k = 0
      · have : vol a y s i * vol a y s k = 0 := by
          rcases mul_eq_zero.1 hvz with h' | h'
          · have := (hv i).1; rw [h'] at this
            have h'' : vol a y s i = 0 := le_antisymm (by linarith) (vol_nonneg' _ _)
            rw [h'', zero_mul]
          · have := (hv k).1; rw [h'] at this
            have h'' : vol a y s k = 0 := le_antisymm (by linarith) (vol_nonneg' _ _)
            rw [h'', mul_zero]
        rw [hvz, this]
        simp only [div_zero, sub_zero, abs_zero]
        have := one_le_pow₀ hρ (n := 8)
        linarith
      · have hvz' : vol a y s i * vol a y s k ≠ 0 := fun h' => hvz (by
          rcases mul_eq_zero.1 h' with h' | h'
          · have := (hv i).2; rw [h'] at this
            have h'' : vol a x s i = 0 := le_antisymm (by linarith) (vol_nonneg' _ _)
            rw [h'', zero_mul]
          · have := (hv k).2; rw [h'] at this
            have h'' : vol a x s k = 0 := le_antisymm (by linarith) (vol_nonneg' _ _)
            rw [h'', mul_zero])
        rw [mul_div_cancel_left₀ _ hvz', mul_div_cancel_left₀ _ hvz]
        refine hcorr.trans (le_of_eq ?_)
        ring

end

/-- **C191.** If every return is changed by a factor between `1 / ρ` and `ρ`, `iterated_ewma` (without mean, clipped or not) gives results for the
same times, with volatilities within the factor `ρ`, correlations within `ρ^8 - 1` and covariances within `ρ^10 - 1` in units of the product
of the volatilities; it fails for one exactly if it fails for the other. -/
theorem C191_well_conditioned [Nonempty ι] {f g : Frame τ ι XR} {a : RealArgs} (ha : a.Valid) (hm : a.mean = false) {T : ℕ} {tm : ℕ → τ}
    (hd : DistinctTimes T tm) {x y : ℕ → ι → ℝ} (hf : Represents f a.nanToNum T tm x) (hg : Represents g a.nanToNum T tm y) {ρ : ℝ} (hρ : 1 ≤ ρ)
    (hxy : ∀ t < T, ∀ i, FactorClose ρ (x t i) (y t i)) :
    (iteratedEwma f a.toArgs = .error .indexError ∧ iteratedEwma g a.toArgs = .error .indexError) ∨
    ∃ rs rs', iteratedEwma f a.toArgs = .ok rs ∧ iteratedEwma g a.toArgs = .ok rs' ∧ List.Forall₂ (CloseResults ρ) rs rs' := by
  rw [C57_functional_correctness ha hd hf, C57_functional_correctness ha hd hg, live_close ha hm hρ hxy]
  by_cases h : live a T x = []
  · rw [if_pos h, if_pos h]; exact Or.inl ⟨rfl, rfl⟩
  · rw [if_neg h, if_neg h]
    refine Or.inr ⟨_, _, rfl, rfl, ?_⟩
    rw [List.forall₂_map_left_iff, List.forall₂_map_right_iff, List.forall₂_same]
    intro j hj
    exact item_close ha hm hρ hxy tm (rowsFrom_lt hj)

/-! ### with the mean -/

/-- the volatility of the second row, with mean -/
theorem vol_two {a : RealArgs} (ha : a.Valid) (hm : a.mean = true) (hc : a.clip = none) :
    ∃ κ : ℝ, 0 < κ ∧ ∀ (x : ℕ → ι → ℝ) (i : ι), vol a x 0 i = 0 ∧ cRet a x 0 i = 0 ∧ vol a x 1 i = κ * |x 1 i - x 0 i| := by
  have b0 := decayOf_pos a.volaHalflife
  have b1 := decayOf_lt_one ha.vola
  have g0 := betaOf_pos a.mu1h
  set g := betaOf a.mu1h with hg
  have hw := newWeight_pos b0 b1 1
  refine ⟨Real.sqrt (newWeight (decayOf a.volaHalflife) 1) * (g / (1 + g)), mul_pos (Real.sqrt_pos.2 hw) (by positivity), fun x i => ?_⟩
  have c0 : cRet a x 0 i = 0 := by
    simp [cRet, muOf, hm, halflifeAverage_eq, emaAvg]
  have c1 : cRet a x 1 i = g / (1 + g) * (x 1 i - x 0 i) := by
    simp only [cRet, muOf, hm, if_true, halflifeAverage_eq, emaAvg, Finset.sum_range_succ, Finset.sum_range_zero]
    rw [← hg]
    norm_num
    field_simp
    ring
  refine ⟨?_, c0, ?_⟩
  · simp [vol, volSq, varSeq, c0]
  · unfold vol volSq
    rw [hc, varSeq_succ]
    simp only [clippedQ, varSeq, c0, c1]
    rw [show ∀ p q : ℝ, (1 - p) * 0 ^ 2 + p * q ^ 2 = p * q ^ 2 by intros; ring, Real.sqrt_mul hw.le, Real.sqrt_sq_eq_abs, abs_mul,
      abs_of_pos (show 0 < g / (1 + g) by positivity), _root_.mul_assoc]

/-- With the mean there is no such bound: whatever `ρ > 1` and `M`, a factor between `1 / ρ` and `ρ` on one return can make a volatility
more than `M` times as large. -/
theorem C191_not_with_mean [Nonempty ι] {a : RealArgs} (ha : a.Valid) (hm : a.mean = true) (hc : a.clip = none) (hv : a.minPeriodsVola ≤ 2)
    (hmc : a.minPeriodsCov ≤ 1) {ρ : ℝ} (hρ : 1 < ρ) (M : ℝ) :
    ∃ x y : ℕ → ι → ℝ, (∀ t i, FactorClose ρ (x t i) (y t i)) ∧ ∀ tm : ℕ → τ, DistinctTimes 2 tm →
      ∃ (r r' : IEWMA τ ι XR) (v v' : ι → ℝ), iteratedEwma (finFrame 2 tm x) a.toArgs = .ok [r] ∧ iteratedEwma (finFrame 2 tm y) a.toArgs = .ok [r'] ∧
        r.time = tm 1 ∧ r'.time = tm 1 ∧ r.volatility = finRow v ∧ r'.volatility = finRow v' ∧ ∀ i, 0 < v i ∧ M * v i < v' i := by
  obtain ⟨κ, hκ, hvol⟩ := vol_two (ι := ι) ha hm hc
  set δ := (ρ - 1) / (|M| + 1) with hδ
  have hM := abs_nonneg M
  have hδ0 : 0 < δ := div_pos (by linarith) (by linarith)
  have hMδ : M * δ < ρ - 1 := by
    have h1 : δ * (|M| + 1) = ρ - 1 := by rw [hδ]; field_simp
    have h2 : M * δ ≤ |M| * δ := mul_le_mul_of_nonneg_right (le_abs_self M) hδ0.le
    nlinarith
  set x : ℕ → ι → ℝ := fun t _ => if t = 0 then 1 else 1 + δ with hx
  set y : ℕ → ι → ℝ := fun t _ => if t = 0 then 1 else ρ * (1 + δ) with hy
  have run : ∀ (z : ℕ → ι → ℝ) (tm : ℕ → τ), DistinctTimes 2 tm → (∀ i, z 0 i < z 1 i) →
      iteratedEwma (finFrame 2 tm z) a.toArgs = .ok [itemAt a 2 tm z 0] ∧ (live a 2 z).getD 0 0 = 1 := by
    intro z tm hd hz
    have hl : live a 2 z = [1] := by
      unfold live
      have h0 : ¬ (a.minPeriodsVola - 1 ≤ ((0 : ℕ) : Int) ∧ ∃ i, ¬ (vol a z 0 i = 0 ∧ cRet a z 0 i = 0)) := by
        rintro ⟨-, i, hi⟩
        exact hi ⟨(hvol z i).1, (hvol z i).2.1⟩
      have h1 : a.minPeriodsVola - 1 ≤ ((1 : ℕ) : Int) ∧ ∃ i, ¬ (vol a z 1 i = 0 ∧ cRet a z 1 i = 0) := by
        refine ⟨by push_cast; omega, Classical.arbitrary ι, fun h => ?_⟩
        have := (hvol z (Classical.arbitrary ι)).2.2
        rw [h.1] at this
        have h2 := hz (Classical.arbitrary ι)
        have h3 : 0 < |z 1 (Classical.arbitrary ι) - z 0 (Classical.arbitrary ι)| := abs_pos.2 (by linarith)
        have := mul_pos hκ h3
        linarith
      rw [show List.range 2 = [0, 1] from rfl, List.filter_cons_of_neg (by simpa using h0), List.filter_cons_of_pos (by simpa using h1), List.filter_nil]
    have hr : rowsFrom a.minPeriodsCov 1 = [0] := by
      unfold rowsFrom
      rw [show List.range 1 = [0] from rfl, List.filter_cons_of_pos (by simp; omega), List.filter_nil]
    have hrep : Represents (finFrame 2 tm z) a.nanToNum 2 tm z := ⟨fun t => finRow (z t), rfl, fun t _ i => Or.inl (by simp [finRow])⟩
    rw [C57_functional_correctness ha hd hrep, hl, if_neg (by simp)]
    exact ⟨by rw [show [1].length = 1 from rfl, hr]; rfl, rfl⟩
  have hx1 : ∀ i, x 0 i < x 1 i := fun i => by simp only [hx]; norm_num; exact hδ0
  have hy1 : ∀ i, y 0 i < y 1 i := fun i => by simp only [hy]; norm_num; nlinarith
  refine ⟨x, y, fun t i => ?_, fun tm hd => ?_⟩
  · simp only [hx, hy]
    split
    · exact .refl hρ.le _
    · exact ⟨ρ, (inv_le_one_of_one_le₀ hρ.le).trans hρ.le, le_rfl, rfl⟩
  · obtain ⟨e1, l1⟩ := run x tm hd hx1
    obtain ⟨e2, l2⟩ := run y tm hd hy1
    refine ⟨_, _, vol a x 1, vol a y 1, e1, e2, by simp only [itemAt, l1], by simp only [itemAt, l2], by simp only [itemAt, l1],
      by simp only [itemAt, l2], fun i => ?_⟩
    rw [(hvol x i).2.2, (hvol y i).2.2, abs_of_pos (by linarith [hx1 i]), abs_of_pos (by linarith [hy1 i])]
    have f1 : x 1 i - x 0 i = δ := by simp only [hx]; norm_num
    have f2 : y 1 i - y 0 i = ρ * (1 + δ) - 1 := by simp only [hy]; norm_num
    rw [f1, f2]
    refine ⟨mul_pos hκ hδ0, ?_⟩
    have : M * δ < ρ * (1 + δ) - 1 := by nlinarith
    nlinarith

/-! ### the hypotheses are met -/

namespace ConditioningEx

/-- a thousand rows of returns of three assets, and the same with every return rounded up by at most a thousandth -/
example (x : ℕ → Fin 3 → ℝ) (θ : ℕ → Fin 3 → ℝ) (hθ : ∀ t i, 0 ≤ θ t i ∧ θ t i ≤ 1 / 1000) (hx : x 0 0 ≠ 0) :
    ∃ rs rs', iteratedEwma (finFrame 1000 (fun t => t) x) ({ volaHalflife := 63, covHalflife := 125, clipAt := some (21 / 5) } : RealArgs).toArgs = .ok rs ∧
      iteratedEwma (finFrame 1000 (fun t => t) fun t i => (1 + θ t i) * x t i)
        ({ volaHalflife := 63, covHalflife := 125, clipAt := some (21 / 5) } : RealArgs).toArgs = .ok rs' ∧
      List.Forall₂ (CloseResults (1001 / 1000)) rs rs' := by
  have ha : ({ volaHalflife := 63, covHalflife := 125, clipAt := some (21 / 5) } : RealArgs).Valid := ⟨by norm_num, by norm_num, by simp, by simp⟩
  have hrep : ∀ z : ℕ → Fin 3 → ℝ, Represents (finFrame 1000 (fun t => t) z) true 1000 (fun t => t) z := fun z =>
    ⟨fun t => finRow (z t), rfl, fun t _ i => Or.inl (by simp [finRow])⟩
  have hd : DistinctTimes 1000 (fun t : ℕ => t) := fun s t _ _ h => h
  rcases C191_well_conditioned (a := { volaHalflife := 63, covHalflife := 125, clipAt := some (21 / 5) }) ha rfl hd (hrep x)
    (hrep fun t i => (1 + θ t i) * x t i) (ρ := 1001 / 1000) (by norm_num)
    (fun t _ i => ⟨1 + θ t i, by have := hθ t i; norm_num; linarith, by have := hθ t i; linarith, rfl⟩) with ⟨h, _⟩ | h
  · exfalso
    rw [C57_functional_correctness ha hd (hrep x), live_active ha (k := 0) (i := 0) (Or.inr rfl) (by rw [cRet_plain rfl]; exact hx)] at h
    rw [if_neg] at h
    · exact absurd h (by simp)
    · intro h'
      have : 999 ∈ rowsFrom 20 1000 := mem_rowsFrom.2 ⟨by norm_num, by norm_num⟩
      rw [h'] at this
      exact absurd this (by simp)
  · exact h

/-- half-lives of 63 and 125 rows with mean: one return changed by one percent can make a volatility a million times as large -/
example : ∃ x y : ℕ → Fin 3 → ℝ, (∀ t i, FactorClose (101 / 100) (x t i) (y t i)) ∧ ∀ tm : ℕ → ℕ, DistinctTimes 2 tm →
      ∃ (r r' : IEWMA ℕ (Fin 3) XR) (v v' : Fin 3 → ℝ),
        iteratedEwma (finFrame 2 tm x) ({ volaHalflife := 63, covHalflife := 125, mean := true, minPeriodsVola := 2, minPeriodsCov := 1 } : RealArgs).toArgs
          = .ok [r] ∧
        iteratedEwma (finFrame 2 tm y) ({ volaHalflife := 63, covHalflife := 125, mean := true, minPeriodsVola := 2, minPeriodsCov := 1 } : RealArgs).toArgs
          = .ok [r'] ∧
        r.time = tm 1 ∧ r'.time = tm 1 ∧ r.volatility = finRow v ∧ r'.volatility = finRow v' ∧ ∀ i, 0 < v i ∧ 1000000 * v i < v' i :=
  C191_not_with_mean ⟨by norm_num, by norm_num, by simp, by simp⟩ rfl rfl (by norm_num) (by norm_num) (by norm_num) _

end ConditioningEx

end CovPred
