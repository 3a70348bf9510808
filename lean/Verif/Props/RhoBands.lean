import Verif.Lemmas.RhoBands
import Verif.Props.Portfolio3
import Verif.Props.Readme
import Mathlib.Tactic.FieldSimp
import Mathlib.Tactic.LinearCombination

/-
Property C172: forecasts with a band of uncertainty, built from several exponentially weighted averages
(experiments/industry_portfolios.ipynb:1230-1278).
-/
set_option linter.unusedSectionVars false
namespace CovPred

variable {τ : Type} [LinearOrder τ] {n : ℕ}

section
variable (T : ℕ) (tm : ℕ → τ) (x : ℕ → Vec n) {hs : List ℝ}

/-- **C172.** The tables have the rows of the returns. With `v h` the average with half-life `h` of the asset's returns up to
that row, the forecast is the mean of the `v h` and the uncertainty is half of their range. -/
theorem C172_range_band (hne : hs ≠ []) (hpos : ∀ h ∈ hs, 0 < h) :
    ∃ P R, rangeBand (rowDict T tm x) hs = .ok (rowDict T tm P, rowDict T tm R) ∧ ∀ t < T, ∀ i,
      P t i = (hs.map fun h => ewmForecast x h t i).sum / (hs.length : ℝ) ∧
      ∃ hi lo, IsGreatest {v | ∃ h ∈ hs, v = ewmForecast x h t i} hi ∧ IsLeast {v | ∃ h ∈ hs, v = ewmForecast x h t i} lo ∧
        R t i = (hi - lo) / 2 := by
  refine ⟨_, _, rangeBand_rows T tm x hne hpos, fun t _ i => ⟨rfl, _, _, ?_, ?_, rfl⟩⟩
  · have h := listMax_spec (l := hs.map fun h => ewmForecast x h t i) (by simpa using hne)
    have e : {v | ∃ h ∈ hs, v = ewmForecast x h t i} = {v | v ∈ hs.map fun h => ewmForecast x h t i} := by
      ext v; simp [eq_comm]
    rw [e]; exact h
  · have h := listMin_spec (l := hs.map fun h => ewmForecast x h t i) (by simpa using hne)
    have e : {v | ∃ h ∈ hs, v = ewmForecast x h t i} = {v | v ∈ hs.map fun h => ewmForecast x h t i} := by
      ext v; simp [eq_comm]
    rw [e]; exact h

/-- **C172.** When the cells raise `ValueError`: without half-lives, or with one that is not positive. -/
theorem C172_arguments (lower upper base : ℝ) (hl : 0 ≤ lower ∧ lower ≤ 1) (hu : 0 ≤ upper ∧ upper ≤ 1) :
    ((hs = [] ∨ ∃ h ∈ hs, h ≤ 0) → rangeBand (rowDict T tm x) hs = .error .valueError) ∧
    ((hs = [] ∨ (∃ h ∈ hs, h ≤ 0) ∨ base ≤ 0) →
      deviationBand (rowDict T tm x) lower upper hs base = .error .valueError) := by
  have bad : ∀ {A : Type} (f : ℝ → Except Err A), (∀ h, h ≤ 0 → f h = .error .valueError) → (∀ h, 0 < h → ∃ a, f h = .ok a) →
      ∀ l : List ℝ, (∃ h ∈ l, h ≤ 0) → l.mapM f = .error .valueError := by
    intro A f h1 h2 l
    induction l with
    | nil => rintro ⟨h, hh, _⟩; cases hh
    | cons a l ih =>
      rintro ⟨h, hh, hle⟩
      rw [List.mapM_cons]
      by_cases ha : a ≤ 0
      · rw [h1 a ha]; rfl
      · obtain ⟨b, hb⟩ := h2 a (not_le.mp ha)
        rw [hb]
        rcases List.mem_cons.mp hh with rfl | hh
        · exact absurd hle ha
        · change (l.mapM f >>= fun y => pure (b :: y)) = _
          rw [ih ⟨h, hh, hle⟩]; rfl
  have hf1 : ∀ h, h ≤ 0 → ewmFrame (rowDict T tm x) h = .error .valueError := fun h hh => by
    unfold ewmFrame; rw [if_pos hh]
  have hf2 : ∀ h, h ≤ 0 → tunedEwm (rowDict T tm x) lower upper h = .error .valueError := fun h hh => by
    unfold tunedEwm; rw [hf1 h hh]; rfl
  constructor
  · rintro (rfl | h)
    · rfl
    · unfold rangeBand
      rw [bad _ hf1 (fun h hh => ⟨_, ewmFrame_rows hh T tm x⟩) hs h]; rfl
  · intro h
    unfold deviationBand
    by_cases hex : ∃ h ∈ hs, h ≤ 0
    · rw [bad _ hf2 (fun h hh => ⟨_, tunedEwm_rows hl hu hh T tm x⟩) hs hex]; rfl
    · have hpos : ∀ h ∈ hs, 0 < h := fun h hh => by
        by_contra hc
        exact hex ⟨h, hh, not_lt.mp hc⟩
      rw [mapM_map_ok _ (fun h => rowDict T tm fun t => tunedRow lower upper (ewmForecast x h t)) hs
        fun h hh => tunedEwm_rows hl hu (hpos h hh) T tm x]
      by_cases hb : base ≤ 0
      · rw [hf2 base hb]; rfl
      · rw [tunedEwm_rows hl hu (not_le.mp hb)]
        rcases h with rfl | h | h
        · rfl
        · exact absurd h hex
        · exact absurd h hb

variable {T tm x}

theorem rangeBand_ok {P R : ℕ → Vec n} (hne : hs ≠ []) (hpos : ∀ h ∈ hs, 0 < h)
    (h : rangeBand (rowDict T tm x) hs = .ok (rowDict T tm P, rowDict T tm R)) {t : ℕ} (ht : t < T) (i : Fin n) :
    P t i = (hs.map fun h => ewmForecast x h t i).sum / (hs.length : ℝ) ∧
    R t i = (listMax (hs.map fun h => ewmForecast x h t i) - listMin (hs.map fun h => ewmForecast x h t i)) / 2 := by
  rw [rangeBand_rows T tm x hne hpos] at h
  have h := Except.ok.inj h
  rw [Prod.mk.injEq, rowDict_ext, rowDict_ext] at h
  exact ⟨(congrFun (h.1 t ht) i).symm, (congrFun (h.2 t ht) i).symm⟩

theorem sum_dev_le (v : ℝ → ℝ) {D : ℝ} (c : ℝ) : ∀ l : List ℝ, (∀ h ∈ l, |c - v h| ≤ D) →
    |l.length * c - (l.map v).sum| ≤ l.length * D := by
  intro l
  induction l with
  | nil => intro _; simp
  | cons a l ih =>
    intro h
    have h1 := h a List.mem_cons_self
    have h2 := ih fun b hb => h b (List.mem_cons_of_mem _ hb)
    rw [List.length_cons, List.map_cons, List.sum_cons]
    push_cast
    have e : ((l.length : ℝ) + 1) * c - (v a + (l.map v).sum) = (c - v a) + (l.length * c - (l.map v).sum) := by ring
    rw [e]
    refine (abs_add_le _ _).trans ?_
    linarith

/-- **C172.** The averages are within `2 (K - 1) / K` times the uncertainty of the forecast (`4/3` for three averages); no other
number is closer to all of them than the uncertainty; they are all within the uncertainty of the forecast exactly if the
forecast is the midpoint of their range. The uncertainty is never negative, and 0 exactly if the averages agree. -/
theorem C172_how_far {P R : ℕ → Vec n} (hne : hs ≠ []) (hpos : ∀ h ∈ hs, 0 < h)
    (h : rangeBand (rowDict T tm x) hs = .ok (rowDict T tm P, rowDict T tm R)) {t : ℕ} (ht : t < T) (i : Fin n) :
    (∀ h ∈ hs, |ewmForecast x h t i - P t i| ≤ 2 * ((hs.length : ℝ) - 1) / hs.length * R t i) ∧
    (∀ c r, (∀ h ∈ hs, |ewmForecast x h t i - c| ≤ r) → R t i ≤ r) ∧
    ((∀ h ∈ hs, |ewmForecast x h t i - P t i| ≤ R t i) ↔
      ∀ hi lo, IsGreatest {v | ∃ h ∈ hs, v = ewmForecast x h t i} hi → IsLeast {v | ∃ h ∈ hs, v = ewmForecast x h t i} lo →
        P t i = (hi + lo) / 2) ∧
    0 ≤ R t i ∧ (R t i = 0 ↔ ∀ h ∈ hs, ∀ h' ∈ hs, ewmForecast x h t i = ewmForecast x h' t i) := by
  obtain ⟨hP, hR⟩ := rangeBand_ok hne hpos h ht i
  set v := fun h => ewmForecast x h t i with hv
  have hne' : hs.map v ≠ [] := by simpa using hne
  have hmax := listMax_spec hne'
  have hmin := listMin_spec hne'
  set M := listMax (hs.map v)
  set m := listMin (hs.map v)
  have hle : ∀ h ∈ hs, m ≤ v h ∧ v h ≤ M := fun h hh =>
    ⟨hmin.2 (List.mem_map_of_mem hh), hmax.2 (List.mem_map_of_mem hh)⟩
  obtain ⟨hM, hMm, hMe⟩ := List.mem_map.mp hmax.1
  obtain ⟨hm, hmm, hme⟩ := List.mem_map.mp hmin.1
  have hset : {w | ∃ h ∈ hs, w = ewmForecast x h t i} = {w | w ∈ hs.map v} := by
    ext w; simp [eq_comm, hv]
  have hlen : (0 : ℝ) < hs.length := by
    have : 0 < hs.length := List.length_pos_of_ne_nil hne
    exact_mod_cast this
  refine ⟨fun a ha => ?_, fun c r hc => ?_, ?_, ?_, ?_⟩
  · obtain ⟨l1, l2, hl⟩ := List.append_of_mem ha
    have h1 := sum_dev_le v (D := M - m) (v a) (l1 ++ l2) fun b hb => by
      have hb' : b ∈ hs := by rw [hl]; simp only [List.mem_append, List.mem_cons] at hb ⊢; tauto
      rw [abs_le]
      constructor <;> linarith [hle a ha, hle b hb']
    have e1 : ((l1 ++ l2).length : ℝ) = hs.length - 1 := by
      rw [hl]; simp only [List.length_append, List.length_cons]; push_cast; ring
    have e2 : ((l1 ++ l2).map v).sum = (hs.map v).sum - v a := by
      rw [hl]; simp only [List.map_append, List.map_cons, List.sum_append, List.sum_cons]; ring
    rw [e1, e2] at h1
    have e3 : v a - P t i = (((hs.length : ℝ) - 1) * v a - ((hs.map v).sum - v a)) / hs.length := by
      rw [hP]; field_simp; ring
    have e4 : 2 * ((hs.length : ℝ) - 1) / hs.length * R t i = ((hs.length : ℝ) - 1) * (M - m) / hs.length := by
      rw [hR]; field_simp
    show |v a - P t i| ≤ _
    rw [e3, e4, abs_div, abs_of_pos hlen]
    exact (div_le_div_iff_of_pos_right hlen).mpr h1
  · have h1 := abs_le.mp (hc hM hMm)
    have h2 := abs_le.mp (hc hm hmm)
    change _ ≤ v hM - c ∧ v hM - c ≤ _ at h1
    change _ ≤ v hm - c ∧ v hm - c ≤ _ at h2
    rw [hR]
    linarith
  · constructor
    · intro hall hi lo h1 h2
      rw [hset] at h1 h2
      have e1 : hi = M := h1.unique hmax
      have e2 : lo = m := h2.unique hmin
      subst e1 e2
      have h3 := abs_le.mp (hall hM hMm)
      have h4 := abs_le.mp (hall hm hmm)
      change _ ≤ v hM - _ ∧ v hM - _ ≤ _ at h3
      change _ ≤ v hm - _ ∧ v hm - _ ≤ _ at h4
      linarith
    · intro hmid a ha
      have h1 := hmid M m (by rw [hset]; exact hmax) (by rw [hset]; exact hmin)
      have := hle a ha
      show |v a - _| ≤ _
      rw [hR, h1, abs_le]
      constructor <;> linarith
  · have := hle hM hMm
    rw [hR]; linarith
  · constructor
    · intro h0 a ha b hb
      have h1 := hle a ha
      have h2 := hle b hb
      show v a = v b
      linarith
    · intro hall
      have : v hM = v hm := hall hM hMm hm hmm
      rw [hR]; linarith

/-- **C172.** With the notebook's half-lives 125, 250 and 500 the band is too narrow: on the second row, for every asset whose
two returns differ, one of the three averages is outside of the forecast plus or minus the uncertainty. -/
theorem C172_too_narrow {P R : ℕ → Vec n}
    (h : rangeBand (rowDict T tm x) [125, 250, 500] = .ok (rowDict T tm P, rowDict T tm R)) (hT : 1 < T) (i : Fin n)
    (hx : x 0 i ≠ x 1 i) : ∃ h ∈ [(125 : ℝ), 250, 500], R 1 i < |ewmForecast x h 1 i - P 1 i| := by
  have hpos : ∀ h ∈ [(125 : ℝ), 250, 500], 0 < h := by
    intro h hh
    simp only [List.mem_cons, List.not_mem_nil, or_false] at hh
    rcases hh with rfl | rfl | rfl <;> norm_num
  have hne : [(125 : ℝ), 250, 500] ≠ [] := by simp
  obtain ⟨_, hleast, hmid, _⟩ := C172_how_far hne hpos h hT i
  obtain ⟨hP, _⟩ := rangeBand_ok hne hpos h hT i
  by_contra hno
  have hall : ∀ h ∈ [(125 : ℝ), 250, 500], |ewmForecast x h 1 i - P 1 i| ≤ R 1 i := fun h hh => by
    by_contra hc
    exact hno ⟨h, hh, not_le.mp hc⟩
  have hval : ∀ h, ewmForecast x h 1 i = x 1 i + (x 0 i - x 1 i) * (betaOf h / (1 + betaOf h)) := by
    intro h
    have hb := betaOf_pos h
    unfold ewmForecast
    rw [halflifeAverage_eq]
    unfold emaAvg
    simp only [Finset.sum_range_succ, Finset.sum_range_zero, zero_add, Nat.sub_self, pow_zero, Nat.sub_zero, pow_one, one_mul]
    field_simp
    ring
  have hb250 : betaOf 250 = betaOf 500 ^ 2 := by
    unfold betaOf
    rw [← Real.exp_nat_mul]; congr 1; push_cast; ring
  have hb125 : betaOf 125 = betaOf 500 ^ 4 := by
    unfold betaOf
    rw [← Real.exp_nat_mul]; congr 1; push_cast; ring
  have hb0 := betaOf_pos 500
  have hb1 : betaOf 500 < 1 := betaOf_lt_one (by norm_num)
  have hb2 : 1 / 2 < betaOf 500 := by
    have h1 : betaOf 500 ^ 500 = 1 / 2 := by
      rw [betaOf_pow]; norm_num [Real.rpow_neg_one]
    have h2 : betaOf 500 ^ 500 < betaOf 500 := pow_lt_self_of_lt_one₀ hb0 hb1 (by norm_num)
    linarith
  set b := betaOf 500
  -- the extreme averages are the first and the last
  have h125 := hval 125
  have h250 := hval 250
  have h500 := hval 500
  rw [hb125] at h125
  rw [hb250] at h250
  have g1 : b ^ 4 / (1 + b ^ 4) < b ^ 2 / (1 + b ^ 2) := by
    rw [div_lt_div_iff₀ (by positivity) (by positivity)]
    nlinarith [mul_pos (pow_pos hb0 2) (sub_pos.mpr hb1), pow_pos hb0 2, mul_pos hb0 (sub_pos.mpr hb1)]
  have g2 : b ^ 2 / (1 + b ^ 2) < b / (1 + b) := by
    rw [div_lt_div_iff₀ (by positivity) (by positivity)]
    nlinarith [mul_pos hb0 (sub_pos.mpr hb1)]
  have hsum : P 1 i = (ewmForecast x 125 1 i + (ewmForecast x 250 1 i + ewmForecast x 500 1 i)) / 3 := by
    rw [hP]; simp
  have hmidpoint : P 1 i = (ewmForecast x 125 1 i + ewmForecast x 500 1 i) / 2 := by
    rcases lt_or_gt_of_ne hx with hlt | hgt
    · have hd : x 0 i - x 1 i < 0 := by linarith
      have e := hmid.mp hall (ewmForecast x 125 1 i) (ewmForecast x 500 1 i) ⟨⟨125, by simp, rfl⟩, ?_⟩ ⟨⟨500, by simp, rfl⟩, ?_⟩
      · exact e
      · rintro w ⟨h, hh, rfl⟩
        simp only [List.mem_cons, List.not_mem_nil, or_false] at hh
        rcases hh with rfl | rfl | rfl
        · exact le_rfl
        · rw [h125, h250]; nlinarith
        · rw [h125, h500]; nlinarith
      · rintro w ⟨h, hh, rfl⟩
        simp only [List.mem_cons, List.not_mem_nil, or_false] at hh
        rcases hh with rfl | rfl | rfl
        · rw [h125, h500]; nlinarith
        · rw [h250, h500]; nlinarith
        · exact le_rfl
    · have hd : 0 < x 0 i - x 1 i := by linarith
      have e := hmid.mp hall (ewmForecast x 500 1 i) (ewmForecast x 125 1 i) ⟨⟨500, by simp, rfl⟩, ?_⟩ ⟨⟨125, by simp, rfl⟩, ?_⟩
      · rw [e]; ring
      · rintro w ⟨h, hh, rfl⟩
        simp only [List.mem_cons, List.not_mem_nil, or_false] at hh
        rcases hh with rfl | rfl | rfl
        · rw [h125, h500]; nlinarith
        · rw [h250, h500]; nlinarith
        · exact le_rfl
      · rintro w ⟨h, hh, rfl⟩
        simp only [List.mem_cons, List.not_mem_nil, or_false] at hh
        rcases hh with rfl | rfl | rfl
        · exact le_rfl
        · rw [h125, h250]; nlinarith
        · rw [h125, h500]; nlinarith
  rw [hsum, h125, h250, h500] at hmidpoint
  have hg : 2 * (b ^ 2 / (1 + b ^ 2)) = b ^ 4 / (1 + b ^ 4) + b / (1 + b) := by
    have hd : x 0 i - x 1 i ≠ 0 := sub_ne_zero.mpr hx
    have : (x 0 i - x 1 i) * (2 * (b ^ 2 / (1 + b ^ 2)) - (b ^ 4 / (1 + b ^ 4) + b / (1 + b))) = 0 := by
      linear_combination 6 * hmidpoint
    rcases mul_eq_zero.mp this with h | h
    · exact absurd h hd
    · linarith
  have h1 : (1 + b ^ 2) ≠ 0 := by positivity
  have h2 : (1 + b ^ 4) ≠ 0 := by positivity
  have h3 : (1 + b) ≠ 0 := by positivity
  field_simp at hg
  have hpoly : b * (b - 1) * (b ^ 4 - b ^ 3 - 2 * b ^ 2 - b + 1) = 0 := by
    have hb : b ≠ 0 := hb0.ne'
    nlinarith [hg]
  have hq : b ^ 4 - b ^ 3 - 2 * b ^ 2 - b + 1 < 0 := by
    nlinarith [mul_pos (sub_pos.mpr hb1) (sub_pos.mpr hb2), pow_pos hb0 2, pow_pos hb0 3]
  rcases mul_eq_zero.mp hpoly with h | h
  · rcases mul_eq_zero.mp h with h | h
    · exact hb0.ne' h
    · linarith
  · linarith

/-- **C172.** The band of the clipped averages: with levels in `[0, 1]` and positive half-lives the cell gives, for every row of
the returns, the clipped average `B` with half-life `base` as the forecast, and as the uncertainty the largest distance of the
other clipped averages from it. -/
theorem C172_deviation_band (T : ℕ) (tm : ℕ → τ) (x : ℕ → Vec n) {lower upper base : ℝ} (hl : 0 ≤ lower ∧ lower ≤ 1)
    (hu : 0 ≤ upper ∧ upper ≤ 1) (hb : 0 < base) (hne : hs ≠ []) (hpos : ∀ h ∈ hs, 0 < h) :
    ∃ (B R : ℕ → Vec n) (F : ℝ → ℕ → Vec n),
      deviationBand (rowDict T tm x) lower upper hs base = .ok (rowDict T tm B, rowDict T tm R) ∧
      tuneReturns (rowDict T tm (ewmForecast x base)) lower upper = .ok (rowDict T tm B) ∧
      (∀ h ∈ hs, tuneReturns (rowDict T tm (ewmForecast x h)) lower upper = .ok (rowDict T tm (F h))) ∧
      ∀ t < T, ∀ i, IsGreatest {d | ∃ h ∈ hs, d = |F h t i - B t i|} (R t i) := by
  have htune : ∀ h, 0 < h → tuneReturns (rowDict T tm (ewmForecast x h)) lower upper
      = .ok (rowDict T tm fun t => tunedRow lower upper (ewmForecast x h t)) := by
    intro h hh
    have := tunedEwm_rows hl hu hh T tm x
    unfold tunedEwm at this
    rw [ewmFrame_rows hh] at this
    exact this
  refine ⟨_, _, fun h t => tunedRow lower upper (ewmForecast x h t), deviationBand_rows hl hu hb T tm x hne hpos,
    htune base hb, fun h hh => htune h (hpos h hh), fun t _ i => ?_⟩
  have h := listMax_spec (l := hs.map fun h =>
    |tunedRow lower upper (ewmForecast x h t) i - tunedRow lower upper (ewmForecast x base t) i|) (by simpa using hne)
  have e : {d | ∃ h ∈ hs, d = |tunedRow lower upper (ewmForecast x h t) i - tunedRow lower upper (ewmForecast x base t) i|}
      = {v | v ∈ hs.map fun h => |tunedRow lower upper (ewmForecast x h t) i - tunedRow lower upper (ewmForecast x base t) i|} := by
    ext v; simp [eq_comm]
  rw [e]; exact h

theorem robust_le {rHat rho r : Vec n} (h : ∀ i, |r i - rHat i| ≤ rho i) (w : Vec n) (c : ℝ) :
    meanVarianceRet rHat (some rho) w c ≤ ∑ i, r i * w i := by
  have hrho : ∀ i, 0 ≤ rho i := fun i => (abs_nonneg _).trans (h i)
  exact (C86_worst_case rHat rho w hrho c).2 ⟨r, h, rfl⟩

/-- **C172.** What the uncertainties mean for `mean_variance`: with the band of the clipped averages its objective is at most
the return that any of the averages predicts for the same weights. -/
theorem C172_worst_case (T : ℕ) (tm : ℕ → τ) (x : ℕ → Vec n) {lower upper base : ℝ} (hl : 0 ≤ lower ∧ lower ≤ 1)
    (hu : 0 ≤ upper ∧ upper ≤ 1) (hb : 0 < base) (hne : hs ≠ []) (hpos : ∀ h ∈ hs, 0 < h) {B R F : ℕ → Vec n}
    (hd : deviationBand (rowDict T tm x) lower upper hs base = .ok (rowDict T tm B, rowDict T tm R)) {h : ℝ} (hh : h ∈ base :: hs)
    (hF : tuneReturns (rowDict T tm (ewmForecast x h)) lower upper = .ok (rowDict T tm F)) {t : ℕ} (ht : t < T) (w : Vec n)
    (c : ℝ) : meanVarianceRet (B t) (some (R t)) w c ≤ ∑ i, F t i * w i := by
  obtain ⟨B', R', F', h1, h2, h3, h4⟩ := C172_deviation_band T tm x hl hu hb hne hpos
  rw [h1] at hd
  have hd := Except.ok.inj hd
  rw [Prod.mk.injEq, rowDict_ext, rowDict_ext] at hd
  rw [← hd.1 t ht, ← hd.2 t ht]
  apply robust_le
  intro i
  rcases List.mem_cons.mp hh with rfl | hh
  · rw [h2] at hF
    have := rowDict_ext.mp (Except.ok.inj hF) t ht
    rw [← this, sub_self, abs_zero]
    obtain ⟨⟨h, _, e⟩, _⟩ := h4 t ht i
    rw [e]
    exact abs_nonneg _
  · rw [h3 h hh] at hF
    have := rowDict_ext.mp (Except.ok.inj hF) t ht
    rw [← this]
    exact (h4 t ht i).2 ⟨h, hh, rfl⟩

/-- **C172.** The same for the mean and half the range of three averages: one has to take `4/3` of the uncertainties. -/
theorem C172_worst_case_range {P R : ℕ → Vec n} (hlen : hs.length = 3) (hpos : ∀ h ∈ hs, 0 < h)
    (hr : rangeBand (rowDict T tm x) hs = .ok (rowDict T tm P, rowDict T tm R)) {t : ℕ} (ht : t < T) {h : ℝ} (hh : h ∈ hs)
    (w : Vec n) (c : ℝ) :
    meanVarianceRet (P t) (some fun i => 4 / 3 * R t i) w c ≤ ∑ i, ewmForecast x h t i * w i := by
  have hne : hs ≠ [] := by rintro rfl; cases hlen
  apply robust_le
  intro i
  have h1 := (C172_how_far hne hpos hr ht i).1 h hh
  rw [hlen] at h1
  norm_num at h1
  exact h1

theorem ewmForecast_congr {x x' : ℕ → Vec n} {t : ℕ} (hx : ∀ s ≤ t, x s = x' s) (h : ℝ) : ewmForecast x h t = ewmForecast x' h t := by
  funext i
  unfold ewmForecast halflifeAverage
  congr 1
  apply Finset.sum_congr rfl
  intro k hk
  dsimp only
  rw [hx k (by rw [Finset.mem_range] at hk; omega)]

/-- **C172.** Forecasts and uncertainties of a row depend on the returns up to that row only. -/
theorem C172_no_lookahead {T T' : ℕ} {tm : ℕ → τ} {x x' : ℕ → Vec n} {lower upper base : ℝ} (hl : 0 ≤ lower ∧ lower ≤ 1)
    (hu : 0 ≤ upper ∧ upper ≤ 1) (hb : 0 < base) (hne : hs ≠ []) (hpos : ∀ h ∈ hs, 0 < h) {t : ℕ} (ht : t < T) (ht' : t < T')
    (hx : ∀ s ≤ t, x s = x' s) {P R P' R' B D B' D' : ℕ → Vec n}
    (h1 : rangeBand (rowDict T tm x) hs = .ok (rowDict T tm P, rowDict T tm R))
    (h1' : rangeBand (rowDict T' tm x') hs = .ok (rowDict T' tm P', rowDict T' tm R'))
    (h2 : deviationBand (rowDict T tm x) lower upper hs base = .ok (rowDict T tm B, rowDict T tm D))
    (h2' : deviationBand (rowDict T' tm x') lower upper hs base = .ok (rowDict T' tm B', rowDict T' tm D')) :
    P t = P' t ∧ R t = R' t ∧ B t = B' t ∧ D t = D' t := by
  have hc := fun h => ewmForecast_congr hx h
  refine ⟨?_, ?_, ?_, ?_⟩
  · funext i
    rw [(rangeBand_ok hne hpos h1 ht i).1, (rangeBand_ok hne hpos h1' ht' i).1]
    simp only [hc]
  · funext i
    rw [(rangeBand_ok hne hpos h1 ht i).2, (rangeBand_ok hne hpos h1' ht' i).2]
    simp only [hc]
  all_goals
    rw [deviationBand_rows hl hu hb T tm x hne hpos] at h2
    rw [deviationBand_rows hl hu hb T' tm x' hne hpos] at h2'
    have e := Except.ok.inj h2
    have e' := Except.ok.inj h2'
    rw [Prod.mk.injEq, rowDict_ext, rowDict_ext] at e e'
  · rw [← e.1 t ht, ← e'.1 t ht']
    simp only [hc]
  · rw [← e.2 t ht, ← e'.2 t ht']
    simp only [hc]

/-- **C172.** Multiplying the returns of each asset by `d i` and adding `m i` does the same to the forecasts; the uncertainties
are multiplied by `|d i|`. -/
theorem C172_units {P R P' R' : ℕ → Vec n} (hne : hs ≠ []) (hpos : ∀ h ∈ hs, 0 < h) (d m : Vec n)
    (h1 : rangeBand (rowDict T tm x) hs = .ok (rowDict T tm P, rowDict T tm R))
    (h2 : rangeBand (rowDict T tm fun t i => d i * x t i + m i) hs = .ok (rowDict T tm P', rowDict T tm R')) {t : ℕ} (ht : t < T)
    (i : Fin n) : P' t i = d i * P t i + m i ∧ R' t i = |d i| * R t i := by
  have hv : ∀ h, ewmForecast (fun t i => d i * x t i + m i) h t i = d i * ewmForecast x h t i + m i := fun h => by
    unfold ewmForecast
    exact halflifeAverage_affine h (fun s => x s i) (m i) (d i) t
  have hlen : (hs.length : ℝ) ≠ 0 := by
    have : 0 < hs.length := List.length_pos_of_ne_nil hne
    exact_mod_cast this.ne'
  constructor
  · rw [(rangeBand_ok hne hpos h1 ht i).1, (rangeBand_ok hne hpos h2 ht i).1]
    have hs' : ∀ l : List ℝ, (l.map fun h => ewmForecast (fun t i => d i * x t i + m i) h t i).sum
        = d i * (l.map fun h => ewmForecast x h t i).sum + l.length * m i := by
      intro l
      induction l with
      | nil => simp
      | cons a l ih =>
        rw [List.map_cons, List.sum_cons, ih, hv, List.map_cons, List.sum_cons, List.length_cons]
        push_cast; ring
    rw [hs']
    field_simp
  · obtain ⟨-, a1, -, -, -⟩ := C172_how_far hne hpos h1 ht i
    obtain ⟨-, b1, -, -, -⟩ := C172_how_far hne hpos h2 ht i
    -- the uncertainty is the least radius
    have r1 : ∃ c, ∀ h ∈ hs, |ewmForecast x h t i - c| ≤ R t i := by
      obtain ⟨_, hR⟩ := rangeBand_ok hne hpos h1 ht i
      have hne' : (hs.map fun h => ewmForecast x h t i) ≠ [] := by simpa using hne
      refine ⟨(listMax (hs.map fun h => ewmForecast x h t i) + listMin (hs.map fun h => ewmForecast x h t i)) / 2, fun h hh => ?_⟩
      have e1 := (listMax_spec hne').2 (List.mem_map_of_mem hh)
      have e2 := (listMin_spec hne').2 (List.mem_map_of_mem hh)
      rw [hR, abs_le]
      constructor <;> linarith
    have r2 : ∃ c, ∀ h ∈ hs, |d i * ewmForecast x h t i + m i - c| ≤ R' t i := by
      obtain ⟨_, hR⟩ := rangeBand_ok hne hpos h2 ht i
      have hne' : (hs.map fun h => ewmForecast (fun t i => d i * x t i + m i) h t i) ≠ [] := by simpa using hne
      refine ⟨(listMax (hs.map fun h => ewmForecast (fun t i => d i * x t i + m i) h t i)
        + listMin (hs.map fun h => ewmForecast (fun t i => d i * x t i + m i) h t i)) / 2, fun h hh => ?_⟩
      have e1 := (listMax_spec hne').2 (List.mem_map_of_mem hh)
      have e2 := (listMin_spec hne').2 (List.mem_map_of_mem hh)
      rw [hv h] at e1 e2
      rw [hR, abs_le]
      constructor <;> linarith
    obtain ⟨c, hc⟩ := r1
    obtain ⟨c', hc'⟩ := r2
    apply le_antisymm
    · apply b1 (d i * c + m i)
      intro h hh
      rw [hv, show d i * ewmForecast x h t i + m i - (d i * c + m i) = d i * (ewmForecast x h t i - c) by ring, abs_mul]
      exact mul_le_mul_of_nonneg_left (hc h hh) (abs_nonneg _)
    · rcases eq_or_ne (d i) 0 with h0 | h0
      · rw [h0, abs_zero, zero_mul]
        exact (C172_how_far hne hpos h2 ht i).2.2.2.1
      · have hd : 0 < |d i| := abs_pos.mpr h0
        have := a1 ((c' - m i) / d i) (R' t i / |d i|) fun h hh => by
          have e : d i * ewmForecast x h t i + m i - c' = d i * (ewmForecast x h t i - (c' - m i) / d i) := by
            field_simp; ring
          have h5 := hc' h hh
          rw [e, abs_mul] at h5
          rw [le_div_iff₀ hd, _root_.mul_comm]
          exact h5
        rw [le_div_iff₀ hd, _root_.mul_comm] at this
        exact this

/-- The hypotheses are met: two rows, one asset, the notebook's half-lives; the returns are 0 and 1, so the band of the
second row is too narrow. -/
example : ∃ P R : ℕ → Vec 1, rangeBand (rowDict 2 (id : ℕ → ℕ) fun t _ => (t : ℝ)) [125, 250, 500] = .ok (rowDict 2 id P, rowDict 2 id R) ∧
    0 < R 1 0 ∧ ∃ h ∈ [(125 : ℝ), 250, 500], R 1 0 < |ewmForecast (fun t (_ : Fin 1) => (t : ℝ)) h 1 0 - P 1 0| := by
  have hpos : ∀ h ∈ [(125 : ℝ), 250, 500], 0 < h := by
    intro h hh
    simp only [List.mem_cons, List.not_mem_nil, or_false] at hh
    rcases hh with rfl | rfl | rfl <;> norm_num
  obtain ⟨P, R, h, _⟩ := C172_range_band 2 (id : ℕ → ℕ) (fun t (_ : Fin 1) => (t : ℝ)) (hs := [125, 250, 500]) (by simp) hpos
  have hn := C172_too_narrow h (by norm_num) 0 (by norm_num)
  refine ⟨P, R, h, ?_, hn⟩
  obtain ⟨h', hh, hlt⟩ := hn
  obtain ⟨h1, _, _, h0, _⟩ := C172_how_far (by simp) hpos h (t := 1) (by norm_num) 0
  rcases h0.lt_or_eq with h2 | h2
  · exact h2
  · exfalso
    have := h1 h' hh
    rw [← h2, mul_zero] at this
    linarith

/-- and the levels, half-lives of the band of the clipped averages (C172_deviation_band, C172_worst_case) -/
example : ∃ (B R : ℕ → Vec 2) (F : ℝ → ℕ → Vec 2),
    deviationBand (rowDict 3 (id : ℕ → ℕ) fun t i => (t : ℝ) * i) 0.2 0.8 [63, 125] 250 = .ok (rowDict 3 id B, rowDict 3 id R) ∧
    ∀ w c, meanVarianceRet (B 2) (some (R 2)) w c ≤ ∑ i, F 63 2 i * w i := by
  have hpos : ∀ h ∈ [(63 : ℝ), 125], 0 < h := by
    intro h hh
    simp only [List.mem_cons, List.not_mem_nil, or_false] at hh
    rcases hh with rfl | rfl <;> norm_num
  obtain ⟨B, R, F, h1, h2, h3, h4⟩ := C172_deviation_band 3 (id : ℕ → ℕ) (fun t (i : Fin 2) => (t : ℝ) * ((i : ℕ) : ℝ)) (hs := [63, 125])
    (lower := 0.2) (upper := 0.8) (base := 250) (by norm_num) (by norm_num) (by norm_num) (by simp) hpos
  exact ⟨B, R, F, h1, fun w c => C172_worst_case 3 (id : ℕ → ℕ) _ (by norm_num) (by norm_num) (by norm_num) (by simp) hpos h1
    (h := 63) (by simp) (h3 63 (by simp)) (by norm_num) w c⟩

end
end CovPred
