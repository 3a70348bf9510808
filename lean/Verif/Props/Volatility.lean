import Verif.Lemmas.VarSeq
import Verif.Props.Examples
import Mathlib.Analysis.SpecificLimits.Basic

/-
Properties of `volatility`, `center`, `clip` and the EWMA (C01, C12-C16, C20, C21).
-/
set_option linter.unusedSectionVars false
namespace CovPred
open XR

variable {τ ι : Type} [DecidableEq τ] [Ix ι]

/-! ### C01: the EWMA is the bias-corrected half-life weighted average -/

/-- The mean reported by `center(returns, h, min_periods, mean_adj=True)`: rows from `min_periods - 1` on, each the
half-life weighted average of the returns so far. -/
theorem C01_center_mean [Nonempty ι] {f : Frame τ ι XR} {T : ℕ} {tm : ℕ → τ} {x : ℕ → ι → ℝ}
    (hf : Represents f false T tm x) (hT : 0 < T) {h : ℝ} (hh : 0 < h) (mp : Int) :
    ∃ cs, center f (fin h) mp true =
      .ok (cs, finRows (rowsFrom mp T) tm fun t i => halflifeAverage h (fun k => x k i) t) := by
  rw [frame_of_represents hf]
  unfold center
  simp only [if_true]
  rw [ewmaMean_fin hh mp hT]
  simp only [halflifeAverage_eq]
  exact ⟨_, rfl⟩

/-- Without clipping, volatility squares to the half-life weighted average of the squared returns. -/
theorem C01_volatility [Nonempty ι] {f : Frame τ ι XR} {T : ℕ} {tm : ℕ → τ} {x : ℕ → ι → ℝ}
    (hf : Represents f false T tm x) (hT : 0 < T) {h : ℝ} (hh : 0 < h) (mp : Int) :
    volatility f (fin h) mp none =
      .ok (finRows (rowsFrom mp T) tm fun t i => Real.sqrt (halflifeAverage h (fun k => x k i ^ 2) t)) := by
  rw [frame_of_represents hf]
  have := volatility_fin (τ := τ) hh mp (clip := none) (by simp) hT tm x
  rw [show (none : Option XR) = (none : Option ℝ).map fin from rfl, this]
  simp only [varSeq_none (betaOf_pos h) (betaOf_lt_one hh), halflifeAverage_eq]

/-- An EWMA with a given `alpha` instead of a half-life (`_general(..., alpha=a)`) weighs by powers of `1-a`. -/
theorem C01_alpha {f : Frame τ ι XR} {T : ℕ} {tm : ℕ → τ} {x : ℕ → ι → ℝ}
    (hf : Represents f false T tm x) (hT : 0 < T) {a : ℝ} (h0 : 0 < a) (h1 : a < 1) :
    general f none (some (fin a)) (fun y => y) 0 none =
      .ok (finFrame T tm fun t i => (∑ k ∈ Finset.range (t + 1), (1 - a) ^ (t - k) * x k i) /
        ∑ k ∈ Finset.range (t + 1), (1 - a) ^ (t - k)) := by
  rw [frame_of_represents hf]
  have hb : decay (none : Option XR) (some (fin a)) = .ok (fin (1 - a)) := by
    simp [decay, Scalar.truthy, one_def, fin_sub]
  unfold finFrame finRows
  rw [general_range hb _ _ _ _ _ hT]
  simp only [ewSeq_fin (show 0 < 1 - a by linarith) (show 1 - a < 1 by linarith)]
  have hm : ∀ k : ℕ, ¬ ((k : Int) < 0 - 1) := fun k => by omega
  simp only [maskWarmup, if_neg (hm _)]
  rfl

/-- If both are given, the half-life counts and `alpha` is ignored. -/
theorem C01_halflife_wins (f : Frame τ ι XR) {h : ℝ} (hh : h ≠ 0) (a : XR) (fct : Arr ι XR → Arr ι XR) (mp : Int) (c : Option XR) :
    general f (some (fin h)) (some a) fct mp c = general f (some (fin h)) none fct mp c := by
  unfold general
  rw [decay_fin hh, decay_fin hh]

example : ∃ f : Frame ℕ (Fin 2) XR, Represents f false 3 id Ex.x ∧ 0 < 3 := ⟨_, Ex.represents_fin, by norm_num⟩

/-! ### C16: `center` decomposes the returns -/

/-- With `mean_adj=True`: rows from `min_periods-1` on; centred returns plus mean are the returns. -/
theorem C16_center_true [Nonempty ι] {f : Frame τ ι XR} {T : ℕ} {tm : ℕ → τ} (hd : DistinctTimes T tm)
    {x : ℕ → ι → ℝ} (hf : Represents f false T tm x) (hT : 0 < T) {h : ℝ} (hh : 0 < h) (mp : Int) :
    ∃ c m : ℕ → ι → ℝ, center f (fin h) mp true = .ok (finRows (rowsFrom mp T) tm c, finRows (rowsFrom mp T) tm m) ∧
      (∀ t < T, ∀ i, c t i + m t i = x t i) ∧ (∀ t < T, ∀ i, m t i = halflifeAverage h (fun k => x k i) t) ∧
      ∀ i, c 0 i = 0 := by
  rw [frame_of_represents hf, center_fin_mp hh hT hd]
  refine ⟨_, _, rfl, fun t _ i => by ring, fun t _ i => by rw [halflifeAverage_eq], fun i => ?_⟩
  simp [emaAvg]

/-- With `mean_adj=False` the returns come back unchanged (also `nan` and infinite ones), with mean 0 where
they are finite. -/
theorem C16_center_false (f : Frame τ ι XR) (h : XR) (mp : Int) :
    ∃ m, center f h mp false = .ok (f, m) ∧ m.index = f.index ∧
      ∀ k (hk : k < m.length) (hk' : k < f.length), ∀ i (r : ℝ), f[k].2 i = fin r → m[k].2 i = 0 := by
  refine ⟨_, rfl, ?_, ?_⟩
  · simp [Frame.index, Frame.mapVals, List.map_map, Function.comp]
  · intro k hk hk' i r hr
    simp only [Frame.mapVals, List.getElem_map, Arr.get_map, hr, zero_def, fin_mul]
    simp

example : ∃ c m : ℕ → Fin 2 → ℝ, center (finFrame 3 id Ex.x) (fin 2) 2 true =
    .ok (finRows (rowsFrom 2 3) id c, finRows (rowsFrom 2 3) id m) ∧
      (∀ t < 3, ∀ i, c t i + m t i = Ex.x t i) ∧ (∀ t < 3, ∀ i, m t i = halflifeAverage 2 (fun k => Ex.x k i) t) ∧
      ∀ i, c 0 i = 0 :=
  C16_center_true Ex.distinct Ex.represents_fin (by norm_num) (by norm_num) 2

/-! ### C20: volatility is within the range of past absolute returns -/

theorem C20_volatility_range [Nonempty ι] {f : Frame τ ι XR} {T : ℕ} {tm : ℕ → τ} (hd : DistinctTimes T tm)
    {x : ℕ → ι → ℝ} (hf : Represents f false T tm x) {h : ℝ} (hh : 0 < h) {mp : Int} {vs : Frame τ ι XR}
    (hv : volatility f (fin h) mp none = .ok vs) {t : ℕ} (ht : t < T) (hmp : mp - 1 ≤ (t : Int)) (i : ι)
    {lo hi : ℝ} (h0 : 0 ≤ lo) (hb : ∀ k ≤ t, lo ≤ |x k i| ∧ |x k i| ≤ hi) :
    ∃ (row : Arr ι XR) (v : ℝ), vs.loc? (tm t) = some row ∧ row i = fin v ∧ lo ≤ v ∧ v ≤ hi ∧
      ((∃ k ≤ t, x k i ≠ 0) → 0 < v) := by
  have hT : 0 < T := by omega
  rw [C01_volatility hf hT hh mp] at hv
  cases hv
  rw [loc_finRows hd _ (fun k hk => rowsFrom_lt hk) ht, if_pos (mem_rowsFrom.mpr ⟨ht, hmp⟩)]
  refine ⟨_, _, rfl, by simp [finRow]; rfl, ?_, ?_, ?_⟩
  · apply Real.le_sqrt_of_sq_le
    rw [halflifeAverage_eq]
    apply le_emaAvg (betaOf_pos h)
    intro k hk
    rw [← sq_abs (x k i)]
    exact pow_le_pow_left₀ h0 (hb k hk).1 2
  · have hhi : 0 ≤ hi := le_trans h0 (le_trans (hb 0 (by omega)).1 (hb 0 (by omega)).2)
    rw [Real.sqrt_le_left hhi, halflifeAverage_eq]
    apply emaAvg_le (betaOf_pos h)
    intro k hk
    rw [← sq_abs (x k i)]
    exact pow_le_pow_left₀ (abs_nonneg _) (hb k hk).2 2
  · rintro ⟨k, hk, hne⟩
    rw [Real.sqrt_pos, halflifeAverage_eq]
    apply lt_of_le_of_ne (emaAvg_nonneg (betaOf_pos h) fun k _ => sq_nonneg _)
    intro hz
    have := (emaAvg_eq_zero_iff (betaOf_pos h) (fun k _ => sq_nonneg (x k i))).mp hz.symm k hk
    exact hne (pow_eq_zero_iff two_ne_zero |>.mp this)

example : ∃ vs, volatility (finFrame 3 id Ex.x) (fin 2) 1 none = .ok vs :=
  ⟨_, C01_volatility Ex.represents_fin (by norm_num) (by norm_num) 1⟩

/-! ### C21: half-life meaning and forgetting -/

/-- Changing the return of row `s` by `δ` changes the EWMA mean of a later row `t` by
`δ 2^(-(t-s)/h) / Σ_j 2^(-j/h)`, `j = 0..t`. -/
theorem C21_influence [Nonempty ι] {f g : Frame τ ι XR} {T : ℕ} {tm : ℕ → τ} (hd : DistinctTimes T tm)
    {x y : ℕ → ι → ℝ} (hf : Represents f false T tm x) (hg : Represents g false T tm y)
    {h : ℝ} (hh : 0 < h) {s t : ℕ} (hst : s ≤ t) (ht : t < T) (i : ι) {δ : ℝ}
    (hs : y s i = x s i + δ) (hne : ∀ k, k ≠ s → y k i = x k i)
    {cf cg mf mg : Frame τ ι XR} (hcf : center f (fin h) 0 true = .ok (cf, mf))
    (hcg : center g (fin h) 0 true = .ok (cg, mg)) :
    ∃ (a b : Arr ι XR) (u v : ℝ), mf.loc? (tm t) = some a ∧ mg.loc? (tm t) = some b ∧ a i = fin u ∧ b i = fin v ∧
      v - u = δ * ((2 : ℝ) ^ (-((t - s : ℕ) : ℝ) / h) / ∑ j ∈ Finset.range (t + 1), (2 : ℝ) ^ (-(j : ℝ) / h)) := by
  have hT : 0 < T := by omega
  obtain ⟨_, e1⟩ := C01_center_mean hf hT hh 0
  obtain ⟨_, e2⟩ := C01_center_mean hg hT hh 0
  rw [hcf] at e1
  rw [hcg] at e2
  cases e1; cases e2
  have hm : t ∈ rowsFrom 0 T := mem_rowsFrom.mpr ⟨ht, by omega⟩
  rw [loc_finRows hd _ (fun k hk => rowsFrom_lt hk) ht, loc_finRows hd _ (fun k hk => rowsFrom_lt hk) ht,
    if_pos hm, if_pos hm]
  refine ⟨_, _, _, _, rfl, rfl, by simp [finRow]; rfl, by simp [finRow]; rfl, ?_⟩
  unfold halflifeAverage
  rw [← sub_div, ← Finset.sum_sub_distrib, mul_div_assoc']
  have hnum : ∑ k ∈ Finset.range (t + 1), ((2 : ℝ) ^ (-((t - k : ℕ) : ℝ) / h) * y k i -
      (2 : ℝ) ^ (-((t - k : ℕ) : ℝ) / h) * x k i) = δ * (2 : ℝ) ^ (-((t - s : ℕ) : ℝ) / h) := by
    rw [Finset.sum_eq_single s]
    · rw [hs]; ring
    · intro k _ hk; rw [hne k hk]; ring
    · intro hn; exact absurd (Finset.mem_range.mpr (by omega)) hn
  have hden : ∑ k ∈ Finset.range (t + 1), (2 : ℝ) ^ (-((t - k : ℕ) : ℝ) / h) =
      ∑ j ∈ Finset.range (t + 1), (2 : ℝ) ^ (-(j : ℝ) / h) := by
    rw [← Finset.sum_range_reflect]
    apply Finset.sum_congr rfl
    intro k hk
    have := Finset.mem_range.mp hk
    rw [show t - (t + 1 - 1 - k) = k by omega]
  rw [hnum, hden]

private theorem weight_halves {h : ℝ} (hh : 0 < h) (lag : ℝ) :
    (2 : ℝ) ^ (-(lag + h) / h) = (2 : ℝ) ^ (-lag / h) / 2 := by
  rw [show -(lag + h) / h = -lag / h - 1 by field_simp; ring, Real.rpow_sub (by norm_num), Real.rpow_one]

/-- The influence halves every half-life: changing the return `h` rows earlier by the same amount changes the EWMA mean
half as much. (`g` changes row `s + h` and `g'` row `s`, both by `δ`.) -/
theorem C21_halves [Nonempty ι] {f g g' : Frame τ ι XR} {T : ℕ} {tm : ℕ → τ} (hd : DistinctTimes T tm)
    {x y y' : ℕ → ι → ℝ} (hf : Represents f false T tm x) (hg : Represents g false T tm y)
    (hg' : Represents g' false T tm y') {h : ℕ} (hh : 0 < h) {s t : ℕ} (hst : s + h ≤ t) (ht : t < T) (i : ι) {δ : ℝ}
    (hs : y (s + h) i = x (s + h) i + δ) (hne : ∀ k, k ≠ s + h → y k i = x k i)
    (hs' : y' s i = x s i + δ) (hne' : ∀ k, k ≠ s → y' k i = x k i)
    {cf cg cg' mf mg mg' : Frame τ ι XR} (hcf : center f (fin h) 0 true = .ok (cf, mf))
    (hcg : center g (fin h) 0 true = .ok (cg, mg)) (hcg' : center g' (fin h) 0 true = .ok (cg', mg')) :
    ∃ (a b b' : Arr ι XR) (u v v' : ℝ), mf.loc? (tm t) = some a ∧ mg.loc? (tm t) = some b ∧
      mg'.loc? (tm t) = some b' ∧ a i = fin u ∧ b i = fin v ∧ b' i = fin v' ∧ v' - u = (v - u) / 2 := by
  have hh' : (0 : ℝ) < h := by exact_mod_cast hh
  obtain ⟨a, b, u, v, ha, hb, hu, hv, e⟩ := C21_influence hd hf hg hh' hst ht i hs hne hcf hcg
  obtain ⟨a', b', u', v', ha', hb', hu', hv', e'⟩ :=
    C21_influence hd hf hg' hh' (by omega : s ≤ t) ht i hs' hne' hcf hcg'
  rw [ha] at ha'; cases ha'
  rw [hu] at hu'; cases hu'
  refine ⟨a, b, b', u, v, v', ha, hb, hb', hu, hv, hv', ?_⟩
  rw [e, e']
  have : ((t - s : ℕ) : ℝ) = ((t - (s + h) : ℕ) : ℝ) + h := by
    rw [show t - s = t - (s + h) + h by omega]; push_cast; rfl
  rw [this, weight_halves hh']
  ring

private theorem weight_forgets {h : ℝ} (hh : 0 < h) (s : ℕ) :
    Filter.Tendsto (fun t : ℕ => (2 : ℝ) ^ (-((t - s : ℕ) : ℝ) / h) /
      ∑ j ∈ Finset.range (t + 1), (2 : ℝ) ^ (-(j : ℝ) / h)) Filter.atTop (nhds 0) := by
  have hw : Filter.Tendsto (fun t : ℕ => (2 : ℝ) ^ (-((t - s : ℕ) : ℝ) / h)) Filter.atTop (nhds 0) := by
    have h1 : Filter.Tendsto (fun m : ℕ => betaOf h ^ m) Filter.atTop (nhds 0) :=
      tendsto_pow_atTop_nhds_zero_of_lt_one (betaOf_pos h).le (betaOf_lt_one hh)
    have h2 : Filter.Tendsto (fun t : ℕ => t - s) Filter.atTop Filter.atTop := Filter.tendsto_sub_atTop_nat s
    have := h1.comp h2
    simpa only [Function.comp_def, betaOf_pow] using this
  apply squeeze_zero (g := fun t : ℕ => (2 : ℝ) ^ (-((t - s : ℕ) : ℝ) / h)) _ _ hw
  · intro t
    apply div_nonneg (Real.rpow_nonneg (by norm_num) _)
    exact Finset.sum_nonneg fun _ _ => Real.rpow_nonneg (by norm_num) _
  · intro t
    apply div_le_self (Real.rpow_nonneg (by norm_num) _)
    have : (2 : ℝ) ^ (-((0 : ℕ) : ℝ) / h) ≤ ∑ j ∈ Finset.range (t + 1), (2 : ℝ) ^ (-(j : ℝ) / h) :=
      Finset.single_le_sum (f := fun j : ℕ => (2 : ℝ) ^ (-(j : ℝ) / h))
        (fun _ _ => Real.rpow_nonneg (by norm_num) _) (Finset.mem_range.mpr (by omega))
    simpa using this

/-- The influence of any fixed row vanishes: if two histories of returns of an asset differ in row `s` only, then for
all sufficiently long histories the last EWMA means differ by less than any given `ε`. -/
theorem C21_forgets [Nonempty ι] {h : ℝ} (hh : 0 < h) {x y : ℕ → ι → ℝ} (i : ι) {s : ℕ}
    (hne : ∀ k, k ≠ s → y k i = x k i) {ε : ℝ} (hε : 0 < ε) :
    ∃ T₀, ∀ (f g : Frame τ ι XR) (T : ℕ) (tm : ℕ → τ), T₀ < T → DistinctTimes T tm →
      Represents f false T tm x → Represents g false T tm y →
      ∀ cf cg mf mg : Frame τ ι XR, center f (fin h) 0 true = .ok (cf, mf) → center g (fin h) 0 true = .ok (cg, mg) →
      ∀ t, T₀ ≤ t → t < T →
      ∃ (a b : Arr ι XR) (u v : ℝ), mf.loc? (tm t) = some a ∧ mg.loc? (tm t) = some b ∧ a i = fin u ∧ b i = fin v ∧
        |v - u| < ε := by
  have hw := (weight_forgets hh s).const_mul (y s i - x s i)
  rw [mul_zero] at hw
  rw [Metric.tendsto_atTop] at hw
  obtain ⟨N, hN⟩ := hw ε hε
  refine ⟨max N s, fun f g T tm _ hd hf hg cf cg mf mg hcf hcg t ht htT => ?_⟩
  obtain ⟨a, b, u, v, ha, hb, hu, hv, e⟩ := C21_influence hd hf hg hh ((le_max_right N s).trans ht) htT i
    (show y s i = x s i + (y s i - x s i) by ring) hne hcf hcg
  refine ⟨a, b, u, v, ha, hb, hu, hv, ?_⟩
  have := hN t ((le_max_left N s).trans ht)
  rw [Real.dist_eq, sub_zero] at this
  rw [e]
  exact this

/-! ### C12: winsorisation bounds the influence of a return -/

/-- Past the warm-up a new return raises the squared volatility at most by the factor
`1 + w (c²-1)⁺`, where `w` is the weight of the newest observation; and the update is never larger than the
unclipped update from the same state. -/
theorem C12_bounded_influence [Nonempty ι] {f : Frame τ ι XR} {T : ℕ} {tm : ℕ → τ} (hd : DistinctTimes T tm)
    {x : ℕ → ι → ℝ} (hf : Represents f false T tm x) {h : ℝ} (hh : 0 < h) {mp : Int} {c : ℝ} (hc : c ≠ 0)
    {vs : Frame τ ι XR} (hv : volatility f (fin h) mp (some (fin c)) = .ok vs)
    {t : ℕ} (ht : t + 1 < T) (hmp : mp ≤ (t : Int)) (i : ι) :
    ∃ (row row' : Arr ι XR) (v v' : ℝ), vs.loc? (tm t) = some row ∧ vs.loc? (tm (t + 1)) = some row' ∧
      row i = fin v ∧ row' i = fin v' ∧ 0 ≤ v ∧ 0 ≤ v' ∧
      v' ^ 2 ≤ v ^ 2 * (1 + newWeight (decayOf h) (t + 1) * max (c ^ 2 - 1) 0) ∧
      v' ^ 2 ≤ v ^ 2 + newWeight (decayOf h) (t + 1) * (x (t + 1) i ^ 2 - v ^ 2) ∧
      (1 - newWeight (decayOf h) (t + 1)) * v ^ 2 ≤ v' ^ 2 := by
  have hT : 0 < T := by omega
  have hv2 := volatility_fin (τ := τ) hh mp (clip := some c) (by simpa using hc) hT tm x
  rw [frame_of_represents hf, show (some (fin c)) = (some c).map fin from rfl, hv2] at hv
  cases hv
  rw [loc_finRows hd _ (fun k hk => rowsFrom_lt hk) (by omega : t < T),
    loc_finRows hd _ (fun k hk => rowsFrom_lt hk) ht,
    if_pos (mem_rowsFrom.mpr ⟨by omega, by omega⟩), if_pos (mem_rowsFrom.mpr ⟨ht, by push_cast; omega⟩)]
  have h0 := betaOf_pos h
  have h1 := betaOf_lt_one hh
  have hq : ∀ k, 0 ≤ x k i ^ 2 := fun k => sq_nonneg _
  have hV := varSeq_nonneg h0 h1 mp (some c) hq t
  have hV' := varSeq_nonneg h0 h1 mp (some c) hq (t + 1)
  refine ⟨_, _, _, _, rfl, rfl, by simp [finRow]; rfl, by simp [finRow]; rfl, Real.sqrt_nonneg _,
    Real.sqrt_nonneg _, ?_, ?_, ?_⟩
  all_goals rw [Real.sq_sqrt hV, Real.sq_sqrt hV', decayOf_eq, varSeq_succ]
  all_goals
    have hw := newWeight_pos h0 h1 (t + 1)
    have hw1 := newWeight_lt_one h0 h1 t
    generalize newWeight (betaOf h) (t + 1) = w at *
    generalize hVd : varSeq (betaOf h) mp (some c) (fun k => x k i ^ 2) t = V at *
  · have hQ : clippedQ mp (some c) (t + 1) (x (t + 1) i ^ 2) V ≤ c ^ 2 * V := by
      unfold clippedQ
      have : mp + 1 ≤ ((t + 1 : ℕ) : Int) := by push_cast; omega
      simp only [if_pos this]
      exact min_le_right _ _
    have h2 : c ^ 2 - 1 ≤ max (c ^ 2 - 1) 0 := le_max_left _ _
    have h3 : w * clippedQ mp (some c) (t + 1) (x (t + 1) i ^ 2) V ≤ w * (c ^ 2 * V) :=
      mul_le_mul_of_nonneg_left hQ hw.le
    have h4 : w * V * (c ^ 2 - 1) ≤ w * V * max (c ^ 2 - 1) 0 :=
      mul_le_mul_of_nonneg_left h2 (mul_nonneg hw.le hV)
    nlinarith
  · have hQ : clippedQ mp (some c) (t + 1) (x (t + 1) i ^ 2) V ≤ x (t + 1) i ^ 2 := clippedQ_le
    have h3 := mul_le_mul_of_nonneg_left hQ hw.le
    nlinarith
  · have hQ := clippedQ_nonneg (mv := mp) (clip := some c) (n := t + 1) (hq (t + 1)) hV
    have := mul_nonneg hw.le hQ
    linarith

/-! ### C13: winsorised volatility can get stuck at zero -/

/-- With winsorisation, an asset whose returns vanish in the rows `0..min_periods` has volatility 0 forever,
whatever happens later. -/
theorem C13_stuck_at_zero [Nonempty ι] {f : Frame τ ι XR} {T : ℕ} {tm : ℕ → τ} {x : ℕ → ι → ℝ}
    (hf : Represents f false T tm x) (hT : 0 < T) {h : ℝ} (hh : 0 < h) {mp : Int} {c : ℝ} (hc : c ≠ 0) (i : ι)
    (hz : ∀ k : ℕ, (k : Int) ≤ max mp 0 → x k i = 0) :
    ∃ vs, volatility f (fin h) mp (some (fin c)) = .ok vs ∧ vs.index = (rowsFrom mp T).map tm ∧
      ∀ p ∈ vs, p.2 i = 0 := by
  have hv2 := volatility_fin (τ := τ) hh mp (clip := some c) (by simpa using hc) hT tm x
  rw [frame_of_represents hf, show (some (fin c)) = (some c).map fin from rfl, hv2]
  refine ⟨_, rfl, ?_, ?_⟩
  · simp [Frame.index, finRows, Function.comp]
  · intro p hp
    unfold finRows at hp
    obtain ⟨t, _, rfl⟩ := List.mem_map.mp hp
    have : varSeq (betaOf h) mp (some c) (fun k => x k i ^ 2) t = 0 := by
      rw [varSeq_eq_zero_iff (betaOf_pos h) (betaOf_lt_one hh) _ _ (fun k => sq_nonneg _)]
      intro k _ hk
      have : (k : Int) ≤ max mp 0 := by
        rcases hk with hk | hk | hk
        · cases hk
        · exact le_max_of_le_left hk
        · subst hk; exact le_max_right _ _
      rw [hz k this]; norm_num
    simp [finRow, this, zero_def]

/-- Conversely, volatility is positive as soon as a return in those rows was not zero. -/
theorem C13_converse [Nonempty ι] {f : Frame τ ι XR} {T : ℕ} {tm : ℕ → τ} (hd : DistinctTimes T tm)
    {x : ℕ → ι → ℝ} (hf : Represents f false T tm x) {h : ℝ} (hh : 0 < h) {mp : Int} {c : ℝ} (hc : c ≠ 0) (i : ι)
    {k t : ℕ} (hk : (k : Int) ≤ max mp 0) (hne : x k i ≠ 0) (hkt : k ≤ t) (ht : t < T) (hmp : mp - 1 ≤ (t : Int))
    {vs : Frame τ ι XR} (hv : volatility f (fin h) mp (some (fin c)) = .ok vs) :
    ∃ (row : Arr ι XR) (v : ℝ), vs.loc? (tm t) = some row ∧ row i = fin v ∧ 0 < v := by
  have hT : 0 < T := by omega
  have hv2 := volatility_fin (τ := τ) hh mp (clip := some c) (by simpa using hc) hT tm x
  rw [frame_of_represents hf, show (some (fin c)) = (some c).map fin from rfl, hv2] at hv
  cases hv
  rw [loc_finRows hd _ (fun k hk => rowsFrom_lt hk) ht, if_pos (mem_rowsFrom.mpr ⟨ht, hmp⟩)]
  refine ⟨_, _, rfl, by simp [finRow]; rfl, ?_⟩
  rw [Real.sqrt_pos]
  apply lt_of_le_of_ne (varSeq_nonneg (betaOf_pos h) (betaOf_lt_one hh) _ _ (fun k => sq_nonneg _) _)
  intro hz
  have := (varSeq_eq_zero_iff (betaOf_pos h) (betaOf_lt_one hh) _ _ (fun k => sq_nonneg _) _).mp hz.symm k hkt
    (by
      rcases le_max_iff.mp hk with h | h
      · exact Or.inr (Or.inl h)
      · exact Or.inr (Or.inr (by omega)))
  exact hne (pow_eq_zero_iff two_ne_zero |>.mp this)

/-- a newly listed asset: zero in row 0 and row 1, then a return of 5 -/
example : ∃ (f : Frame ℕ (Fin 1) XR) (x : ℕ → Fin 1 → ℝ), Represents f false 3 id x ∧ x 2 0 = 5 ∧
    ∀ k : ℕ, (k : Int) ≤ max 1 0 → x k 0 = 0 := by
  refine ⟨finFrame 3 id fun t _ => if t = 2 then 5 else 0, fun t _ => if t = 2 then 5 else 0,
    ⟨fun t => finRow fun _ => if t = 2 then 5 else 0, rfl, fun t _ i => Or.inl (by simp [finRow])⟩, by simp, ?_⟩
  intro k hk
  have : k ≠ 2 := by rintro rfl; norm_num at hk
  simp [this]

/-! ### C14: inactive winsorisation changes nothing -/

theorem C14_inactive_clip [Nonempty ι] {f : Frame τ ι XR} {T : ℕ} {tm : ℕ → τ}
    {x : ℕ → ι → ℝ} (hf : Represents f false T tm x) {h : ℝ} (hh : 0 < h) {mp : Int} {c : ℝ}
    (hin : ∀ k : ℕ, k + 1 < T → mp ≤ (k : Int) → ∀ i,
      x (k + 1) i ^ 2 ≤ c ^ 2 * halflifeAverage h (fun k => x k i ^ 2) k) :
    volatility f (fin h) mp (some (fin c)) = volatility f (fin h) mp none := by
  by_cases hc : c = 0
  · subst hc
    have : Scalar.truthy (some (fin 0)) = none := by
      simp only [Scalar.truthy]; rw [if_pos ((isZero_fin 0).mpr rfl)]
    simp only [volatility, this]
    rfl
  rcases Nat.eq_zero_or_pos T with hT | hT
  · subst hT
    rw [frame_of_represents hf]
    have : finFrame 0 tm x = [] := rfl
    rw [this]
    simp only [volatility, variance, ewmaMean]
    rw [show Frame.mapVals (fun x => Scalar.npow x 2) ([] : Frame τ ι XR) = [] from rfl]
    rw [general_nil hh, general_nil hh]
  rw [C01_volatility hf hT hh mp]
  have hv2 := volatility_fin (τ := τ) hh mp (clip := some c) (by simpa using hc) hT tm x
  rw [frame_of_represents hf, show (some (fin c)) = (some c).map fin from rfl, hv2]
  congr 1
  unfold finRows
  apply List.map_congr_left
  intro t ht
  have ht := rowsFrom_lt ht
  congr 3
  funext i
  beta_reduce
  rw [halflifeAverage_eq, ← varSeq_none (betaOf_pos h) (betaOf_lt_one hh) mp]
  rw [varSeq_inactive]
  intro k hk hm
  have := hin k (by omega) (by push_cast at hm; omega) i
  rw [halflifeAverage_eq, ← varSeq_none (betaOf_pos h) (betaOf_lt_one hh) mp] at this
  exact this

/-- constant returns and `clip_at = 1` meet the hypothesis -/
example (h : ℝ) (k : ℕ) : (3 : ℝ) ^ 2 ≤ 1 ^ 2 * halflifeAverage h (fun _ => (3 : ℝ) ^ 2) k := by
  rw [halflifeAverage_eq, emaAvg_const (betaOf_pos h)]; norm_num

/-! ### C15: `clip` -/

/-- clamping one number (or special value) to `[-c, c]`, `c ≥ 0` -/
noncomputable def clamp (c : ℝ) : XR → XR
  | fin x => fin (max (-c) (min x c))
  | pinf => fin c
  | ninf => fin (-c)
  | nan => nan

open Classical in
/-- `clip(data, c)` drops exactly the rows that are entirely `nan` and clamps all other entries. -/
theorem C15_clip (f : Frame τ ι XR) {c : ℝ} (hc : c ≠ 0) :
    clip f (some (fin c)) = (f.filter fun p => decide (∃ i, p.2 i ≠ nan)).map
      fun p => (p.1, Arr.ofFn fun i => clamp |c| (p.2 i)) := by
  have hcl : ∀ y : XR, optClip (some c) y = clamp |c| y := by
    intro y
    cases y with
    | fin a => exact fin_pdClip a
    | pinf => exact pinf_pdClip c
    | ninf => exact ninf_pdClip c
    | nan => exact nan_pdClip _
  rw [show (some (fin c)) = (some c).map fin from rfl, clip_eq (by simpa using hc)]
  unfold Frame.dropnaAll Frame.mapVals
  rw [List.filter_map]
  have hfil : f.filter ((fun p => !p.2.all Scalar.isNaN) ∘ fun p : τ × Arr ι XR => (p.1, p.2.map (optClip (some c)))) =
      f.filter fun p => decide (∃ i, p.2 i ≠ nan) := by
    apply List.filter_congr
    intro p _
    simp only [Function.comp]
    rw [Bool.eq_iff_iff, decide_eq_true_iff, Bool.not_eq_true', Bool.eq_false_iff, Ne, Arr.all_iff]
    push Not
    constructor
    · rintro ⟨i, hi⟩
      refine ⟨i, fun h => hi ?_⟩
      rw [Arr.get_map, isNaN_optClip, h]; rfl
    · rintro ⟨i, hi⟩
      refine ⟨i, fun h => hi ?_⟩
      rw [Arr.get_map, isNaN_optClip] at h
      exact (isNaN_iff _).mp h
  rw [hfil]
  apply List.map_congr_left
  intro p _
  congr 1
  ext i
  rw [Arr.get_map, Arr.get_ofFn, hcl]

open Classical in
/-- With `clip_at` `None` or 0 only the empty rows are dropped. -/
theorem C15_no_clip (f : Frame τ ι XR) (c : Option XR) (hc : c = none ∨ c = some 0) :
    clip f c = f.filter fun p => decide (∃ i, p.2 i ≠ nan) := by
  have : Scalar.truthy c = none := by
    rcases hc with rfl | rfl
    · rfl
    · simp only [Scalar.truthy, zero_def]; rw [if_pos ((isZero_fin 0).mpr rfl)]
  unfold clip
  rw [this]
  unfold Frame.dropnaAll
  apply List.filter_congr
  intro p _
  rw [Bool.eq_iff_iff, decide_eq_true_iff, Bool.not_eq_true', Bool.eq_false_iff, Ne, Arr.all_iff]
  push Not
  simp only [ne_eq, isNaN_iff]

/-- Clamped entries are within the bounds or `nan`, and entries within the bounds are unchanged. -/
theorem clamp_bounds {c : ℝ} (hc : 0 ≤ c) (y : XR) :
    (clamp c y = nan ↔ y = nan) ∧ (∀ r, clamp c y = fin r → -c ≤ r ∧ r ≤ c) ∧ clamp c y ≠ pinf ∧ clamp c y ≠ ninf ∧
      ∀ r, y = fin r → -c ≤ r → r ≤ c → clamp c y = y := by
  cases y with
  | fin a =>
    refine ⟨by simp [clamp], ?_, by simp [clamp], by simp [clamp], ?_⟩
    · intro r hr
      simp only [clamp, fin_inj] at hr
      subst hr
      exact ⟨le_max_left _ _, max_le (by linarith) (min_le_right _ _)⟩
    · intro r hr h1 h2
      cases hr
      simp [clamp, min_eq_left h2, max_eq_right h1]
  | pinf => exact ⟨by simp [clamp], fun r hr => by simp [clamp] at hr; subst hr; constructor <;> linarith,
      by simp [clamp], by simp [clamp], fun r hr => by cases hr⟩
  | ninf => exact ⟨by simp [clamp], fun r hr => by simp [clamp] at hr; subst hr; constructor <;> linarith,
      by simp [clamp], by simp [clamp], fun r hr => by cases hr⟩
  | nan => exact ⟨by simp [clamp], fun r hr => by simp [clamp] at hr,
      by simp [clamp], by simp [clamp], fun r hr => by cases hr⟩

/-- Every entry of the result is `nan` or a number within the bounds, and a row of numbers within the bounds is kept
unchanged. -/
theorem C15_bounds [Nonempty ι] (f : Frame τ ι XR) {c : ℝ} (hc : c ≠ 0) :
    (∀ p ∈ clip f (some (fin c)), ∀ i, p.2 i = nan ∨ ∃ r, p.2 i = fin r ∧ -|c| ≤ r ∧ r ≤ |c|) ∧
      ∀ p ∈ f, (∀ i, ∃ r, p.2 i = fin r ∧ -|c| ≤ r ∧ r ≤ |c|) → p ∈ clip f (some (fin c)) := by
  classical
  rw [C15_clip f hc]
  constructor
  · intro p hp i
    obtain ⟨q, _, rfl⟩ := List.mem_map.mp hp
    dsimp only
    rw [Arr.get_ofFn]
    obtain ⟨_, h2, h3, h4, _⟩ := clamp_bounds (abs_nonneg c) (q.2 i)
    cases hy : clamp |c| (q.2 i) with
    | fin r => exact Or.inr ⟨r, rfl, h2 r hy⟩
    | pinf => exact absurd hy h3
    | ninf => exact absurd hy h4
    | nan => exact Or.inl rfl
  · intro p hp hb
    refine List.mem_map.mpr ⟨p, List.mem_filter.mpr ⟨hp, decide_eq_true (p := ∃ i, p.2 i ≠ nan) ?_⟩, ?_⟩
    · obtain ⟨i⟩ := ‹Nonempty ι›
      obtain ⟨r, hr, _⟩ := hb i
      exact ⟨i, by rw [hr]; simp⟩
    · refine Prod.ext rfl ?_
      dsimp only
      ext i
      rw [Arr.get_ofFn]
      obtain ⟨r, hr, h1, h2⟩ := hb i
      exact (clamp_bounds (abs_nonneg c) (p.2 i)).2.2.2.2 r hr h1 h2

open Classical in
/-- `clip` is idempotent. -/
theorem C15_idempotent (f : Frame τ ι XR) (c : ℝ) :
    clip (clip f (some (fin c))) (some (fin c)) = clip f (some (fin c)) := by
  by_cases hc : c = 0
  · subst hc
    rw [← zero_def, C15_no_clip f _ (Or.inr rfl), C15_no_clip _ _ (Or.inr rfl)]
    simp
  · rw [C15_clip f hc, C15_clip _ hc]
    have hcc : ∀ y, clamp |c| (clamp |c| y) = clamp |c| y := by
      intro y
      have := clamp_bounds (abs_nonneg c) y
      cases hy : clamp |c| y with
      | fin r =>
        obtain ⟨h1, h2⟩ := this.2.1 r hy
        exact (clamp_bounds (abs_nonneg c) (fin r)).2.2.2.2 r rfl h1 h2
      | pinf => exact absurd hy this.2.2.1
      | ninf => exact absurd hy this.2.2.2.1
      | nan => rfl
    rw [List.filter_eq_self.mpr, List.map_map]
    · apply List.map_congr_left
      intro p _
      simp only [Function.comp]
      congr 1
      ext i
      simp [hcc]
    · intro p hp
      obtain ⟨q, hq, rfl⟩ := List.mem_map.mp hp
      obtain ⟨i, hi⟩ := of_decide_eq_true (List.mem_filter.mp hq).2
      apply decide_eq_true
      refine ⟨i, fun h => hi ?_⟩
      rw [Arr.get_ofFn] at h
      exact (clamp_bounds (abs_nonneg c) _).1.mp h

example : (fun y => clamp 2 y) (fin 5) = fin 2 := by norm_num [clamp]

end CovPred
