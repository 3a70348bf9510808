import Verif.Lemmas.Rounded3
import Verif.Lemmas.VarSeq
import Mathlib.Data.Int.Log
import Mathlib.Algebra.Order.Round

/-
Property C187: rounding errors of the exponentially weighted averages do not accumulate.
-/
set_option linter.unusedSectionVars false
namespace CovPred

variable {τ ι κ : Type} [DecidableEq τ] [Ix ι] [Ix κ] {F : FloatOps}

theorem errorFactor_ge {h : ℝ} (hh : 0 < h) : 500 ≤ errorFactor h := by
  unfold errorFactor
  rw [← betaOf_eq]
  have h0 := betaOf_pos h
  have h1 := betaOf_lt_one hh
  have h2 : 0 < 1 / h := by positivity
  rw [le_div_iff₀ (by nlinarith)]
  have : (1 - betaOf h) ^ 2 ≤ 1 := by nlinarith
  nlinarith

/-- `_general` with rounding, on rows that the function `fct` turns into numbers `w` -/
theorem general_round [Nonempty κ] {u η : ℝ} (hF : F.Accurate u η) {h : ℝ} (hh : 0 < h) (hacc : u + η ≤ neededAccuracy h)
    {M : ℝ} (hbig : 24 * (M + 1 + 1 / h) ≤ F.big) (minP : Int) {T : ℕ} (hT : 0 < T) (tm : ℕ → τ) (fct : Arr ι (RF F) → Arr κ (RF F))
    (x : ℕ → ι → ℝ) {w : ℕ → κ → ℝ} (hfct : ∀ t, t < T → fct (rfRow F (x t)) = rfRow F (w t)) (hw : ∀ t, t < T → ∀ i, |w t i| ≤ M) :
    ∃ z : ℕ → κ → ℝ,
      (general (rfRows F (List.range T) tm x) (some ⟨.fin h⟩) none fct minP none).map (List.filter fun p => !(p.2.all Scalar.isNaN))
        = .ok (rfRows F (rowsFrom minP T) tm z) ∧
      ∀ t, t < T → ∀ i, |z t i - halflifeAverage h (fun k => w k i) t| ≤ errorFactor h * ((u + η) * M + η) := by
  have hi : 0 < 1 / h := by positivity
  obtain ⟨i0⟩ := ‹Nonempty κ›
  have hM : 0 ≤ M := (abs_nonneg _).trans (hw 0 hT i0)
  obtain ⟨b, hb, hbβ, hb0, hb1, hba, heb⟩ := decay_round hF hh hacc (by linarith)
  have hu := hF.u_nonneg
  have hη := hF.η_nonneg
  refine ⟨fun t i => roundSeq F b (fun k => w k i) t, ?_, fun t ht i => ?_⟩
  · unfold rfRows
    rw [general_range hb _ _ _ _ _ hT]
    have e : (List.range T).map (fun k => (tm k, maskWarmup minP k (ewSeq ⟨.fin b⟩ minP none (fun k => fct (rfRow F (x k))) k)))
        = (List.range T).map fun k => (tm k, maskWarmup minP k (rfRow F fun i => roundSeq F b (fun k => w k i) k)) := by
      refine List.map_congr_left fun k hk => ?_
      rw [List.mem_range] at hk
      rw [ewSeq_congr (y := fun k => rfRow F (w k)) fun j hj => hfct j (by omega),
        ewSeq_round hF hb0 hb1 heb minP (by linarith) hw k hk]
    rw [e]
    have := rf_filter_mask (F := F) (κ := κ) minP tm (fun k i => roundSeq F b (fun k => w k i) k) (List.range T)
    haveI : Nonempty κ := ⟨i0⟩
    exact congrArg Except.ok (rf_filter_mask (F := F) minP tm (fun k i => roundSeq F b (fun k => w k i) k) (List.range T))
  · rw [halflifeAverage_eq]
    have hx : ∀ k ≤ t, |w k i| ≤ M := fun k hk => hw k (by omega) i
    have h1 := roundSeq_error hF hb0 hb1 heb t (y := fun k => w k i) hx
    have h2 := emaAvg_diff (betaOf_pos h) (betaOf_lt_one hh) hb0 hb1 t (x := fun k => w k i) hx
    set a := 1 - betaOf h with ha
    have hap : 0 < a := by have := betaOf_lt_one hh; linarith
    have ha1 : a ≤ 1 := by have := betaOf_pos h; linarith
    set q := 1 + 1 / h with hq
    set ε := u + η with hε
    have hε0 : 0 ≤ ε := by positivity
    have h3 : (104 * (ε * M) + 16 * η) / (1 - b) ^ 2 ≤ (416 * (ε * M) + 64 * η) / a ^ 2 := by
      rw [div_le_div_iff₀ (by nlinarith) (by positivity)]
      have : a ^ 2 ≤ 4 * (1 - b) ^ 2 := by nlinarith
      have h4 : 0 ≤ 104 * (ε * M) + 16 * η := by positivity
      nlinarith
    have h5 : 2 * M * |betaOf h - b| / a ≤ 36 * q * (ε * M) / a ^ 2 := by
      rw [div_le_div_iff₀ hap (by positivity)]
      rw [abs_sub_comm]
      have h6 : 2 * M * |b - betaOf h| ≤ 36 * q * (ε * M) := by nlinarith
      have h7 : 0 ≤ 36 * q * (ε * M) := by positivity
      have h8 : a ^ 2 ≤ a := by nlinarith
      have := mul_le_mul h6 h8 (by positivity) h7
      linarith
    have h9 : |roundSeq F b (fun k => w k i) t - emaAvg (betaOf h) (fun k => w k i) t|
        ≤ (416 * (ε * M) + 64 * η) / a ^ 2 + 36 * q * (ε * M) / a ^ 2 := by
      have e : roundSeq F b (fun k => w k i) t - emaAvg (betaOf h) (fun k => w k i) t
          = (roundSeq F b (fun k => w k i) t - emaAvg b (fun k => w k i) t)
            - (emaAvg (betaOf h) (fun k => w k i) t - emaAvg b (fun k => w k i) t) := by ring
      rw [e]
      exact (abs_sub _ _).trans (by linarith)
    refine h9.trans ?_
    unfold errorFactor
    rw [← betaOf_eq, ← ha, ← add_div, div_mul_eq_mul_div]
    refine div_le_div_of_nonneg_right ?_ (by positivity)
    have hq1 : 1 ≤ q := by linarith
    have h10 : 0 ≤ ε * M := by positivity
    nlinarith

/-- The EWMA of finite data in an arithmetic with rounding: there is no overflow, no row is lost, and every value is within a multiple of the unit
roundoff of the exact half-life average. The factor depends on the half-life only: it is the same for every length of the history. -/
theorem C187_mean [Nonempty ι] {u η : ℝ} (hF : F.Accurate u η) {h : ℝ} (hh : 0 < h) (hacc : u + η ≤ neededAccuracy h)
    {M : ℝ} (hbig : 24 * (M + 1 + 1 / h) ≤ F.big) (minP : Int) {T : ℕ} (hT : 0 < T) (tm : ℕ → τ) (x : ℕ → ι → ℝ)
    (hx : ∀ t, t < T → ∀ i, |x t i| ≤ M) :
    ∃ z : ℕ → ι → ℝ,
      ewmaMean (rfRows F (List.range T) tm x) ⟨.fin h⟩ minP none = .ok (rfRows F (rowsFrom minP T) tm z) ∧
      ∀ t, t < T → ∀ i, |z t i - halflifeAverage h (fun k => x k i) t| ≤ errorFactor h * ((u + η) * M + η) :=
  general_round hF hh hacc hbig minP hT tm (fun x => x) x (fun _ _ => rfl) hx

theorem emaAvg_sub_le {b : ℝ} (h0 : 0 < b) {x y : ℕ → ℝ} {δ : ℝ} (t : ℕ) (h : ∀ k ≤ t, |x k - y k| ≤ δ) :
    |emaAvg b x t - emaAvg b y t| ≤ δ := by
  have e : emaAvg b x t - emaAvg b y t = emaAvg b (fun k => x k - y k) t := by
    unfold emaAvg
    rw [← sub_div, ← Finset.sum_sub_distrib]
    congr 1
    exact Finset.sum_congr rfl fun k _ => by ring
  rw [e]
  exact emaAvg_abs_le h0 t h

theorem accuracy_le_one {h : ℝ} (hh : 0 < h) : neededAccuracy h ≤ 1 := by
  unfold neededAccuracy
  rw [← betaOf_eq]
  have h0 := betaOf_pos h
  have h1 := betaOf_lt_one hh
  have h2 : 0 < 1 / h := by positivity
  rw [div_le_one (by positivity)]
  have : (1 - betaOf h) ^ 2 ≤ 1 := by nlinarith
  nlinarith [sq_nonneg (1 - betaOf h)]

/-- rounded products or squares in place of exact ones -/
theorem product_round {u η : ℝ} (hF : F.Accurate u η) {h : ℝ} (hh : 0 < h) (hacc : u + η ≤ neededAccuracy h) {M : ℝ} {t : ℕ} {z : ℝ}
    {w v : ℕ → ℝ} (hw : ∀ k ≤ t, Rounds u η (w k) (v k)) (hv : ∀ k ≤ t, |v k| ≤ M ^ 2)
    (hz : |z - halflifeAverage h w t| ≤ errorFactor h * ((u + η) * (2 * M ^ 2 + η) + η)) :
    |z - halflifeAverage h v t| ≤ 3 * errorFactor h * ((u + η) * M ^ 2 + η) := by
  have hu := hF.u_nonneg
  have hη := hF.η_nonneg
  have h1 : |halflifeAverage h w t - halflifeAverage h v t| ≤ (u + η) * M ^ 2 + η := by
    rw [halflifeAverage_eq, halflifeAverage_eq]
    refine emaAvg_sub_le (betaOf_pos h) t fun k hk => (hw k hk).trans ?_
    nlinarith [hv k hk, mul_le_mul_of_nonneg_left (hv k hk) hu, mul_nonneg hη (sq_nonneg M)]
  have h2 := abs_add_le (z - halflifeAverage h w t) (halflifeAverage h w t - halflifeAverage h v t)
  rw [sub_add_sub_cancel] at h2
  have h3 := errorFactor_ge hh
  have h4 := accuracy_le_one hh
  have h5 : 0 ≤ (u + η) * M ^ 2 + η := by positivity
  have h6 : (u + η) * (2 * M ^ 2 + η) + η ≤ 2 * ((u + η) * M ^ 2 + η) := by nlinarith
  have h7 : errorFactor h * ((u + η) * (2 * M ^ 2 + η) + η) ≤ errorFactor h * (2 * ((u + η) * M ^ 2 + η)) :=
    mul_le_mul_of_nonneg_left h6 (by linarith)
  nlinarith

theorem product_bound {u η M v w : ℝ} (hu : 0 ≤ u) (hu1 : u ≤ 1) (hw : Rounds u η w v) (hv : |v| ≤ M ^ 2) :
    |w| ≤ 2 * M ^ 2 + η := by
  have := hw.abs_le
  nlinarith [abs_nonneg v]

/-- The same for the EWMA of the outer products (`_ewma_cov`). -/
theorem C187_cov [Nonempty ι] {u η : ℝ} (hF : F.Accurate u η) {h : ℝ} (hh : 0 < h) (hacc : u + η ≤ neededAccuracy h)
    {M : ℝ} (hbig : 48 * (M ^ 2 + 1 + 1 / h) ≤ F.big) (minP : Int) {T : ℕ} (hT : 0 < T) (tm : ℕ → τ) (x : ℕ → ι → ℝ)
    (hx : ∀ t, t < T → ∀ i, |x t i| ≤ M) :
    ∃ z : ℕ → ι × ι → ℝ,
      ewmaCov (rfRows F (List.range T) tm x) ⟨.fin h⟩ minP = .ok (rfRows F (rowsFrom minP T) tm z) ∧
      ∀ t, t < T → ∀ i j, |z t (i, j) - halflifeAverage h (fun k => x k i * x k j) t| ≤ 3 * errorFactor h * ((u + η) * M ^ 2 + η) := by
  have hu := hF.u_nonneg
  have hη := hF.η_nonneg
  have hi : 0 < 1 / h := by positivity
  have hε1 := hacc.trans (accuracy_le_one hh)
  have hv : ∀ t, t < T → ∀ i j, |x t i * x t j| ≤ M ^ 2 := fun t ht i j => by
    rw [abs_mul, sq]
    exact mul_le_mul (hx t ht i) (hx t ht j) (abs_nonneg _) ((abs_nonneg _).trans (hx t ht i))
  have hw : ∀ t, t < T → ∀ p : ι × ι, |F.mul (x t p.1) (x t p.2)| ≤ 2 * M ^ 2 + η := fun t ht p =>
    product_bound hu (by linarith) (hF.mul _ _) (hv t ht p.1 p.2)
  obtain ⟨z, h1, h2⟩ := general_round (κ := ι × ι) hF hh hacc (M := 2 * M ^ 2 + η) (by nlinarith) minP hT tm outer x
    (w := fun t p => F.mul (x t p.1) (x t p.2)) (fun t ht => by
      unfold outer rfRow
      ext p
      simp only [Arr.get_ofFn]
      rw [rf_mul, out_fin (by nlinarith [hw t ht p])]) hw
  refine ⟨z, h1, fun t ht i j => ?_⟩
  exact product_round hF hh hacc (w := fun k => F.mul (x k i) (x k j)) (v := fun k => x k i * x k j) (fun k _ => hF.mul _ _)
    (fun k hk => hv k (by omega) i j) (h2 t ht (i, j))

/-- The same for the EWMA of the squares (`_variance`). -/
theorem C187_variance [Nonempty ι] {u η : ℝ} (hF : F.Accurate u η) {h : ℝ} (hh : 0 < h) (hacc : u + η ≤ neededAccuracy h)
    {M : ℝ} (hbig : 48 * (M ^ 2 + 1 + 1 / h) ≤ F.big) (minP : Int) {T : ℕ} (hT : 0 < T) (tm : ℕ → τ) (x : ℕ → ι → ℝ)
    (hx : ∀ t, t < T → ∀ i, |x t i| ≤ M) :
    ∃ z : ℕ → ι → ℝ,
      variance (rfRows F (List.range T) tm x) ⟨.fin h⟩ minP none = .ok (rfRows F (rowsFrom minP T) tm z) ∧
      ∀ t, t < T → ∀ i, |z t i - halflifeAverage h (fun k => x k i ^ 2) t| ≤ 3 * errorFactor h * ((u + η) * M ^ 2 + η) := by
  have hu := hF.u_nonneg
  have hη := hF.η_nonneg
  have hi : 0 < 1 / h := by positivity
  have hε1 := hacc.trans (accuracy_le_one hh)
  have hv : ∀ t, t < T → ∀ i, |x t i ^ 2| ≤ M ^ 2 := fun t ht i => by
    rw [abs_pow]
    exact pow_le_pow_left₀ (abs_nonneg _) (hx t ht i) 2
  have hw : ∀ t, t < T → ∀ i, |F.npow (x t i) 2| ≤ 2 * M ^ 2 + η := fun t ht i =>
    product_bound hu (by linarith) (hF.npow _ _) (hv t ht i)
  have he : (rfRows F (List.range T) tm x).mapVals (fun y => Scalar.npow y 2) = rfRows F (List.range T) tm fun t i => F.npow (x t i) 2 := by
    unfold rfRows Frame.mapVals
    rw [List.map_map]
    refine List.map_congr_left fun t ht => ?_
    rw [List.mem_range] at ht
    refine Prod.ext rfl ?_
    simp only [Function.comp]
    unfold rfRow
    ext i
    simp only [Arr.get_map, Arr.get_ofFn]
    rw [rf_npow, out_fin (by nlinarith [hw t ht i])]
  obtain ⟨z, h1, h2⟩ := general_round (κ := ι) hF hh hacc (M := 2 * M ^ 2 + η) (by nlinarith) minP hT tm (fun y => y)
    (fun t i => F.npow (x t i) 2) (w := fun t i => F.npow (x t i) 2) (fun _ _ => rfl) hw
  refine ⟨z, ?_, fun t ht i => ?_⟩
  · unfold variance
    rw [he]
    exact h1
  · exact product_round hF hh hacc (w := fun k => F.npow (x k i) 2) (v := fun k => x k i ^ 2) (fun k _ => hF.npow _ _)
      (fun k hk => hv k (by omega) i) (h2 t ht i)

/-- The volatility, as long as the exact variance exceeds the error of the computed one. (Otherwise a negative number may come out and its root be
`nan`.) -/
theorem C187_volatility [Nonempty ι] {u η : ℝ} (hF : F.Accurate u η) {h : ℝ} (hh : 0 < h) (hacc : u + η ≤ neededAccuracy h)
    {M : ℝ} (hbig : 48 * (M ^ 2 + 1 + 1 / h) ≤ F.big) (minP : Int) {T : ℕ} (hT : 0 < T) (tm : ℕ → τ) (x : ℕ → ι → ℝ)
    (hx : ∀ t, t < T → ∀ i, |x t i| ≤ M) {δ : ℝ} (hδ : δ = 3 * errorFactor h * ((u + η) * M ^ 2 + η))
    (hv : ∀ t, t < T → minP - 1 ≤ (t : Int) → ∀ i, δ < halflifeAverage h (fun k => x k i ^ 2) t) :
    ∃ z : ℕ → ι → ℝ,
      volatility (rfRows F (List.range T) tm x) ⟨.fin h⟩ minP none = .ok (rfRows F (rowsFrom minP T) tm z) ∧
      ∀ t, t < T → minP - 1 ≤ (t : Int) → ∀ i, |z t i - Real.sqrt (halflifeAverage h (fun k => x k i ^ 2) t)|
        ≤ δ / Real.sqrt (halflifeAverage h (fun k => x k i ^ 2) t)
          + 2 * u * Real.sqrt (halflifeAverage h (fun k => x k i ^ 2) t) + η := by
  have hu := hF.u_nonneg
  have hη := hF.η_nonneg
  have hi : 0 < 1 / h := by positivity
  have hε1 := hacc.trans (accuracy_le_one hh)
  obtain ⟨s, h1, h2⟩ := C187_variance hF hh hacc hbig minP hT tm x hx
  have hEF := errorFactor_ge hh
  have hδ0 : 0 ≤ δ := by
    rw [hδ]
    have : 0 ≤ (u + η) * M ^ 2 + η := by positivity
    have : 0 ≤ errorFactor h := by linarith
    positivity
  have key : ∀ t, t < T → minP - 1 ≤ (t : Int) → ∀ i, 0 < s t i ∧
      |Real.sqrt (s t i) - Real.sqrt (halflifeAverage h (fun k => x k i ^ 2) t)|
        ≤ δ / Real.sqrt (halflifeAverage h (fun k => x k i ^ 2) t) ∧
      Real.sqrt (s t i) ≤ 2 * Real.sqrt (halflifeAverage h (fun k => x k i ^ 2) t) ∧
      Real.sqrt (halflifeAverage h (fun k => x k i ^ 2) t) ≤ M := by
    intro t ht hm i
    set v := halflifeAverage h (fun k => x k i ^ 2) t with hvd
    have hvp := hv t ht hm i
    have h3 : |s t i - v| ≤ δ := by rw [hδ]; exact h2 t ht i
    have hs : 0 < s t i := by have := (abs_le.1 h3).1; linarith
    have hr : 0 < Real.sqrt v := Real.sqrt_pos.2 (by linarith)
    have hrs := Real.sqrt_pos.2 hs
    have hvv : Real.sqrt v ^ 2 = v := Real.sq_sqrt (by linarith)
    have hss : Real.sqrt (s t i) ^ 2 = s t i := Real.sq_sqrt hs.le
    have h4 : |Real.sqrt (s t i) - Real.sqrt v| ≤ δ / Real.sqrt v := by
      rw [le_div_iff₀ hr]
      have e : s t i - v = (Real.sqrt (s t i) - Real.sqrt v) * (Real.sqrt (s t i) + Real.sqrt v) := by
        nlinarith
      rw [e, abs_mul, abs_of_pos (show 0 < Real.sqrt (s t i) + Real.sqrt v by linarith)] at h3
      nlinarith [abs_nonneg (Real.sqrt (s t i) - Real.sqrt v)]
    have h5 : δ / Real.sqrt v ≤ Real.sqrt v := by
      rw [div_le_iff₀ hr]; nlinarith
    refine ⟨hs, h4, by linarith [(abs_le.1 h4).2], ?_⟩
    have hM : 0 ≤ M := (abs_nonneg _).trans (hx 0 hT i)
    rw [Real.sqrt_le_left hM, hvd, halflifeAverage_eq]
    refine (le_abs_self _).trans (emaAvg_abs_le (betaOf_pos h) t fun k hk => ?_)
    rw [abs_pow]
    exact pow_le_pow_left₀ (abs_nonneg _) (hx k (by omega) i) 2
  refine ⟨fun t i => F.sqrt (s t i), ?_, fun t ht hm i => ?_⟩
  · unfold volatility
    simp only [Scalar.truthy, Option.map_none]
    rw [h1]
    show Except.ok _ = _
    congr 1
    unfold Frame.mapVals rfRows
    rw [List.map_map]
    refine List.map_congr_left fun t ht => ?_
    have htT : t < T := by
      unfold rowsFrom at ht
      exact List.mem_range.1 (List.mem_filter.1 ht).1
    have htm : minP - 1 ≤ (t : Int) := by
      unfold rowsFrom at ht
      simpa using (List.mem_filter.1 ht).2
    refine Prod.ext rfl ?_
    simp only [Function.comp]
    unfold rfRow
    ext i
    simp only [Arr.get_map, Arr.get_ofFn]
    obtain ⟨k1, -, k3, k4⟩ := key t htT htm i
    show RF.sqrt _ = _
    simp only [RF.sqrt]
    rw [if_neg (by linarith)]
    refine out_fin ?_
    have h6 := (hF.sqrt _ k1.le).abs_le
    rw [abs_of_nonneg (Real.sqrt_nonneg _)] at h6
    have h7 : (1 + u) * Real.sqrt (s t i) ≤ 2 * (2 * M) :=
      mul_le_mul (by linarith) (by linarith) (Real.sqrt_nonneg _) (by norm_num)
    nlinarith [sq_nonneg (M - 1)]
  · obtain ⟨k1, k2, k3, -⟩ := key t ht hm i
    have h6 := hF.sqrt _ k1.le
    unfold Rounds at h6
    rw [abs_of_nonneg (Real.sqrt_nonneg _)] at h6
    have h7 := abs_add_le (F.sqrt (s t i) - Real.sqrt (s t i))
      (Real.sqrt (s t i) - Real.sqrt (halflifeAverage h (fun k => x k i ^ 2) t))
    rw [sub_add_sub_cancel] at h7
    have h8 : u * Real.sqrt (s t i) ≤ u * (2 * Real.sqrt (halflifeAverage h (fun k => x k i ^ 2) t)) :=
      mul_le_mul_of_nonneg_left k3 hu
    linarith

/-- What the two functions of the half-life amount to: for half-lives of a row or more an accuracy of `1 / (15000 h²)` is enough (double precision
has it up to half-lives of 700,000 rows), and the factor is at most `9000 h²`. -/
theorem C187_constants {h : ℝ} (hh : 1 ≤ h) : 1 / (15000 * h ^ 2) ≤ neededAccuracy h ∧ errorFactor h ≤ 9000 * h ^ 2 := by
  have hh0 : 0 < h := by linarith
  unfold neededAccuracy errorFactor
  rw [← betaOf_eq]
  set β := betaOf h with hβ
  have hβ1 : β < 1 := betaOf_lt_one hh0
  have hβ2 : 1 / 2 ≤ β := by
    have h1 : β ^ 1 = (2 : ℝ) ^ (-((1 : ℕ) : ℝ) / h) := betaOf_pow h 1
    rw [pow_one] at h1
    rw [h1, show (1 / 2 : ℝ) = (2 : ℝ) ^ (-1 : ℝ) by rw [Real.rpow_neg_one]; norm_num]
    refine Real.rpow_le_rpow_of_exponent_le (by norm_num) ?_
    rw [le_div_iff₀ hh0]; push_cast; linarith
  have hl : 1 / 2 ≤ Real.log 2 := by
    have := Real.one_sub_inv_le_log_of_pos (show (0 : ℝ) < 2 by norm_num)
    linarith
  have ha : 1 / (3 * h) ≤ 1 - β := by
    have h1 : 1 + Real.log 2 / h ≤ Real.exp (Real.log 2 / h) := by
      have := Real.add_one_le_exp (Real.log 2 / h); linarith
    have h2 : β * Real.exp (Real.log 2 / h) = 1 := by
      rw [hβ, betaOf, ← Real.exp_add, neg_div, neg_add_cancel, Real.exp_zero]
    have h3 : β * (1 + Real.log 2 / h) ≤ 1 := by
      have := mul_le_mul_of_nonneg_left h1 (show 0 ≤ β by linarith)
      linarith
    have h4 : β * (1 + 1 / 2 / h) ≤ 1 := by
      refine le_trans (mul_le_mul_of_nonneg_left ?_ (by linarith)) h3
      have := div_le_div_of_nonneg_right hl hh0.le
      linarith
    have h5 : β * (2 * h + 1) ≤ 2 * h := by
      have : β * (1 + 1 / 2 / h) * (2 * h) ≤ 1 * (2 * h) := mul_le_mul_of_nonneg_right h4 (by linarith)
      have e : β * (1 + 1 / 2 / h) * (2 * h) = β * (2 * h + 1) := by field_simp
      linarith
    rw [div_le_iff₀ (by positivity)]
    nlinarith
  have hq : 1 + 1 / h ≤ 2 := by
    have : 1 / h ≤ 1 := by rw [div_le_one hh0]; exact hh
    linarith
  have hq0 : 0 < 1 + 1 / h := by positivity
  have h3h : 0 < 1 / (3 * h) := by positivity
  have hsq : 1 / (9 * h ^ 2) ≤ (1 - β) ^ 2 := by
    have : (1 / (3 * h)) ^ 2 ≤ (1 - β) ^ 2 := pow_le_pow_left₀ h3h.le ha 2
    have e : (1 / (3 * h)) ^ 2 = 1 / (9 * h ^ 2) := by field_simp; ring
    rwa [e] at this
  have hap : 0 < 1 - β := by linarith
  constructor
  · rw [le_div_iff₀ (by positivity)]
    have h6 : 1 / (15000 * h ^ 2) * (416 * (1 + 1 / h)) ≤ 1 / (15000 * h ^ 2) * 832 :=
      mul_le_mul_of_nonneg_left (by linarith) (by positivity)
    have h7 : 1 / (15000 * h ^ 2) * 832 ≤ 1 / 2 * (1 / (9 * h ^ 2)) := by
      rw [div_mul_eq_mul_div, div_mul_div_comm, div_le_div_iff₀ (by positivity) (by positivity)]
      nlinarith [sq_nonneg h]
    have h8 : 1 / 2 * (1 / (9 * h ^ 2)) ≤ β * (1 - β) ^ 2 := mul_le_mul hβ2 hsq (by positivity) (by linarith)
    linarith
  · rw [div_le_iff₀ (by positivity)]
    have h6 : 9000 * h ^ 2 * (1 / (9 * h ^ 2)) ≤ 9000 * h ^ 2 * (1 - β) ^ 2 := mul_le_mul_of_nonneg_left hsq (by positivity)
    have h7 : 9000 * h ^ 2 * (1 / (9 * h ^ 2)) = 1000 := by field_simp; norm_num
    linarith

namespace RoundedEx

/-- The exponent of the last of `p` bits of `x`. -/
noncomputable def lastBit (p : ℕ) (x : ℝ) : ℤ := Int.log 2 |x| + 1 - p

/-- Binary floating point with `p` bits: `x` rounded to the nearest multiple of its last bit. -/
noncomputable def fl (p : ℕ) (x : ℝ) : ℝ := round (x / 2 ^ lastBit p x) * 2 ^ lastBit p x

theorem fl_rounds (p : ℕ) (x : ℝ) : Rounds (2 ^ (-(p : ℤ))) 0 (fl p x) x := by
  unfold Rounds
  rcases eq_or_ne x 0 with rfl | hx
  · simp [fl]
  have h2 : (0 : ℝ) < 2 ^ lastBit p x := by positivity
  have e : fl p x - x = -((x / 2 ^ lastBit p x - round (x / 2 ^ lastBit p x)) * 2 ^ lastBit p x) := by
    unfold fl; rw [sub_mul, div_mul_cancel₀ _ h2.ne']; ring
  rw [e, abs_neg, abs_mul, abs_of_pos h2, add_zero]
  have h3 := mul_le_mul_of_nonneg_right (abs_sub_round (x / 2 ^ lastBit p x)) h2.le
  refine h3.trans ?_
  have h4 : (2 : ℝ) ^ Int.log 2 |x| ≤ |x| := by
    exact_mod_cast Int.zpow_log_le_self (b := 2) (by norm_num) (abs_pos.mpr hx)
  have h5 : (1 : ℝ) / 2 * 2 ^ lastBit p x = 2 ^ (-(p : ℤ)) * 2 ^ Int.log 2 |x| := by
    rw [lastBit, sub_eq_add_neg, zpow_add₀ (by norm_num), zpow_add₀ (by norm_num), zpow_one]
    ring
  rw [h5]
  exact mul_le_mul_of_nonneg_left h4 (by positivity)

/-- The arithmetic of `p` bits with every operation rounded to nearest, and the largest double. -/
noncomputable def bits (p : ℕ) : FloatOps where
  add a b := fl p (a + b)
  sub a b := fl p (a - b)
  mul a b := fl p (a * b)
  div a b := fl p (a / b)
  sqrt a := fl p (Real.sqrt a)
  exp a := fl p (Real.exp a)
  log a := fl p (Real.log a)
  npow a n := fl p (a ^ n)
  big := 2 ^ 1024 - 2 ^ 971

theorem bits_accurate (p : ℕ) : (bits p).Accurate (2 ^ (-(p : ℤ))) 0 where
  u_nonneg := by positivity
  η_nonneg := le_rfl
  add _ _ := fl_rounds p _
  sub _ _ := fl_rounds p _
  mul _ _ := fl_rounds p _
  div _ _ _ := fl_rounds p _
  sqrt _ _ := fl_rounds p _
  exp _ := fl_rounds p _
  log _ _ := fl_rounds p _
  npow _ _ := fl_rounds p _

theorem big_ge : (1000 : ℝ) ≤ (bits 53).big := by
  show _ ≤ (2 : ℝ) ^ 1024 - 2 ^ 971
  have h1 : (2 : ℝ) ^ 1024 = 2 ^ 971 * 2 ^ 53 := by rw [← pow_add]
  have h2 : (1 : ℝ) ≤ 2 ^ 971 := one_le_pow₀ (by norm_num)
  rw [h1]
  generalize (2 : ℝ) ^ 971 = y at h2 ⊢
  norm_num
  linarith

/-- 53 bits, a half-life of 250 rows, returns of size at most one: whatever the returns and however many rows, every computed average is within
`7e-8` of the exact one. -/
example (T : ℕ) (hT : 0 < T) (x : ℕ → Fin 3 → ℝ) (hx : ∀ t, t < T → ∀ i, |x t i| ≤ 1) :
    ∃ z : ℕ → Fin 3 → ℝ,
      ewmaMean (rfRows (bits 53) (List.range T) (fun t => t) x) ⟨.fin 250⟩ 0 none = .ok (rfRows (bits 53) (rowsFrom 0 T) (fun t => t) z) ∧
      ∀ t, t < T → ∀ i, |z t i - halflifeAverage 250 (fun k => x k i) t| ≤ 7 / 10 ^ 8 := by
  obtain ⟨h1, h2⟩ := C187_constants (h := 250) (by norm_num)
  have e : (2 : ℝ) ^ (-((53 : ℕ) : ℤ)) = 1 / 2 ^ 53 := by rw [zpow_neg, zpow_natCast, one_div]
  obtain ⟨z, hz, hb⟩ := C187_mean (bits_accurate 53) (h := 250) (by norm_num) (by rw [e]; refine le_trans ?_ h1; norm_num)
    (M := 1) (le_trans (by norm_num) big_ge) 0 hT (fun t => t) x hx
  refine ⟨z, hz, fun t ht i => (hb t ht i).trans ?_⟩
  rw [e]
  refine le_trans (mul_le_mul_of_nonneg_right h2 (by positivity)) ?_
  norm_num

/-- And volatilities, of returns of one percent up or down: every computed one is within `4e-9` of `0.01`. -/
example (T : ℕ) (hT : 0 < T) (x : ℕ → Fin 3 → ℝ) (hx : ∀ t i, |x t i| = 1 / 100) :
    ∃ z : ℕ → Fin 3 → ℝ,
      volatility (rfRows (bits 53) (List.range T) (fun t => t) x) ⟨.fin 250⟩ 0 none = .ok (rfRows (bits 53) (rowsFrom 0 T) (fun t => t) z) ∧
      ∀ t, t < T → ∀ i, |z t i - 1 / 100| ≤ 4 / 10 ^ 9 := by
  obtain ⟨h1, h2⟩ := C187_constants (h := 250) (by norm_num)
  have e : (2 : ℝ) ^ (-((53 : ℕ) : ℤ)) = 1 / 2 ^ 53 := by rw [zpow_neg, zpow_natCast, one_div]
  have h3 := errorFactor_ge (h := 250) (by norm_num)
  have hsq : ∀ t i, halflifeAverage 250 (fun k => x k i ^ 2) t = (1 / 100) ^ 2 := fun t i => by
    have : (fun k => x k i ^ 2) = fun _ => (1 / 100 : ℝ) ^ 2 := by
      funext k; rw [← sq_abs, hx]
    rw [this, halflifeAverage_eq]
    exact emaAvg_const (betaOf_pos _) _ _
  have hδ : 3 * errorFactor 250 * ((2 ^ (-((53 : ℕ) : ℤ)) + 0) * (1 / 100) ^ 2 + 0) ≤ 2 / 10 ^ 11 := by
    rw [e]
    refine le_trans (mul_le_mul_of_nonneg_right (mul_le_mul_of_nonneg_left h2 (by norm_num)) (by positivity)) ?_
    norm_num
  obtain ⟨z, hz, hb⟩ := C187_volatility (bits_accurate 53) (h := 250) (by norm_num) (by rw [e]; refine le_trans ?_ h1; norm_num)
    (M := 1 / 100) (le_trans (by norm_num) big_ge) 0 hT (fun t => t) x (fun t _ i => (hx t i).le) rfl
    (fun t _ _ i => by rw [hsq]; exact lt_of_le_of_lt hδ (by norm_num))
  refine ⟨z, hz, fun t ht i => ?_⟩
  have h4 := hb t ht (by omega) i
  rw [hsq, Real.sqrt_sq (by norm_num)] at h4
  refine h4.trans ?_
  have h5 := div_le_div_of_nonneg_right hδ (show (0 : ℝ) ≤ 1 / 100 by norm_num)
  rw [e] at h5 ⊢
  norm_num at h5 ⊢
  linarith

/-- The arithmetic does round: with two bits, `1 + 1/8` is `1`. -/
example : (bits 2).add 1 (1 / 8) ≠ 1 + 1 / 8 := by
  intro h
  have h0 : fl 2 (1 + 1 / 8) = 1 + 1 / 8 := h
  have hl : Int.log 2 |(1 + 1 / 8 : ℝ)| = 0 := by
    rw [abs_of_pos (by norm_num), Int.log_of_one_le_right _ (by norm_num)]
    have : ⌊(1 + 1 / 8 : ℝ)⌋₊ = 1 := by
      rw [Nat.floor_eq_iff (by norm_num)]; norm_num
    rw [this]; rfl
  have hb : lastBit 2 (1 + 1 / 8) = -1 := by rw [lastBit, hl]; rfl
  unfold fl at h0
  rw [hb] at h0
  have h1 : ((round ((1 + 1 / 8 : ℝ) / 2 ^ (-1 : ℤ)) : ℤ) : ℝ) = 9 / 4 := by
    rw [zpow_neg_one] at h0 ⊢; linarith
  have h2 : ((4 * round ((1 + 1 / 8 : ℝ) / 2 ^ (-1 : ℤ)) : ℤ) : ℝ) = ((9 : ℤ) : ℝ) := by push_cast; linarith
  have h3 := Int.cast_injective h2
  omega

end RoundedEx
end CovPred
