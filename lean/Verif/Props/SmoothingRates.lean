import Verif.Model.SmoothingRates
import Verif.Spec.SmoothingRates
import Verif.Props.Smoothing
import Verif.Props.YearlyWeights
import Verif.Lemmas.XR
import Verif.Lemmas.Backtests
import Mathlib.Analysis.InnerProductSpace.PiL2

/-
Property C186: how often smoothed covariances change, how they depend on their input, and normalised regrets.
-/
set_option linter.unusedSectionVars false
namespace CovPred

variable {τ : Type} {n : ℕ}

theorem sum_flags {T : ℕ} {u : ℕ → ℕ} {Y : ℕ → Mat n} (hu : ∀ t < T, u t = 0 ∧ Y (t + 1) = Y t ∨ u t = 1 ∧ Y (t + 1) ≠ Y t) :
    (((List.range T).map u).map fun k : ℕ => (k : ℝ)).sum = changes T Y := by
  classical
  unfold changes
  induction T with
  | zero => simp
  | succ T ih =>
    rw [List.range_succ, List.map_append, List.map_append, List.sum_append, ih fun t ht => hu t (by omega),
      Finset.range_add_one, Finset.filter_insert]
    rcases hu T (by omega) with ⟨h1, h2⟩ | ⟨h1, h2⟩
    · simp [h1, h2]
    · rw [if_pos h2, Finset.card_insert_of_notMem (by simp)]
      simp [h1]

/-- The entries of the two lists for a smoothed sequence of `T + 1` matrices: the share of the days on which the matrix changes, and its
reciprocal, the days per change: a number of at least one, `inf` if the matrix never changes. The first list starts with 1, for the
sequence that is not smoothed. -/
theorem C186_frequency {solver : LineSolver n} (hs : solver.Exact) (hc : solver.Complete) {lamda : ℝ} (hl : 0 ≤ lamda)
    {T : ℕ} (hT : 0 < T) (times : ℕ → τ) {X : ℕ → Mat n} (hX : ∀ t ≤ T, (X t).PosSemidef) :
    ∃ (Y : ℕ → Mat n) (u : List ℕ),
      l1Smoothing solver ((List.range (T + 1)).map fun i => (times i, X i)) lamda
        = .ok ((List.range (T + 1)).map (fun i => (times i, Y i)), u) ∧
      L1Smoothed lamda T X Y ∧
      meanDaysBetweenUpdates [u] = [.fin 1, .fin (changes T Y / T)] ∧
      meanUpdatesEvery (meanDaysBetweenUpdates [u])
        = [.fin 1, if changes T Y = 0 then .pinf else .fin (T / changes T Y)] ∧
      changes T Y ≤ T := by
  obtain ⟨Y, u, h1, h2, h3⟩ := C135_smoothed hs hc hl times hX
  have hf := sum_flags (T := T) (u := u) (Y := Y) fun t ht => (h3 t ht).imp (fun h => ⟨h.1, h.2.1⟩) (fun h => ⟨h.1, h.2.1⟩)
  have hm : updateMean ((List.range T).map u) = .fin (changes T Y / T) := by
    unfold updateMean
    rw [if_neg (by simp; omega), hf]
    simp
  refine ⟨Y, (List.range T).map u, h1, h2, ?_, ?_, ?_⟩
  · simp [meanDaysBetweenUpdates, hm]
  · have hT' : (T : ℝ) ≠ 0 := by exact_mod_cast hT.ne'
    simp only [meanDaysBetweenUpdates, meanUpdatesEvery, List.map_cons, List.map_nil, hm]
    rw [XR.fin_div one_ne_zero, div_one]
    congr 2
    split
    · rename_i h0
      rw [h0]
      show XR.div (.fin 1) (.fin _) = _
      simp [XR.div, XR.infSign]
    · rename_i h0
      have : ((changes T Y : ℕ) : ℝ) ≠ 0 := by exact_mod_cast h0
      rw [XR.fin_div (by positivity), one_div_div]
  · classical
    unfold changes
    exact (Finset.card_filter_le _ _).trans (by simp)

/-- A single matrix has no update: both numbers are `nan`. -/
theorem C186_single {solver : LineSolver n} (lamda : ℝ) (t : τ) (X : Mat n) :
    ∃ u, l1Smoothing solver [(t, X)] lamda = .ok ([(t, X)], u) ∧ meanDaysBetweenUpdates [u] = [.fin 1, .nan] ∧
      meanUpdatesEvery (meanDaysBetweenUpdates [u]) = [.fin 1, .nan] := by
  refine ⟨[], rfl, by simp [meanDaysBetweenUpdates, updateMean], ?_⟩
  simp only [meanDaysBetweenUpdates, meanUpdatesEvery, List.map_cons, List.map_nil, updateMean, List.length_nil, if_true]
  rw [XR.fin_div one_ne_zero, div_one]
  rfl

theorem dist2_smul {k : ℝ} (hk : 0 ≤ k) (A B : Mat n) : dist2 (k • A) (k • B) = k * dist2 A B := by
  unfold dist2
  have : frob (k • A - k • B) = k ^ 2 * frob (A - B) := by
    unfold frob
    simp only [Finset.mul_sum, Matrix.sub_apply, Matrix.smul_apply, smul_eq_mul]
    refine Finset.sum_congr rfl fun i _ => Finset.sum_congr rfl fun j _ => by ring
  rw [this, Real.sqrt_mul (sq_nonneg k), Real.sqrt_sq hk]

theorem smoothCost_smul {k : ℝ} (hk : 0 ≤ k) (lamda : ℝ) (X Y B : Mat n) :
    smoothCost (k * lamda) (k • X) (k • Y) (k • B) = k ^ 2 * smoothCost lamda X Y B := by
  unfold smoothCost
  rw [dist2_smul hk, dist2_smul hk]
  ring

theorem smoothed_smul {k : ℝ} (hk : 0 < k) {lamda : ℝ} {T : ℕ} {X Y : ℕ → Mat n} (h : L1Smoothed lamda T X Y) :
    L1Smoothed (k * lamda) T (fun t => k • X t) fun t => k • Y t := by
  refine ⟨congrArg (k • ·) h.1, fun t ht B hB => ?_⟩
  have hkB : k • (k⁻¹ • B) = B := by rw [smul_smul, mul_inv_cancel₀ hk.ne', one_smul]
  have := h.2 t ht (k⁻¹ • B) (fun he => hB (by rw [← hkB, he]))
  rw [← hkB, smoothCost_smul hk.le, smoothCost_smul hk.le]
  exact mul_lt_mul_of_pos_left this (by positivity)

/-- Units: multiplying the covariances and the parameter by `k > 0` multiplies the smoothed covariances by `k` and leaves the updates as they
are. -/
theorem C186_units {solver : LineSolver n} (hs : solver.Exact) (hc : solver.Complete) {lamda : ℝ} (hl : 0 ≤ lamda)
    {k : ℝ} (hk : 0 < k) {T : ℕ} (times : ℕ → τ) {X : ℕ → Mat n} (hX : ∀ t ≤ T, (X t).PosSemidef) :
    ∃ (Y : ℕ → Mat n) (u : List ℕ),
      l1Smoothing solver ((List.range (T + 1)).map fun i => (times i, X i)) lamda
        = .ok ((List.range (T + 1)).map (fun i => (times i, Y i)), u) ∧
      l1Smoothing solver ((List.range (T + 1)).map fun i => (times i, k • X i)) (k * lamda)
        = .ok ((List.range (T + 1)).map (fun i => (times i, k • Y i)), u) := by
  obtain ⟨Y, u, h1, h2, h3⟩ := C135_smoothed hs hc hl times hX
  obtain ⟨Y', u', h1', h2', h3'⟩ := C135_smoothed hs hc (mul_nonneg hk.le hl) times (X := fun t => k • X t) (T := T)
    (fun t ht => (hX t ht).smul hk.le)
  have he := smoothed_unique (mul_nonneg hk.le hl) h2' (smoothed_smul hk h2)
  refine ⟨Y, (List.range T).map u, h1, ?_⟩
  rw [h1']
  have e1 : (List.range (T + 1)).map (fun i => (times i, Y' i)) = (List.range (T + 1)).map fun i => (times i, k • Y i) :=
    List.map_congr_left fun i hi => by rw [he i (by rw [List.mem_range] at hi; omega)]
  have e2 : (List.range T).map u' = (List.range T).map u := by
    refine List.map_congr_left fun t ht => ?_
    rw [List.mem_range] at ht
    have hiff : Y' (t + 1) = Y' t ↔ Y (t + 1) = Y t := by
      rw [he _ (by omega : t + 1 ≤ T), he _ (by omega : t ≤ T)]
      exact ⟨fun h => smul_right_injective _ hk.ne' h, fun h => by rw [h]⟩
    rcases h3 t ht with ⟨a, b, -⟩ | ⟨a, b, -⟩ <;> rcases h3' t ht with ⟨a', b', -⟩ | ⟨a', b', -⟩
    · rw [a, a']
    · exact absurd (hiff.2 b) b'
    · exact absurd (hiff.1 b') b
    · rw [a, a']
  rw [e1, e2]

/-- The smoothed sequence moves less than the one it smooths: over any stretch of days the total distance it covers is at most that of the
unsmoothed one. If these stay within `lamda` of the first one, nothing moves at all. -/
theorem C186_movement {lamda : ℝ} (hl : 0 ≤ lamda) {T : ℕ} {X Y : ℕ → Mat n} (hY : L1Smoothed lamda T X Y) :
    (∀ a b, a ≤ b → b ≤ T → ∑ t ∈ Finset.Ico a b, dist2 (Y (t + 1)) (Y t) ≤ ∑ t ∈ Finset.Ico a b, dist2 (X (t + 1)) (X t)) ∧
    ((∀ t ≤ T, dist2 (X t) (X 0) ≤ lamda) → changes T Y = 0) := by
  refine ⟨fun a b _ hb => Finset.sum_le_sum fun t ht => (C135_shape hl hY).2.2.1 t ?_, fun hX => ?_⟩
  · rw [Finset.mem_Ico] at ht; omega
  · classical
    have h0 : ∀ t ≤ T, Y t = X 0 := by
      intro t
      induction t with
      | zero => intro _; exact hY.1
      | succ t ih =>
        intro ht
        have h1 := (C135_shape hl hY).2.1 t ht
        rw [ih (by omega), max_eq_right (by linarith [hX (t + 1) ht])] at h1
        have h2 : frob (Y (t + 1) - X 0) = 0 := by
          unfold dist2 at h1
          have hn : 0 ≤ frob (Y (t + 1) - X 0) := Finset.sum_nonneg fun i _ => Finset.sum_nonneg fun j _ => sq_nonneg _
          exact (Real.sqrt_eq_zero hn).1 h1
        ext i j
        have h3 := (Finset.sum_eq_zero_iff_of_nonneg (s := Finset.univ)
          (f := fun i => ∑ j, ((Y (t + 1) - X 0) i j) ^ 2) fun i _ => Finset.sum_nonneg fun j _ => sq_nonneg _).1 h2 i (Finset.mem_univ i)
        have h4 := (Finset.sum_eq_zero_iff_of_nonneg (s := Finset.univ)
          (f := fun j => ((Y (t + 1) - X 0) i j) ^ 2) fun j _ => sq_nonneg _).1 h3 j (Finset.mem_univ j)
        have h5 := pow_eq_zero_iff (two_ne_zero) |>.1 h4
        rw [Matrix.sub_apply] at h5
        linarith
    unfold changes
    rw [Finset.card_eq_zero, Finset.filter_eq_empty_iff]
    intro t ht hne
    rw [Finset.mem_range] at ht
    exact hne (by rw [h0 _ (by omega), h0 _ (by omega)])

/-! The projection on a ball, in an inner product space. -/
section ball
variable {E : Type} [NormedAddCommGroup E] [InnerProductSpace ℝ E]

open Classical in
/-- the point of the ball of radius `r` around zero that is nearest to `u` -/
noncomputable def ballPoint (r : ℝ) (u : E) : E := if ‖u‖ ≤ r then u else (r / ‖u‖) • u

theorem ballPoint_norm {r : ℝ} (hr : 0 ≤ r) (u : E) : ‖ballPoint r u‖ ≤ r := by
  unfold ballPoint
  split
  · assumption
  · rename_i h
    have : 0 < ‖u‖ := lt_of_le_of_lt hr (not_le.1 h)
    rw [norm_smul, Real.norm_of_nonneg (by positivity), div_mul_cancel₀ _ this.ne']

theorem ballPoint_angle {r : ℝ} (hr : 0 ≤ r) (u w : E) (hw : ‖w‖ ≤ r) : inner ℝ (u - ballPoint r u) (w - ballPoint r u) ≤ 0 := by
  unfold ballPoint
  split
  · simp
  · rename_i h
    have hp : 0 < ‖u‖ := lt_of_le_of_lt hr (not_le.1 h)
    have hq : r / ‖u‖ ≤ 1 := by rw [div_le_one hp]; exact (not_le.1 h).le
    have e : u - (r / ‖u‖) • u = (1 - r / ‖u‖) • u := by module
    rw [e, inner_smul_left, inner_sub_right, inner_smul_right, real_inner_self_eq_norm_sq]
    have h1 : inner ℝ u w ≤ ‖u‖ * r := (real_inner_le_norm u w).trans (mul_le_mul_of_nonneg_left hw hp.le)
    have h2 : r / ‖u‖ * ‖u‖ ^ 2 = ‖u‖ * r := by field_simp
    rw [h2]
    simp only [conj_trivial]
    nlinarith

theorem ballPoint_firm {r : ℝ} (hr : 0 ≤ r) (u v : E) :
    ‖ballPoint r u - ballPoint r v‖ ≤ ‖u - v‖ ∧ ‖(u - ballPoint r u) - (v - ballPoint r v)‖ ≤ ‖u - v‖ := by
  have h1 := ballPoint_angle hr u _ (ballPoint_norm hr v)
  have h2 := ballPoint_angle hr v _ (ballPoint_norm hr u)
  set p := ballPoint r u
  set q := ballPoint r v
  have e : u - v = (p - q) + ((u - p) - (v - q)) := by abel
  have h3 : 0 ≤ inner ℝ (p - q) ((u - p) - (v - q)) := by
    have : inner ℝ (p - q) ((u - p) - (v - q)) = - inner ℝ (u - p) (q - p) - inner ℝ (v - q) (p - q) := by
      have e1 : inner ℝ (u - p) (q - p) = - inner ℝ (u - p) (p - q) := by
        rw [← inner_neg_right, neg_sub]
      rw [e1, inner_sub_right, real_inner_comm (u - p) (p - q), real_inner_comm (v - q) (p - q)]
      ring
    rw [this]; linarith
  have h4 := norm_add_sq_real (p - q) ((u - p) - (v - q))
  rw [← e] at h4
  constructor
  · exact abs_le_of_sq_le_sq' (by nlinarith [sq_nonneg ‖(u - p) - (v - q)‖]) (norm_nonneg _) |>.2
  · exact abs_le_of_sq_le_sq' (by nlinarith [sq_nonneg ‖p - q‖]) (norm_nonneg _) |>.2

end ball

/-- a matrix as a vector of its entries -/
noncomputable def matVec (A : Mat n) : EuclideanSpace ℝ (Fin n × Fin n) := WithLp.toLp 2 fun p => A p.1 p.2

theorem matVec_norm (A B : Mat n) : ‖matVec A - matVec B‖ = dist2 A B := by
  rw [EuclideanSpace.norm_eq]
  unfold dist2 frob
  congr 1
  rw [Fintype.sum_prod_type]
  simp [matVec, sq_abs]

theorem spec_matVec (lamda : ℝ) (X Y : Mat n) :
    matVec (smoothSpec lamda Y X) = matVec X + ballPoint lamda (matVec Y - matVec X) := by
  unfold smoothSpec ballPoint
  rw [matVec_norm]
  have hc : dist2 Y X = dist2 X Y := by rw [← matVec_norm, ← matVec_norm, norm_sub_rev]
  rw [hc]
  split
  · abel
  · ext p
    simp [matVec]

theorem spec_step_le {lamda : ℝ} (hl : 0 ≤ lamda) (X Y X' Y' : Mat n) :
    dist2 (smoothSpec lamda Y X) (smoothSpec lamda Y' X') ≤ dist2 Y Y' + dist2 X X' := by
  rw [← matVec_norm, ← matVec_norm, ← matVec_norm, spec_matVec, spec_matVec]
  set x := matVec X
  set y := matVec Y
  set x' := matVec X'
  set y' := matVec Y'
  have h1 := (ballPoint_firm hl (y - x') (y' - x')).1
  have h2 := (ballPoint_firm hl (y - x) (y - x')).2
  have e1 : (y - x') - (y' - x') = y - y' := by abel
  have e2 : (y - x) - (y - x') = -(x - x') := by abel
  rw [e1] at h1
  rw [e2, norm_neg] at h2
  have e : x + ballPoint lamda (y - x) - (x' + ballPoint lamda (y' - x'))
      = (ballPoint lamda (y - x') - ballPoint lamda (y' - x'))
        - ((y - x - ballPoint lamda (y - x)) - (y - x' - ballPoint lamda (y - x'))) := by abel
  rw [e]
  exact (norm_sub_le _ _).trans (add_le_add h1 h2)

/-- The smoothed covariances depend continuously on the unsmoothed ones: they differ by no more than the errors made so far add up to,
whatever `lamda` is. -/
theorem C186_stable {lamda : ℝ} (hl : 0 ≤ lamda) {T : ℕ} {X Y X' Y' : ℕ → Mat n} (hY : L1Smoothed lamda T X Y)
    (hY' : L1Smoothed lamda T X' Y') (t : ℕ) (ht : t ≤ T) :
    dist2 (Y t) (Y' t) ≤ ∑ s ∈ Finset.range (t + 1), dist2 (X s) (X' s) := by
  rw [smoothed_eq hl hY t ht, smoothed_eq hl hY' t ht]
  clear ht
  induction t with
  | zero => simp [smoothSeq]
  | succ t ih =>
    rw [smoothSeq, smoothSeq, Finset.sum_range_succ]
    exact (spec_step_le hl _ _ _ _).trans (by linarith)

/-- Normalised regrets: the cell fails with `KeyError` without a series of that name; otherwise every series gets its average divided by
that of `No smoothing`, which itself gets 1 (if its average is a number other than zero). A series without any value gets nan, and if `No smoothing` is such a series all do. -/
theorem C186_normalised (regrets : Dict String (List (Option ℝ))) :
    (regrets.lookup "No smoothing" = none → normalisedRegrets regrets = .error .keyError) ∧
    ∀ base, regrets.lookup "No smoothing" = some base → ∃ out, normalisedRegrets regrets = .ok out ∧
      out.map Prod.fst = regrets.map Prod.fst ∧
      (∀ name vs, regrets.lookup name = some vs → (∀ v ∈ vs, v = none) → out.lookup name = some .nan) ∧
      ((∀ v ∈ base, v = none) → ∀ name vs, regrets.lookup name = some vs → out.lookup name = some .nan) ∧
      ∀ b, nanMean base = some b → b ≠ 0 → (out.lookup "No smoothing" = some (.fin 1)) ∧
        ∀ name vs m, regrets.lookup name = some vs → nanMean vs = some m → out.lookup name = some (.fin (m / b)) := by
  have hlk : ∀ {A B : Type} (f : A → B) (d : Dict String A) (k : String),
      (d.map fun p => (p.1, f p.2)).lookup k = (d.lookup k).map f := by
    intro A B f d k
    induction d with
    | nil => rfl
    | cons p d ih =>
      obtain ⟨a, x⟩ := p
      simp only [List.map_cons, List.lookup_cons]
      split <;> simp_all
  have hnone : ∀ vs : List (Option ℝ), (∀ v ∈ vs, v = none) → seriesMean vs = .nan := by
    intro vs hv
    have : vs.filterMap id = [] := List.filterMap_eq_nil_iff.2 fun v h => hv v h
    unfold seriesMean nanMean
    rw [this]
    rfl
  unfold normalisedRegrets getItem
  refine ⟨fun h => ?_, fun base h => ?_⟩
  · simp only [hlk, h, Option.map_none]
    rfl
  · simp only [hlk, h, Option.map_some]
    refine ⟨_, rfl, ?_, fun name vs hv hn => ?_, fun hn name vs hv => ?_, fun b hb hb0 => ?_⟩
    · rw [List.map_map, List.map_map]
      rfl
    · rw [hlk (fun x => x / seriesMean base), hlk seriesMean, hv, Option.map_some, Option.map_some, hnone vs hn, XR.nan_div]
    · rw [hlk (fun x => x / seriesMean base), hlk seriesMean, hv, Option.map_some, Option.map_some, hnone base hn, XR.div_nan]
    · have hall : ∀ name vs m, regrets.lookup name = some vs → nanMean vs = some m →
          (List.map (fun p : String × XR => (p.1, p.2 / seriesMean base)) (List.map (fun p => (p.1, seriesMean p.2)) regrets)).lookup name
            = some (.fin (m / b)) := by
        intro name vs m hv hm
        rw [hlk (fun x => x / seriesMean base), hlk seriesMean, hv]
        simp only [Option.map_some, seriesMean, hb, hm]
        rw [XR.fin_div hb0]
      refine ⟨?_, hall⟩
      have := hall _ _ _ h hb
      rw [div_self hb0] at this
      exact this

/-! The sequence `1, 1/2, 5` of variances of one asset, smoothed with `lamda = 1`. -/
namespace RatesEx

/-- the variances -/
noncomputable def var : ℕ → ℝ
  | 0 => 1
  | 1 => 1 / 2
  | _ => 5

/-- the covariances -/
noncomputable def cov (t : ℕ) : Mat 1 := Matrix.diagonal fun _ => var t

private theorem d1 (A B : Mat 1) : dist2 A B = |A 0 0 - B 0 0| := by
  simp [dist2, frob, Real.sqrt_sq_eq_abs]

/-- One of the two days brings a change: the frequency is 1/2, and there is a change every two days. -/
example : ∃ (Y : ℕ → Mat 1) (u : List ℕ),
    l1Smoothing lineSolver ((List.range 3).map fun i : ℕ => (i, cov i)) 1
      = .ok ((List.range 3).map (fun i => (i, Y i)), u) ∧
    meanDaysBetweenUpdates [u] = [.fin 1, .fin (1 / 2)] ∧
    meanUpdatesEvery (meanDaysBetweenUpdates [u]) = [.fin 1, .fin 2] := by
  obtain ⟨Y, u, h, hY, h1, h2, -⟩ := C186_frequency (T := 2) (lineSolver_exact (n := 1)) lineSolver_complete (zero_le_one (α := ℝ))
    two_pos id (X := cov) (fun t _ => Matrix.PosSemidef.diagonal fun _ => by
      rcases t with _ | _ | t <;> norm_num [var])
  have hs := (C135_shape zero_le_one hY).2.1
  have h0 : Y 0 0 0 = 1 := by rw [hY.1]; simp [cov, var]
  have e0 := hs 0 (by norm_num)
  rw [d1, d1, h0] at e0
  norm_num [cov, var, abs_of_neg] at e0
  have hY1 : Y 1 = Y 0 := by
    ext i j
    fin_cases i; fin_cases j
    show Y 1 0 0 = Y 0 0 0
    linarith [h0]
  have e1 := hs 1 (by norm_num)
  rw [d1, d1, hY1, h0] at e1
  norm_num [cov, var] at e1
  have hY2 : Y 2 ≠ Y 1 := by
    intro he
    rw [he, hY1, h0] at e1
    norm_num at e1
  have hc : changes 2 Y = 1 := by
    classical
    unfold changes
    rw [show Finset.range 2 = {0, 1} from rfl, Finset.filter_insert, if_neg (by simp [hY1]), Finset.filter_singleton,
      if_pos hY2]
    rfl
  refine ⟨Y, u, h, ?_, ?_⟩
  · rw [h1, hc]; norm_num
  · rw [h2, hc]; norm_num

example : normalisedRegrets [("No smoothing", [some 2, none]), ("0.1", [some 1, some 2])]
    = .ok [("No smoothing", .fin 1), ("0.1", .fin (3 / 4))] := by
  have h1 : seriesMean [some 2, none] = .fin 2 := by
    have : nanMean [some 2, none] = some 2 := by
      show (if ([2] : List ℝ).length = 0 then none else some (([2] : List ℝ).sum / (([2] : List ℝ).length : ℝ))) = some 2
      norm_num
    simp [seriesMean, this]
  have h2 : seriesMean [some 1, some 2] = .fin (3 / 2) := by
    have : nanMean [some 1, some 2] = some (3 / 2) := by
      show (if ([1, 2] : List ℝ).length = 0 then none else some (([1, 2] : List ℝ).sum / (([1, 2] : List ℝ).length : ℝ))) = some (3 / 2)
      norm_num
    simp [seriesMean, this]
  show Except.ok [(_, seriesMean [some 2, none] / seriesMean [some 2, none]), (_, seriesMean [some 1, some 2] / seriesMean [some 2, none])] = _
  rw [h1, h2, XR.fin_div two_ne_zero, XR.fin_div two_ne_zero]
  norm_num

end RatesEx
end CovPred
