import Verif.Lemmas.VarSeq
import Verif.Props.Examples
import Verif.Lemmas.Inv
import Mathlib.Algebra.BigOperators.Field
import Mathlib.Algebra.Order.BigOperators.Ring.Finset

/-
Properties of `iterated_ewma` on data without infinities
(C03, C04, C05, C07, C10, C17, C18, C19, C57).
-/
set_option linter.unusedSectionVars false
namespace CovPred
open XR

variable {τ ι : Type} [DecidableEq τ] [Ix ι]

/-! ### C57: functional correctness -/

/-- `iterated_ewma` computes the specified predictions (`Verif.Spec.Iewma`): an `IndexError` if no row is usable,
otherwise one result per usable row after the first `min_periods_cov - 1`. -/
theorem C57_functional_correctness [Nonempty ι] {f : Frame τ ι XR} {a : RealArgs} (ha : a.Valid) {T : ℕ} {tm : ℕ → τ}
    (hd : DistinctTimes T tm) {x : ℕ → ι → ℝ} (hf : Represents f a.nanToNum T tm x) :
    iteratedEwma f a.toArgs =
      if live a T x = [] then .error .indexError
      else .ok ((rowsFrom a.minPeriodsCov (live a T x).length).map (itemAt a T tm x)) :=
  iteratedEwma_spec ha hd hf

example : ∃ rs, iteratedEwma Ex.frame Ex.args.toArgs = .ok rs ∧ rs.length = 2 := ⟨_, Ex.run, rfl⟩

theorem results_of_ok [Nonempty ι] {f : Frame τ ι XR} {a : RealArgs} (ha : a.Valid) {T : ℕ} {tm : ℕ → τ}
    (hd : DistinctTimes T tm) {x : ℕ → ι → ℝ} (hf : Represents f a.nanToNum T tm x) {rs : List (IEWMA τ ι XR)}
    (h : iteratedEwma f a.toArgs = .ok rs) :
    live a T x ≠ [] ∧ rs = (rowsFrom a.minPeriodsCov (live a T x).length).map (itemAt a T tm x) := by
  rw [iteratedEwma_spec ha hd hf] at h
  by_cases hl : live a T x = []
  · rw [if_pos hl] at h; cases h
  · rw [if_neg hl] at h; cases h; exact ⟨hl, rfl⟩

theorem item_of_mem [Nonempty ι] {f : Frame τ ι XR} {a : RealArgs} (ha : a.Valid) {T : ℕ} {tm : ℕ → τ}
    (hd : DistinctTimes T tm) {x : ℕ → ι → ℝ} (hf : Represents f a.nanToNum T tm x) {rs : List (IEWMA τ ι XR)}
    (h : iteratedEwma f a.toArgs = .ok rs) {r : IEWMA τ ι XR} (hr : r ∈ rs) :
    ∃ j < (live a T x).length, a.minPeriodsCov - 1 ≤ (j : Int) ∧ r = itemAt a T tm x j := by
  obtain ⟨_, rfl⟩ := results_of_ok ha hd hf h
  obtain ⟨j, hj, rfl⟩ := List.mem_map.mp hr
  exact ⟨j, (mem_rowsFrom.mp hj).1, (mem_rowsFrom.mp hj).2, rfl⟩

/-! ### C03: which rows get a result -/

theorem mem_live {a : RealArgs} {T : ℕ} {x : ℕ → ι → ℝ} {t : ℕ} :
    t ∈ live a T x ↔ t < T ∧ a.minPeriodsVola - 1 ≤ (t : Int) ∧ ∃ i, ¬ (vol a x t i = 0 ∧ cRet a x t i = 0) := by
  simp [live]

theorem rowsFrom_eq_drop (m : Int) (n : ℕ) : rowsFrom m n = (List.range n).drop (m - 1).toNat := by
  unfold rowsFrom
  induction n with
  | zero => simp
  | succ n ih =>
    rw [List.range_succ, List.filter_append, ih, List.drop_append]
    congr 1
    simp only [List.length_range]
    by_cases h : m - 1 ≤ (n : Int)
    · have : (m - 1).toNat - n = 0 := by omega
      rw [this, List.filter_eq_self.mpr (by simpa using h), List.drop_zero]
    · obtain ⟨k, hk⟩ : ∃ k, (m - 1).toNat - n = k + 1 := ⟨(m - 1).toNat - n - 1, by omega⟩
      rw [hk, List.drop_succ_cons, List.drop_nil]
      simp only [List.filter_cons, List.filter_nil, h, decide_false, Bool.false_eq_true, if_false]

theorem map_range_getD (S : List ℕ) : (List.range S.length).map (fun j => S.getD j 0) = S := by
  apply List.ext_getElem
  · simp
  · intro n h1 h2; simp [h2]

theorem volSq_zero_iff {a : RealArgs} (ha : a.Valid) (x : ℕ → ι → ℝ) (t : ℕ) (i : ι) :
    vol a x t i = 0 ↔
      ∀ k ≤ t, (a.clip = none ∨ (k : Int) ≤ a.minPeriodsVola ∨ k = 0) → cRet a x k i = 0 := by
  rw [vol_eq_zero ha]
  unfold volSq
  rw [varSeq_eq_zero_iff (decayOf_pos _) (decayOf_lt_one ha.vola) _ _ (fun k => sq_nonneg _)]
  simp only [pow_eq_zero_iff (two_ne_zero)]

/-- The rows in which some asset carries information: its centred return in that row, or in an earlier row that
entered its volatility unclipped, is not zero. -/
def Informative (a : RealArgs) (x : ℕ → ι → ℝ) (t : ℕ) : Prop :=
  ∃ i, cRet a x t i ≠ 0 ∨ ∃ k ≤ t, (a.clip = none ∨ (k : Int) ≤ a.minPeriodsVola ∨ k = 0) ∧ cRet a x k i ≠ 0

open Classical in
/-- The yielded times, in order: the informative rows from `min_periods_vola - 1` on without the first
`min_periods_cov - 1` of them.  If there is no informative row the code raises `IndexError`. -/
theorem C03_times [Nonempty ι] {f : Frame τ ι XR} {a : RealArgs} (ha : a.Valid) {T : ℕ} {tm : ℕ → τ}
    (hd : DistinctTimes T tm) {x : ℕ → ι → ℝ} (hf : Represents f a.nanToNum T tm x) :
    (iteratedEwma f a.toArgs).map (List.map IEWMA.time) =
      let rows := (List.range T).filter fun t : ℕ => decide (a.minPeriodsVola - 1 ≤ (t : Int) ∧ Informative a x t)
      if rows = [] then .error .indexError
      else .ok ((rows.drop (a.minPeriodsCov - 1).toNat).map tm) := by
  have hrows : live a T x =
      (List.range T).filter fun t : ℕ => decide (a.minPeriodsVola - 1 ≤ (t : Int) ∧ Informative a x t) := by
    unfold live
    apply List.filter_congr
    intro t _
    rw [decide_eq_decide]
    apply and_congr_right
    intro _
    unfold Informative
    apply exists_congr
    intro i
    rw [volSq_zero_iff ha]
    constructor
    · intro h
      by_contra hcon
      push Not at hcon
      exact h ⟨fun k hk hc => hcon.2 k hk hc, hcon.1⟩
    · rintro (h | ⟨k, hk, hc, h⟩) ⟨h1, h2⟩
      · exact h h2
      · exact h (h1 k hk hc)
  simp only [← hrows]
  rw [iteratedEwma_spec ha hd hf]
  by_cases hl : live a T x = []
  · rw [if_pos hl, if_pos hl]; rfl
  · rw [if_neg hl, if_neg hl]
    simp only [Except.map]
    congr 1
    have := congrArg (List.drop (a.minPeriodsCov - 1).toNat) (map_range_getD (live a T x))
    rw [List.map_map, rowsFrom_eq_drop, ← this, ← List.map_drop, List.map_map]
    rfl

/-- Simple case: zero-mean mode and some non-zero return in every row. Then the first result is for row
`(min_periods_vola - 1)⁺ + (min_periods_cov - 1)⁺` and every later row has one. -/
theorem C03_times_simple [Nonempty ι] {f : Frame τ ι XR} {a : RealArgs} (ha : a.Valid) {T : ℕ} {tm : ℕ → τ}
    (hd : DistinctTimes T tm) {x : ℕ → ι → ℝ} (hf : Represents f a.nanToNum T tm x) (hm : a.mean = false)
    (hx : ∀ t < T, ∃ i, x t i ≠ 0) (hT : (a.minPeriodsVola - 1).toNat < T) :
    (iteratedEwma f a.toArgs).map (List.map IEWMA.time) =
      .ok (((List.range T).drop ((a.minPeriodsVola - 1).toNat + (a.minPeriodsCov - 1).toNat)).map tm) := by
  classical
  rw [C03_times ha hd hf]
  have hrows : (List.range T).filter (fun t : ℕ => decide (a.minPeriodsVola - 1 ≤ (t : Int) ∧ Informative a x t)) =
      (List.range T).drop (a.minPeriodsVola - 1).toNat := by
    rw [← rowsFrom_eq_drop]
    unfold rowsFrom
    apply List.filter_congr
    intro t ht
    rw [decide_eq_decide]
    constructor
    · exact fun h => h.1
    · intro h
      obtain ⟨i, hi⟩ := hx t (List.mem_range.mp ht)
      exact ⟨h, i, Or.inl (by simpa [cRet, muOf, hm] using hi)⟩
  simp only [hrows, List.drop_drop]
  rw [if_neg]
  intro h
  have := congrArg List.length h
  simp at this
  omega

example : (iteratedEwma Ex.frame Ex.args.toArgs).map (List.map IEWMA.time) = .ok [1, 2] := by
  rw [Ex.run]; simp [Except.map, itemAt, Ex.live_eq]

/-! ### C05: the diagonal of the covariance -/

theorem sorted_live (a : RealArgs) (T : ℕ) (x : ℕ → ι → ℝ) : (live a T x).Pairwise (· < ·) :=
  List.Pairwise.filter _ List.pairwise_lt_range

theorem live_getD_lt {a : RealArgs} {T : ℕ} {x : ℕ → ι → ℝ} {j k : ℕ} (hk : k < (live a T x).length) (hjk : j < k) :
    (live a T x).getD j 0 < (live a T x).getD k 0 := by
  rw [getD_lt hk, getD_lt (by omega)]
  exact List.pairwise_iff_getElem.mp (sorted_live a T x) _ _ _ _ hjk

theorem covAt_zero_iff (a : RealArgs) (T : ℕ) (x : ℕ → ι → ℝ) (j : ℕ) (i : ι) :
    covAt a T x j (i, i) = 0 ↔ ∀ k ≤ j, zAt a T x k i = 0 := by
  unfold covAt
  rw [halflifeAverage_eq, emaAvg_eq_zero_iff (betaOf_pos _) (fun k _ => mul_self_nonneg _)]
  simp only [mul_self_eq_zero]

theorem adjReal_eq_zero {clp : Option ℝ} (hc : ∀ c ∈ clp, c ≠ 0) {x s : ℝ} (hs : 0 ≤ s)
    (h : clp = none → s = 0 → x = 0) : adjReal clp x s = 0 ↔ x = 0 := by
  unfold adjReal
  cases clp with
  | none =>
    simp only [div_eq_zero_iff]
    exact ⟨fun h' => h'.elim id (h rfl), Or.inl⟩
  | some c =>
    have hc' : 0 < |c| := abs_pos.mpr (hc c rfl)
    simp only []
    by_cases h0 : s = 0
    · rw [if_pos h0]
      rcases lt_trichotomy x 0 with hx | hx | hx
      · simp [hx, not_lt.mpr hx.le, hx.ne, hc c rfl]
      · simp [hx]
      · simp [hx, hx.ne', hc c rfl]
    · rw [if_neg h0]
      have hs' : 0 < s := lt_of_le_of_ne hs (Ne.symm h0)
      rcases lt_trichotomy x 0 with hx | hx | hx
      · have h1 : x / s < 0 := div_neg_of_neg_of_pos hx hs'
        have : max (-|c|) (min (x / s) |c|) < 0 := max_lt (by linarith) (lt_of_le_of_lt (min_le_left _ _) h1)
        constructor
        · intro h; linarith
        · intro h; linarith
      · subst hx; simp
      · have h1 : 0 < x / s := div_pos hx hs'
        have : 0 < max (-|c|) (min (x / s) |c|) := lt_of_lt_of_le (lt_min h1 hc') (le_max_right _ _)
        constructor
        · intro h; linarith
        · intro h; linarith

/-- Every result is for some row `t ≥ min_periods_vola - 1`; for each asset the volatility is a non-negative
number and the diagonal of the covariance is exactly its square, or else the asset's whole row and column are
`nan`; an entry is `nan` only if one of its two assets is. In zero-mean mode an asset is `nan` exactly when its
returns vanish in all rows `min_periods_vola - 1, ..., t`. -/
theorem C05_diagonal [Nonempty ι] {f : Frame τ ι XR} {a : RealArgs} (ha : a.Valid) {T : ℕ} {tm : ℕ → τ}
    (hd : DistinctTimes T tm) {x : ℕ → ι → ℝ} (hf : Represents f a.nanToNum T tm x) {rs : List (IEWMA τ ι XR)}
    (h : iteratedEwma f a.toArgs = .ok rs) {r : IEWMA τ ι XR} (hr : r ∈ rs) :
    ∃ t < T, r.time = tm t ∧ a.minPeriodsVola - 1 ≤ (t : Int) ∧ ∀ i,
      (∃ v : ℝ, 0 ≤ v ∧ r.volatility i = fin v ∧
        (r.covariance (i, i) = fin (v ^ 2) ∨ ∀ j, r.covariance (i, j) = nan ∧ r.covariance (j, i) = nan)) ∧
      (∀ j, r.covariance (i, j) = nan → r.covariance (i, i) = nan ∨ r.covariance (j, j) = nan) ∧
      (a.mean = false →
        (r.covariance (i, i) = nan ↔ ∀ k ≤ t, a.minPeriodsVola - 1 ≤ (k : Int) → x k i = 0)) := by
  obtain ⟨j, hj, _, rfl⟩ := item_of_mem ha hd hf h hr
  have hmem := liveRows_getD_mem hj
  obtain ⟨hlt, hge, _⟩ := mem_live.mp hmem
  have hnan : ∀ i, (itemAt a T tm x j).covariance (i, i) = nan ↔ covAt a T x j (i, i) = 0 := by
    intro i
    simp only [itemAt, Arr.get_ofFn, sigmaAt]
    by_cases hz : covAt a T x j (i, i) = 0
    · simp [hz]
    · simp [hz]
  refine ⟨_, hlt, rfl, hge, fun i => ⟨⟨vol a x ((live a T x).getD j 0) i, Real.sqrt_nonneg _,
    by simp [itemAt, finRow], ?_⟩, ?_, ?_⟩⟩
  · by_cases hz : covAt a T x j (i, i) = 0
    · right
      intro k
      simp [itemAt, sigmaAt, hz]
    · left
      have hp : Real.sqrt (covAt a T x j (i, i)) ≠ 0 := fun e =>
        hz ((Real.sqrt_eq_zero (covAt_self_nonneg a T x j i)).mp e)
      simp only [itemAt, Arr.get_ofFn, sigmaAt, hz, or_self, if_false, fin_inj]
      rw [Real.mul_self_sqrt (covAt_self_nonneg a T x j i), div_self hz]
      ring
  · intro k hk
    rw [hnan, hnan]
    simp only [itemAt, Arr.get_ofFn, sigmaAt] at hk
    by_contra hcon
    rw [if_neg hcon] at hk
    cases hk
  · intro hm
    rw [hnan, covAt_zero_iff]
    have hz : ∀ k, zAt a T x k i = 0 ↔ x ((live a T x).getD k 0) i = 0 := by
      intro k
      have : zAt a T x k i = adjAt a T x k i := by simp [zAt, muOf, hm]
      rw [this]
      unfold adjAt
      rw [adjReal_eq_zero a.clip_ne (show 0 ≤ vol a x _ i from Real.sqrt_nonneg _)
        (fun hc => vol_zero_ret ha x hc _ i)]
      simp [cRet, muOf, hm]
    simp only [hz]
    constructor
    · intro hall k hk hkm
      by_contra hne
      have hkl : k ∈ live a T x := mem_live.mpr ⟨by omega, hkm, i, fun hh => hne (by simpa [cRet, muOf, hm] using hh.2)⟩
      obtain ⟨n, hn, rfl⟩ := List.getElem_of_mem hkl
      have hnj : n ≤ j := by
        by_contra hcon
        have := live_getD_lt hn (not_le.mp hcon)
        rw [getD_lt hn] at this
        omega
      have := hall n hnj
      rw [getD_lt hn] at this
      exact hne this
    · intro hall k hk
      have hk' : k < (live a T x).length := by omega
      apply hall
      · rcases Nat.lt_or_eq_of_le hk with hlt | heq
        · exact (live_getD_lt hj hlt).le
        · rw [heq]
      · exact (mem_live.mp (liveRows_getD_mem hk')).2.1

example : itemAt Ex.args 3 id Ex.x 2 ∈ [itemAt Ex.args 3 id Ex.x 1, itemAt Ex.args 3 id Ex.x 2] ∧
    iteratedEwma Ex.frame Ex.args.toArgs = .ok [itemAt Ex.args 3 id Ex.x 1, itemAt Ex.args 3 id Ex.x 2] :=
  ⟨by simp, Ex.run⟩

/-! ### C07: positive semidefinite -/

theorem covAt_quad [Fintype ι] (a : RealArgs) (T : ℕ) (x : ℕ → ι → ℝ) (j : ℕ) (u : ι → ℝ) :
    ∑ i, ∑ k, u i * u k * covAt a T x j (i, k) =
      halflifeAverage a.covHalflife (fun n => (∑ i, u i * zAt a T x n i) ^ 2) j := by
  unfold covAt
  simp only [halflifeAverage, mul_div_assoc', ← Finset.sum_div]
  congr 1
  simp only [Finset.mul_sum]
  rw [show (∑ i, ∑ k, ∑ n ∈ Finset.range (j + 1), u i * u k *
      ((2 : ℝ) ^ (-((j - n : ℕ) : ℝ) / a.covHalflife) * (zAt a T x n i * zAt a T x n k))) =
      ∑ n ∈ Finset.range (j + 1), ∑ i, ∑ k, u i * u k *
      ((2 : ℝ) ^ (-((j - n : ℕ) : ℝ) / a.covHalflife) * (zAt a T x n i * zAt a T x n k)) by
    rw [Finset.sum_comm]
    rw [Finset.sum_comm]
    simp_rw [Finset.sum_comm (s := Finset.univ) (t := Finset.range (j + 1))]]
  apply Finset.sum_congr rfl
  intro n _
  rw [pow_two, Finset.sum_mul_sum, Finset.mul_sum]
  apply Finset.sum_congr rfl
  intro i _
  rw [Finset.mul_sum]
  apply Finset.sum_congr rfl
  intro k _
  ring

theorem covAt_quad_nonneg [Fintype ι] (a : RealArgs) (T : ℕ) (x : ℕ → ι → ℝ) (j : ℕ) (u : ι → ℝ) :
    0 ≤ ∑ i, ∑ k, u i * u k * covAt a T x j (i, k) := by
  rw [covAt_quad, halflifeAverage_eq]
  exact emaAvg_nonneg (betaOf_pos _) fun _ _ => sq_nonneg _

/-- Every covariance is positive semidefinite on the assets that are not `nan`. -/
theorem C07_psd [Nonempty ι] [Fintype ι] {f : Frame τ ι XR} {a : RealArgs} (ha : a.Valid) {T : ℕ} {tm : ℕ → τ}
    (hd : DistinctTimes T tm) {x : ℕ → ι → ℝ} (hf : Represents f a.nanToNum T tm x) {rs : List (IEWMA τ ι XR)}
    (h : iteratedEwma f a.toArgs = .ok rs) {r : IEWMA τ ι XR} (hr : r ∈ rs) (w : ι → ℝ)
    (hw : ∀ i, r.covariance (i, i) = nan → w i = 0) :
    0 ≤ ∑ i, ∑ j, w i * w j * (r.covariance (i, j)).toReal := by
  obtain ⟨j, hj, _, rfl⟩ := item_of_mem ha hd hf h hr
  have key : ∀ i k, w i * w k * ((itemAt a T tm x j).covariance (i, k)).toReal =
      (w i * vol a x ((live a T x).getD j 0) i / Real.sqrt (covAt a T x j (i, i))) *
      (w k * vol a x ((live a T x).getD j 0) k / Real.sqrt (covAt a T x j (k, k))) * covAt a T x j (i, k) := by
    intro i k
    simp only [itemAt, Arr.get_ofFn, sigmaAt]
    by_cases hz : covAt a T x j (i, i) = 0
    · have := hw i (by simp [itemAt, sigmaAt, hz])
      simp [this]
    · by_cases hz' : covAt a T x j (k, k) = 0
      · have := hw k (by simp [itemAt, sigmaAt, hz'])
        simp [this]
      · have hp : Real.sqrt (covAt a T x j (i, i)) ≠ 0 := fun e =>
          hz ((Real.sqrt_eq_zero (covAt_self_nonneg a T x j i)).mp e)
        have hp' : Real.sqrt (covAt a T x j (k, k)) ≠ 0 := fun e =>
          hz' ((Real.sqrt_eq_zero (covAt_self_nonneg a T x j k)).mp e)
        simp only [hz, hz', or_self, if_false, XR.toReal]
        field_simp
  simp only [key]
  exact covAt_quad_nonneg a T x j _

theorem emaAvg_cauchy {b : ℝ} (h0 : 0 < b) (u v : ℕ → ℝ) (t : ℕ) :
    emaAvg b (fun k => u k * v k) t ^ 2 ≤ emaAvg b (fun k => u k * u k) t * emaAvg b (fun k => v k * v k) t := by
  unfold emaAvg
  rw [div_pow, div_mul_div_comm, ← pow_two]
  apply div_le_div_of_nonneg_right _ (sq_nonneg _)
  have := Finset.sum_mul_sq_le_sq_mul_sq (Finset.range (t + 1)) (fun k => Real.sqrt (b ^ (t - k)) * u k)
    (fun k => Real.sqrt (b ^ (t - k)) * v k)
  have e : ∀ p q : ℕ → ℝ, ∑ k ∈ Finset.range (t + 1), Real.sqrt (b ^ (t - k)) * p k * (Real.sqrt (b ^ (t - k)) * q k) =
      ∑ k ∈ Finset.range (t + 1), b ^ (t - k) * (p k * q k) := by
    intro p q
    apply Finset.sum_congr rfl
    intro k _
    have : Real.sqrt (b ^ (t - k)) * Real.sqrt (b ^ (t - k)) = b ^ (t - k) := Real.mul_self_sqrt (pow_nonneg h0.le _)
    calc _ = (Real.sqrt (b ^ (t - k)) * Real.sqrt (b ^ (t - k))) * (p k * q k) := by ring
      _ = _ := by rw [this]
  simp only [pow_two] at this ⊢
  rw [e u v, e u u, e v v] at this
  exact this

/-- Correlations are between -1 and 1. -/
theorem C07_correlation_bound [Nonempty ι] {f : Frame τ ι XR} {a : RealArgs} (ha : a.Valid) {T : ℕ} {tm : ℕ → τ}
    (hd : DistinctTimes T tm) {x : ℕ → ι → ℝ} (hf : Represents f a.nanToNum T tm x) {rs : List (IEWMA τ ι XR)}
    (h : iteratedEwma f a.toArgs = .ok rs) {r : IEWMA τ ι XR} (hr : r ∈ rs) (i k : ι) {c u v : ℝ}
    (hc : r.covariance (i, k) = fin c) (hu : r.volatility i = fin u) (hv : r.volatility k = fin v) :
    |c| ≤ u * v := by
  obtain ⟨j, hj, _, rfl⟩ := item_of_mem ha hd hf h hr
  simp only [itemAt, finRow, Arr.get_ofFn, fin_inj] at hu hv
  subst hu hv
  simp only [itemAt, Arr.get_ofFn, sigmaAt] at hc
  by_cases hz : covAt a T x j (i, i) = 0 ∨ covAt a T x j (k, k) = 0
  · rw [if_pos hz] at hc; cases hc
  rw [if_neg hz] at hc
  simp only [fin_inj] at hc
  subst hc
  push Not at hz
  have hi := lt_of_le_of_ne (covAt_self_nonneg a T x j i) (Ne.symm hz.1)
  have hk := lt_of_le_of_ne (covAt_self_nonneg a T x j k) (Ne.symm hz.2)
  have hvi : 0 ≤ vol a x ((live a T x).getD j 0) i := Real.sqrt_nonneg _
  have hvk : 0 ≤ vol a x ((live a T x).getD j 0) k := Real.sqrt_nonneg _
  rw [abs_mul, abs_of_nonneg (mul_nonneg hvi hvk)]
  apply mul_le_of_le_one_right (mul_nonneg hvi hvk)
  rw [abs_div, abs_of_pos (mul_pos (Real.sqrt_pos.mpr hi) (Real.sqrt_pos.mpr hk)),
    div_le_one (mul_pos (Real.sqrt_pos.mpr hi) (Real.sqrt_pos.mpr hk)), ← Real.sqrt_mul hi.le]
  apply Real.abs_le_sqrt
  have := emaAvg_cauchy (betaOf_pos a.covHalflife) (fun n => zAt a T x n i) (fun n => zAt a T x n k) j
  simpa only [covAt, halflifeAverage_eq] using this

/-! ### C10: `nan` returns count as zero returns -/

/-- For every frame (also with infinities): with `nan_to_num=True` the run equals the run on the frame with every
`nan` replaced by 0, with or without `nan_to_num`. -/
theorem C10_nan_is_zero (f : Frame τ ι XR) (a : IewmaArgs XR) (h : a.nanToNum = true) (b : Bool) :
    iteratedEwma f a = iteratedEwma
      (f.map fun p => (p.1, Arr.ofFn fun i => if Scalar.isNaN (p.2 i) then 0 else p.2 i)) { a with nanToNum := b } :=
  iteratedEwma_fillna0 f a h b

example : ∃ a : IewmaArgs XR, a.nanToNum = true ∧ Ex.frame.hasNaN = true := by
  refine ⟨Ex.args.toArgs, rfl, ?_⟩
  unfold Frame.hasNaN
  rw [List.any_eq_true]
  refine ⟨_, List.mem_map.mpr ⟨1, by simp, rfl⟩, ?_⟩
  rw [Bool.not_eq_true', Bool.eq_false_iff, Ne, Arr.all_iff]
  intro hh
  have := hh 1
  simp at this

/-! ### C17: the reported mean -/

/-- In zero-mean mode every reported mean is zero, whatever the data (also `nan`, infinities). -/
theorem C17_mean_zero (f : Frame τ ι XR) (a : IewmaArgs XR) (hm : a.mean = false) {rs : List (IEWMA τ ι XR)}
    (h : iteratedEwma f a = .ok rs) : ∀ r ∈ rs, ∀ i, r.mean i = 0 := by
  obtain ⟨_, _, _, _, _, _, _, _, _, _, hall⟩ := iteratedEwma_inv h
  intro r hr i
  obtain ⟨p, _, hp⟩ := forall₂_mem_right hall hr
  obtain ⟨_, _, _, _, _, hz, _⟩ := iewmaItem_inv hp
  rw [hz hm, Arr.get_ofFn]

/-- With `mean=True` the reported mean at row `t` (the `j`-th usable row) is the half-life average of the returns
plus volatility times the half-life average of the clipped volatility-adjusted returns. -/
theorem C17_mean [Nonempty ι] {f : Frame τ ι XR} {a : RealArgs} (ha : a.Valid) (hm : a.mean = true)
    {T : ℕ} {tm : ℕ → τ} (hd : DistinctTimes T tm) {x : ℕ → ι → ℝ} (hf : Represents f a.nanToNum T tm x)
    {rs : List (IEWMA τ ι XR)} (h : iteratedEwma f a.toArgs = .ok rs) {r : IEWMA τ ι XR} (hr : r ∈ rs) :
    ∃ j < (live a T x).length, ∃ t, (live a T x)[j]? = some t ∧ r.time = tm t ∧ ∀ i, ∃ v : ℝ, r.volatility i = fin v ∧
      r.mean i = fin (halflifeAverage (orElse a.muHalflife1 a.volaHalflife) (fun k => x k i) t +
        v * halflifeAverage (orElse a.muHalflife2 a.covHalflife) (fun k => adjAt a T x k i) j) := by
  obtain ⟨j, hj, _, rfl⟩ := item_of_mem ha hd hf h hr
  refine ⟨j, hj, (live a T x).getD j 0, by simp [hj], rfl, fun i => ⟨vol a x ((live a T x).getD j 0) i,
    by simp [itemAt, finRow], ?_⟩⟩
  simp [itemAt, finRow, meanAt, hm, muOf, RealArgs.mu1h, RealArgs.mu2h]

/-! ### C18: shift invariance -/

theorem halflifeAverage_shift {h : ℝ} (x : ℕ → ℝ) (v : ℝ) (t : ℕ) :
    halflifeAverage h (fun k => x k + v) t = halflifeAverage h x t + v := by
  rw [halflifeAverage_eq, halflifeAverage_eq, emaAvg_add, emaAvg_const (betaOf_pos h)]

/-- With `mean=True`, adding a constant vector to all returns changes only the reported means, by that vector. -/
theorem C18_shift [Nonempty ι] {f g : Frame τ ι XR} {a : RealArgs} (ha : a.Valid) (hm : a.mean = true)
    {T : ℕ} {tm : ℕ → τ} (hd : DistinctTimes T tm) {x : ℕ → ι → ℝ} (v : ι → ℝ)
    (hf : Represents f false T tm x) (hg : Represents g false T tm fun t i => x t i + v i) :
    iteratedEwma g a.toArgs = (iteratedEwma f a.toArgs).map
      (List.map fun r => { r with mean := Arr.ofFn fun i => r.mean i + fin (v i) }) := by
  have weak : ∀ {f : Frame τ ι XR} {y : ℕ → ι → ℝ}, Represents f false T tm y → Represents f a.nanToNum T tm y := by
    rintro f y ⟨R, rfl, hR⟩
    exact ⟨R, rfl, fun t ht i => (hR t ht i).imp id fun h => by cases h.1⟩
  rw [iteratedEwma_spec ha hd (weak hf), iteratedEwma_spec ha hd (weak hg)]
  have hc : cRet a (fun t i => x t i + v i) = cRet a x := by
    funext t i
    simp only [cRet, muOf, hm, if_true]
    rw [halflifeAverage_shift (fun k => x k i) (v i) t]
    ring
  have hvol : vol a (fun t i => x t i + v i) = vol a x := by
    funext t i; simp only [vol, volSq, hc]
  have hlive : live a T (fun t i => x t i + v i) = live a T x := by
    unfold live
    rw [hc, hvol]
  have hadj : adjAt a T (fun t i => x t i + v i) = adjAt a T x := by
    funext j i; simp only [adjAt, hc, hvol, hlive]
  have hz : zAt a T (fun t i => x t i + v i) = zAt a T x := by
    funext j i; simp only [zAt, hadj]
  have hcov : covAt a T (fun t i => x t i + v i) = covAt a T x := by
    funext j p; simp only [covAt, hz]
  have hsig : sigmaAt a T (fun t i => x t i + v i) = sigmaAt a T x := by
    funext j p; simp only [sigmaAt, hcov, hvol, hlive]
  rw [hlive]
  by_cases hl : live a T x = []
  · rw [if_pos hl, if_pos hl]; rfl
  · rw [if_neg hl, if_neg hl]
    simp only [Except.map]
    rw [List.map_map]
    congr 1
    apply List.map_congr_left
    intro j _
    simp only [Function.comp, itemAt, hsig, hlive, hvol]
    congr 1
    ext i
    simp only [finRow, Arr.get_ofFn, fin_add, fin_inj, meanAt, hm, if_true, muOf, hlive, hvol, hadj]
    rw [halflifeAverage_shift (fun k => x k i) (v i) _]
    ring

example (v : Fin 2 → ℝ) : Represents (finFrame 3 id Ex.x) false 3 id Ex.x ∧
    Represents (finFrame 3 id fun t i => Ex.x t i + v i) false 3 id (fun t i => Ex.x t i + v i) ∧
    ({ Ex.args with mean := true } : RealArgs).Valid :=
  ⟨Ex.represents_fin, ⟨fun t => finRow fun i => Ex.x t i + v i, rfl, fun t _ i => Or.inl (by simp [finRow])⟩,
    ⟨Ex.valid.vola, Ex.valid.cov, Ex.valid.mu1, Ex.valid.mu2⟩⟩

/-! ### C19: zero and `None` mean the same for the optional parameters -/

/-- For every frame and all arguments, also special values. -/
theorem C19_zero_is_none (f : Frame τ ι XR) (a : IewmaArgs XR) :
    iteratedEwma f { a with clipAt := some 0 } = iteratedEwma f { a with clipAt := none } ∧
    iteratedEwma f { a with muHalflife1 := some 0 } = iteratedEwma f { a with muHalflife1 := none } ∧
    iteratedEwma f { a with muHalflife1 := some a.volaHalflife } = iteratedEwma f { a with muHalflife1 := none } ∧
    iteratedEwma f { a with muHalflife2 := some 0 } = iteratedEwma f { a with muHalflife2 := none } ∧
    iteratedEwma f { a with muHalflife2 := some a.covHalflife } = iteratedEwma f { a with muHalflife2 := none } := by
  have h0 : Scalar.truthy (some (0 : XR)) = none := by
    simp only [Scalar.truthy, zero_def]; rw [if_pos ((isZero_fin 0).mpr rfl)]
  have hn : Scalar.truthy (none : Option XR) = none := rfl
  have hself : ∀ h : XR, (Scalar.truthy (some h)).getD h = h := by
    intro h; unfold Scalar.truthy; simp only []; split <;> rfl
  refine ⟨?_, ?_, ?_, ?_, ?_⟩
  · have hv : ∀ g : Frame τ ι XR, volatility g a.volaHalflife a.minPeriodsVola (some 0) =
        volatility g a.volaHalflife a.minPeriodsVola none := by
      intro g; rw [volatility_truthy, h0]
    have hcl : ∀ g : Frame τ ι XR, clip g (some 0) = clip g none := by
      intro g; rw [clip_truthy, h0]
    simp only [iteratedEwma_steps, hv, hcl]
    rfl
  · simp only [iteratedEwma_steps, h0, hn]; rfl
  · simp only [iteratedEwma_steps, hself, hn, Option.getD_none]; rfl
  · simp only [iteratedEwma_steps, h0, hn]; rfl
  · simp only [iteratedEwma_steps, hself, hn, Option.getD_none]; rfl

end CovPred
