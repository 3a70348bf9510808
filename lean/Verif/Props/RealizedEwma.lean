import Verif.Model.RealizedEwma
import Verif.Props.Scores
import Verif.Props.EwmaVec
import Verif.Props.FactorModel

/-
Property C125: `realized_ewma`.
-/
set_option linter.unusedSectionVars false
namespace CovPred
open Matrix

variable {τ : Type} [LinearOrder τ] {n : ℕ}

/-- the loop on finite rows without clipping -/
private theorem loop_fin {κ : Type} [Ix κ] {h : ℝ} (hh : 0 < h) (times : ℕ → τ) (x : ℕ → κ → ℝ) (m : Option Int) :
    ∀ (K t : ℕ), ewmaDictLoop (XR.fin (betaOf h)) none m (t + 1) (finRow fun i => halflifeAverage h (fun s => x s i) t)
      ((List.range' (t + 1) K).map fun s => (times s, finRow (x s)))
      = ((List.range' (t + 1) K).map fun s => (times s, finRow fun i => halflifeAverage h (fun u => x u i) s), none) := by
  intro K
  induction K with
  | zero => intro t; rfl
  | succ K ih =>
    intro t
    rw [List.range'_succ, List.map_cons, List.map_cons, ewmaDictLoop]
    have h0 := betaOf_pos h
    have h1 := betaOf_lt_one hh
    have hp := (one_sub_pow_pos h0 h1 (t + 1)).ne'
    have hstep : nextEwma (finRow fun i => halflifeAverage h (fun s => x s i) t) (finRow (x (t + 1))) (t + 1 + 1)
        (XR.fin (betaOf h)) none m = .ok (finRow fun i => halflifeAverage h (fun u => x u i) (t + 1)) := by
      unfold nextEwma
      dsimp only [Scalar.truthy]
      congr 1
      ext i
      simp only [finRow, Arr.get_ofFn]
      rw [XR.fin_npow, XR.one_def]
      simp only [XR.fin_sub, XR.fin_mul, XR.fin_div hp, XR.fin_add]
      rw [XR.fin_inj, halflifeAverage_eq, halflifeAverage_eq, ← emaAvg_succ h0 h1]
      field_simp
      ring
    rw [hstep]
    dsimp only
    rw [ih]

theorem ewmaDict_fin {κ : Type} [Ix κ] {h : ℝ} (hh : 0 < h) (times : ℕ → τ) (x : ℕ → κ → ℝ) (m : Option Int) (K : ℕ) :
    ewmaDict ((List.range (K + 1)).map fun s => (times s, finRow (x s))) (XR.fin h) none m
      = ((List.range' 1 K).map fun s => (times s, finRow fun i => halflifeAverage h (fun u => x u i) s), none) := by
  rw [List.range_eq_range', List.range'_succ, List.map_cons]
  unfold ewmaDict
  dsimp only
  have hbeta : (Scalar.exp (-(Scalar.log (Scalar.lit 2)) / (XR.fin h)) : XR) = XR.fin (betaOf h) := by
    rw [XR.lit_def, XR.fin_log (by norm_num), XR.fin_neg, XR.fin_div hh.ne', XR.fin_exp]
    rfl
  rw [hbeta]
  have hfirst : (finRow (x 0) : Arr κ XR) = finRow fun i => halflifeAverage h (fun s => x s i) 0 := by
    congr 1
    funext i
    unfold halflifeAverage
    simp
  rw [hfirst]
  exact loop_fin hh times x m K 0

/-- the realised covariances, label by label -/
private theorem realized_range {rows : List (τ × Vec n)} {K : ℕ} {D : ℕ → τ} (hD : uniqueLabels rows = (List.range K).map D)
    (hrows : ∀ t, (rows.filter fun p => p.1 = t).length ≠ 1) :
    realizedCovariance rows = .ok ((List.range K).map fun s =>
      (D s, realizedSpec ((rows.filter fun p => p.1 = D s).map Prod.snd))) := by
  obtain ⟨res, hres⟩ := (C75_single_row rows).2 hrows
  rw [hres]
  have := realized_labels hres
  rw [hD] at this
  congr 1
  clear hD hres
  generalize List.range K = l at this ⊢
  induction l generalizing res with
  | nil => cases this; rfl
  | cons a l ih =>
    rw [List.map_cons] at this
    cases this with
    | cons h1 h2 =>
      rw [List.map_cons, ← ih _ h2, h1]

/-- **C125.** Without clipping `realized_ewma` yields, for every day but the first, in order, the half-life weighted average of
the realised covariances of the days up to it (including that day), entry by entry; it does not fail. A day is a label of
the index; `D 0, ..., D (K-1)` are the days in the order of their first rows. -/
theorem C125_average {rows : List (τ × Vec n)} {K : ℕ} {D : ℕ → τ} (hD : FirstSeen rows ((List.range K).map D))
    (hK : 0 < K) (hrows : ∀ t, (rows.filter fun p => p.1 = t).length ≠ 1) {h : ℝ} (hh : 0 < h) (m : Option Int) :
    realizedEwma rows (XR.fin h) none m = .ok ((List.range' 1 (K - 1)).map fun k =>
      (D k, finRow fun ij => halflifeAverage h (fun s =>
        realizedSpec ((rows.filter fun p => p.1 = D s).map Prod.snd) ij.1 ij.2) k), none) := by
  unfold realizedEwma
  rw [realized_range ((uniqueLabels_firstSeen rows).unique hD) hrows]
  change Except.ok (ewmaDict (matFrame _) _ none m) = _
  congr 1
  unfold matFrame
  rw [List.map_map]
  obtain ⟨K, rfl⟩ : ∃ K', K = K' + 1 := ⟨K - 1, by omega⟩
  exact ewmaDict_fin hh D (fun s (ij : Fin n × Fin n) => realizedSpec ((rows.filter fun p => p.1 = D s).map Prod.snd) ij.1 ij.2) m K

/-- a realised covariance is positive semidefinite -/
private theorem realizedSpec_posSemidef (rs : List (Vec n)) : (realizedSpec rs).PosSemidef := by
  apply Matrix.PosSemidef.of_dotProduct_mulVec_nonneg
  · ext i j
    simp only [realizedSpec, Matrix.conjTranspose_apply, Matrix.of_apply, star_trivial]
    congr 1
    · simp only [mul_comm]
    · rw [mul_comm]
  · intro x
    by_cases hne : rs = []
    · subst hne
      have : realizedSpec ([] : List (Vec n)) = 0 := by ext i j; simp [realizedSpec]
      rw [this]
      simp
    · rw [star_trivial, realizedSpec_quad _ hne]
      apply List.sum_nonneg
      intro y hy
      rw [List.mem_map] at hy
      obtain ⟨r, _, rfl⟩ := hy
      exact sq_nonneg _

theorem avg_posSemidef {A : ℕ → Mat n} (hA : ∀ s, (A s).PosSemidef) {h : ℝ} (k : ℕ) :
    (Matrix.of fun i j => halflifeAverage h (fun s => A s i j) k : Mat n).PosSemidef := by
  have e : (Matrix.of fun i j => halflifeAverage h (fun s => A s i j) k : Mat n) =
      ∑ s ∈ Finset.range (k + 1), ((2 : ℝ) ^ (-((k - s : ℕ) : ℝ) / h) /
        ∑ s ∈ Finset.range (k + 1), (2 : ℝ) ^ (-((k - s : ℕ) : ℝ) / h)) • A s := by
    ext i j
    rw [Matrix.sum_apply, Matrix.of_apply]
    unfold halflifeAverage
    rw [Finset.sum_div]
    refine Finset.sum_congr rfl fun s _ => ?_
    rw [Matrix.smul_apply, smul_eq_mul]
    ring
  rw [e]
  refine Matrix.posSemidef_sum _ fun s _ => (hA s).smul ?_
  exact div_nonneg (Real.rpow_nonneg (by norm_num) _) (Finset.sum_nonneg fun u _ => Real.rpow_nonneg (by norm_num) _)

/-- **C125.** Every matrix yielded is finite, symmetric and positive semidefinite. -/
theorem C125_posSemidef {rows : List (τ × Vec n)} (hne : rows ≠ []) (hrows : ∀ t, (rows.filter fun p => p.1 = t).length ≠ 1) {h : ℝ}
    (hh : 0 < h) (m : Option Int) :
    ∃ items, realizedEwma rows (XR.fin h) none m = .ok (items, none) ∧
      ∀ p ∈ items, ∃ S : Mat n, S.PosSemidef ∧ ∀ i j, p.2 (i, j) = XR.fin (S i j) := by
  obtain ⟨p0, hp0⟩ := List.exists_mem_of_ne_nil _ hne
  have hD : uniqueLabels rows = (List.range (uniqueLabels rows).length).map fun s => ((uniqueLabels rows)[s]?).getD p0.1 := by
    apply List.ext_getElem
    · simp
    · intro i h1 h2
      simp [h1]
  have hK : 0 < (uniqueLabels rows).length :=
    List.length_pos_of_mem ((mem_uniqueLabels rows p0.1).2 (List.mem_map.2 ⟨p0, hp0, rfl⟩))
  refine ⟨_, C125_average (by rw [← hD]; exact uniqueLabels_firstSeen rows) hK hrows hh m, ?_⟩
  intro p hp
  rw [List.mem_map] at hp
  obtain ⟨k, _, rfl⟩ := hp
  refine ⟨Matrix.of fun i j => halflifeAverage h (fun s => realizedSpec ((rows.filter fun p =>
    p.1 = ((uniqueLabels rows)[s]?).getD p0.1).map Prod.snd) i j) k, ?_, fun i j => by simp [finRow]⟩
  exact avg_posSemidef (fun s => realizedSpec_posSemidef _) k

/-- **C125.** Clipping needs `min_periods`: without it (or with 0) the generator raises `AssertionError` at its first step, if
there are two days. A day with a single row raises `TypeError` at the call, an empty frame `IndexError` at the first step. -/
theorem C125_errors (rows : List (τ × Vec n)) (h : XR) (clipAt : Option XR) (m : Option Int) :
    ((∃ t, (rows.filter fun p => p.1 = t).length = 1) → realizedEwma rows h clipAt m = .error .typeError) ∧
    realizedEwma ([] : List (τ × Vec n)) h clipAt m = .ok ([], some .indexError) ∧
    ((∀ t, (rows.filter fun p => p.1 = t).length ≠ 1) → (∃ p ∈ rows, ∃ q ∈ rows, p.1 ≠ q.1) → ∀ c, clipAt = some c → c ≠ XR.fin 0 →
      (m = none ∨ m = some 0) → realizedEwma rows h clipAt m = .ok ([], some .assertionError)) := by
  refine ⟨fun ht => ?_, rfl, fun hrows hlen c hc hc0 hm => ?_⟩
  · unfold realizedEwma
    rw [(C75_single_row rows).1 ht]
    rfl
  · obtain ⟨res, hres⟩ := (C75_single_row rows).2 hrows
    have hl := (realized_labels hres).length_eq
    have hlen : 2 ≤ (uniqueLabels rows).length := by
      obtain ⟨p, hp, q, hq, hpq⟩ := hlen
      have h1 := (mem_uniqueLabels rows p.1).2 (List.mem_map.2 ⟨p, hp, rfl⟩)
      have h2 := (mem_uniqueLabels rows q.1).2 (List.mem_map.2 ⟨q, hq, rfl⟩)
      by_contra hlt
      rcases hu : uniqueLabels rows with _ | ⟨a, _ | ⟨b, l⟩⟩
      · rw [hu] at h1; cases h1
      · rw [hu, List.mem_singleton] at h1 h2
        exact hpq (h1.trans h2.symm)
      · rw [hu] at hlt; simp at hlt
    unfold realizedEwma
    rw [hres, hc]
    change Except.ok (ewmaDict (matFrame res) h (some c) m) = _
    rw [(C50_errors (matFrame res) (by unfold matFrame; rw [List.length_map]; omega) h hc0 hm none none).1]

/-- shifted and scaled returns: day `t` gets the constant `v t` on all its rows, everything is multiplied by `c` -/
def shiftScale (c : ℝ) (v : τ → Vec n) (rows : List (τ × Vec n)) : List (τ × Vec n) :=
  rows.map fun p => (p.1, c • (p.2 + v p.1))

private theorem rowsAt_shiftScale (c : ℝ) (v : τ → Vec n) (rows : List (τ × Vec n)) (t : τ) :
    rowsAt (shiftScale c v rows) t = (rowsAt rows t).map fun r => c • (r + v t) := by
  unfold rowsAt shiftScale
  induction rows with
  | nil => rfl
  | cons p rows ih =>
    rw [List.map_cons, List.filter_cons, List.filter_cons]
    by_cases hp : p.1 = t
    · simp only [hp, decide_true, if_true, List.map_cons]
      rw [ih]
    · simp only [hp, decide_false, Bool.false_eq_true, if_false]
      exact ih

private theorem realizedSpec_shiftScale (c : ℝ) (v : Vec n) (rs : List (Vec n)) :
    realizedSpec (rs.map fun r => c • (r + v)) = (c ^ 2) • realizedSpec rs := by
  have hsum : ∀ i, (rs.map fun r => c • (r + v)).sum i = c * (rs.sum i + rs.length * v i) := by
    intro i
    induction rs with
    | nil => simp
    | cons r rs ih =>
      rw [List.map_cons, List.sum_cons, List.sum_cons, Pi.add_apply, Pi.add_apply, ih]
      simp only [Pi.smul_apply, Pi.add_apply, smul_eq_mul, List.length_cons]
      push_cast
      ring
  have hprod : ∀ i j, ((rs.map fun r => c • (r + v)).map fun r => r i * r j).sum
      = c ^ 2 * ((rs.map fun r => r i * r j).sum + v j * rs.sum i + v i * rs.sum j + rs.length * (v i * v j)) := by
    intro i j
    clear hsum
    induction rs with
    | nil => simp
    | cons r rs ih =>
      rw [List.map_cons, List.map_cons, List.sum_cons, ih]
      simp only [Pi.smul_apply, Pi.add_apply, smul_eq_mul, List.length_cons, List.map_cons, List.sum_cons]
      push_cast
      ring
  ext i j
  simp only [realizedSpec, Matrix.of_apply, Matrix.smul_apply, smul_eq_mul, hsum, hprod, List.length_map]
  by_cases hT : (rs.length : ℝ) = 0
  · have : rs = [] := List.length_eq_zero_iff.1 (by exact_mod_cast hT)
    subst this
    simp
  · field_simp
    ring

/-- **C125.** Adding a constant vector to all the returns of a day - another one for each day - changes nothing, and
multiplying all the returns by `c` multiplies every matrix by `c ^ 2`. -/
theorem C125_shift_scale {rows : List (τ × Vec n)} {K : ℕ} {D : ℕ → τ} (hD : FirstSeen rows ((List.range K).map D))
    (hK : 0 < K) (hrows : ∀ t, (rows.filter fun p => p.1 = t).length ≠ 1) {h : ℝ} (hh : 0 < h) (m : Option Int) (c : ℝ) (v : τ → Vec n) :
    ∃ x : ℕ → Mat n, realizedEwma rows (XR.fin h) none m
        = .ok ((List.range' 1 (K - 1)).map fun k => (D k, finRow fun ij => x k ij.1 ij.2), none) ∧
      realizedEwma (shiftScale c v rows) (XR.fin h) none m
        = .ok ((List.range' 1 (K - 1)).map fun k => (D k, finRow fun ij => c ^ 2 * x k ij.1 ij.2), none) := by
  refine ⟨fun k => Matrix.of fun i j => halflifeAverage h (fun s =>
    realizedSpec ((rows.filter fun p => p.1 = D s).map Prod.snd) i j) k, by rw [C125_average hD hK hrows hh m]; simp only [Matrix.of_apply], ?_⟩
  have hD' : FirstSeen (shiftScale c v rows) ((List.range K).map D) := by
    have e : (shiftScale c v rows).map Prod.fst = rows.map Prod.fst := by
      unfold shiftScale
      rw [List.map_map]
      rfl
    exact ⟨by rw [e]; exact hD.mem, by rw [e]; exact hD.order⟩
  rw [C125_average hD' hK (by
    intro t
    have e := congrArg List.length (rowsAt_shiftScale c v rows t)
    simp only [rowsAt, List.length_map] at e
    rw [e]
    exact hrows t) hh m]
  congr 2
  apply List.map_congr_left
  intro k _
  congr 2
  funext ij
  simp only [Matrix.of_apply]
  have : ∀ s, realizedSpec (((shiftScale c v rows).filter fun p => p.1 = D s).map Prod.snd) ij.1 ij.2
      = c ^ 2 * realizedSpec ((rows.filter fun p => p.1 = D s).map Prod.snd) ij.1 ij.2 := by
    intro s
    change realizedSpec (rowsAt (shiftScale c v rows) (D s)) ij.1 ij.2 = _
    rw [rowsAt_shiftScale, realizedSpec_shiftScale]
    rfl
  simp only [this]
  unfold halflifeAverage
  rw [← mul_div_assoc, Finset.mul_sum]
  congr 1
  exact Finset.sum_congr rfl fun s _ => by ring

/-- Two days with two rows each: the only matrix yielded is the average of the two realised covariances 2 and 8 with
weights 1/3 and 2/3 (half-life of one day). -/
example : realizedEwma [((0 : ℕ), (![1] : Vec 1)), (0, ![3]), (1, ![2]), (1, ![-2])] (XR.fin 1)
    = .ok ([(1, finRow fun _ => 6)], none) := by
  have hD : uniqueLabels [((0 : ℕ), (![1] : Vec 1)), (0, ![3]), (1, ![2]), (1, ![-2])] = (List.range 2).map fun s => s := by
    simp [uniqueLabels, List.range_succ]
  rw [C125_average (by rw [← hD]; exact uniqueLabels_firstSeen _) (by norm_num) (by
    intro t
    by_cases h0 : t = 0
    · subst h0; simp [rowsAt]
    · by_cases h1 : t = 1
      · subst h1; simp [rowsAt]
      · simp [rowsAt, Ne.symm h0, Ne.symm h1]) (by norm_num : (0 : ℝ) < 1)]
  congr 2
  simp only [Nat.add_one_sub_one, List.range'_one, List.map_cons, List.map_nil]
  congr 3
  funext ij
  have : ij = (0, 0) := by ext <;> simp
  subst this
  unfold halflifeAverage
  rw [Finset.sum_range_succ, Finset.sum_range_succ, Finset.sum_range_zero, Finset.sum_range_succ, Finset.sum_range_succ,
    Finset.sum_range_zero]
  have e : (2 : ℝ) ^ (-((1 - 0 : ℕ) : ℝ) / 1) = 1 / 2 := by
    norm_num [Real.rpow_neg]
  rw [e]
  simp [realizedSpec]
  norm_num

end CovPred
