import Verif.Lemmas.LowRankEwma
import Verif.Props.Iewma
import Verif.Lemmas.EM

/-
Properties of `low_rank_iterated_ewma` (experiments/utils/low_rank_ewma.py): C95 - C99.
-/
set_option linter.unusedSectionVars false

namespace CovPred
open Matrix XR

variable {τ : Type} [DecidableEq τ] {n r : ℕ}

/-- A yielded covariance has the finite entries `F`, `d`. -/
def LowRankCov.Is (c : LowRankCov n r) (F : Matrix (Fin n) (Fin r) ℝ) (d : Vec n) : Prop :=
  (∀ i l, c.F (i, l) = fin (F i l)) ∧ ∀ i, c.d i = fin (d i)

private theorem covAt_eq (a : RealArgs) (T : ℕ) (x : ℕ → Vec n) (j : ℕ) (i i' : Fin n) :
    covAt a T x j (i, i') = emaMat (betaOf a.covHalflife) (zAt a T x) j i i' := by
  unfold covAt; rw [halflifeAverage_eq]; rfl

private theorem scale_row {s : Vec n} {x : LowRankDiag n r} {i : Fin n} {q : ℝ} (hq : 0 < q)
    (h : (x.F * x.Fᵀ) i i + x.d i = q) :
    (∀ l, (scaleLowRank (finRow s) x).F (i, l) = fin (s i / Real.sqrt q * x.F i l)) ∧
      (scaleLowRank (finRow s) x).d i = fin ((s i / Real.sqrt q) ^ 2 * x.d i) := by
  have hq' : (∑ j, x.F i j ^ 2) + x.d i = q := by rw [← mul_transpose_diag]; exact h
  have hs : Real.sqrt q ≠ 0 := (Real.sqrt_pos.mpr hq).ne'
  constructor
  · intro l
    simp only [scaleLowRank, Arr.get_ofFn, finRow, hq']
    rw [fin_sqrt hq.le, one_def, fin_div hs, fin_mul, fin_mul]
    congr 1; field_simp
  · simp only [scaleLowRank, Arr.get_ofFn, finRow, hq']
    rw [fin_sqrt hq.le, one_def, fin_div hs, fin_npow, fin_npow, fin_mul, fin_mul]
    congr 1; field_simp

private theorem scale_row_nan {s : Vec n} {x : LowRankDiag n r} {i : Fin n} (hd : 0 ≤ x.d i)
    (h : (x.F * x.Fᵀ) i i + x.d i = 0) :
    (∀ l, (scaleLowRank (finRow s) x).F (i, l) = nan) ∧ (scaleLowRank (finRow s) x).d i = nan := by
  have hq' : (∑ j, x.F i j ^ 2) + x.d i = 0 := by rw [← mul_transpose_diag]; exact h
  have hnn : 0 ≤ ∑ j, x.F i j ^ 2 := Finset.sum_nonneg fun j _ => sq_nonneg _
  have hd0 : x.d i = 0 := by linarith
  have hs0 : ∑ j, x.F i j ^ 2 = 0 := by linarith
  have hF : ∀ l, x.F i l = 0 := fun l =>
    pow_eq_zero_iff (two_ne_zero) |>.mp ((Finset.sum_eq_zero_iff_of_nonneg fun j _ => sq_nonneg _).mp hs0 l (Finset.mem_univ _))
  have hv : (1 : XR) / Scalar.sqrt (fin 0) = pinf := by
    rw [fin_sqrt (le_refl _), one_def, Real.sqrt_zero]
    show XR.div (fin 1) (fin 0) = _
    simp [XR.div, XR.infSign]
  have hp : pinf * fin 0 = nan := by
    show XR.mul pinf (fin 0) = _
    simp [XR.mul, XR.infSign]
  have hn : ∀ y : ℝ, fin y * nan = nan := fun y => rfl
  have hpp : Scalar.npow pinf 2 = pinf := by
    show XR.npow pinf 2 = pinf
    simp [XR.npow, XR.mul, XR.infSign]
  constructor
  · intro l
    simp only [scaleLowRank, Arr.get_ofFn, finRow, hq', hv, hF l, hp, hn]
  · simp only [scaleLowRank, Arr.get_ofFn, finRow, hq', hv, hpp]
    rw [hd0, hp, fin_npow, hn]

/-- The paired results of the two estimators, by informative row. -/
private theorem paired [Nonempty (Fin n)] {eigsh : Eigsh} (he : eigsh.Correct) (h1 : 1 ≤ r) (hr : r < n) {a : RealArgs} (ha : a.Valid)
    {T : ℕ} {tm : ℕ → τ} (hd : DistinctTimes T tm) {x : ℕ → Vec n} (hv : ∀ t ∈ live a T x, ∀ i, vol a x t i ≠ 0)
    {rs : List (IEWMA τ (Fin n) XR)} (hrs : iteratedEwma (finFrame T tm x) a.toArgs = .ok rs)
    {items : List (LowRankItem τ n r)} {e : Option Err}
    (hit : lowRankIteratedEwma eigsh r (finFrame T tm x) a = (items, e)) :
    items.length ≤ rs.length ∧ (e = none → items.length = rs.length) ∧
      ∀ k (hk : k < items.length) (hk' : k < rs.length), ∃ j < (live a T x).length,
        j = k + (a.minPeriodsCov - 1).toNat ∧ rs[k] = itemAt a T tm x j ∧ items[k] = lrItemAt eigsh r a T tm x j ∧
        LRInv (betaOf a.covHalflife) (zAt a T x) j (lrVal eigsh r (betaOf a.covHalflife) (zAt a T x) j) := by
  have hrep : Represents (finFrame T tm x) a.nanToNum T tm x :=
    ⟨fun t => finRow (x t), rfl, fun t _ i => Or.inl (by simp [finRow])⟩
  obtain ⟨hl, rfl⟩ := results_of_ok ha hd hrep hrs
  obtain ⟨m, hm, e', g1, g2, g3, g4⟩ := lowRankIteratedEwma_fin eigsh h1 ha hd x hl hv
  rw [g2] at hit
  cases hit
  simp only [List.length_map, rowsFrom_eq_drop, List.length_drop, List.length_range, List.getElem_map,
    List.getElem_drop, List.getElem_range]
  refine ⟨by omega, fun h => by rw [g3 h], fun k hk hk' => ⟨(a.minPeriodsCov - 1).toNat + k, by omega, by omega, rfl, rfl, ?_⟩⟩
  exact lrSeq_inv he h1 hr (betaOf_pos _) (betaOf_lt_one ha.cov) (g1 _ (by omega))

/-- **C95** On returns without `nan` and with non-zero volatilities, `low_rank_iterated_ewma` yields a prefix of the
results of `iterated_ewma` (all of them unless it stops with an exception): the same times, means and volatilities; and
for every asset the variance of the factor model, `Σ_l F_il² + d_i`, is exactly the variance `iterated_ewma` predicts,
with a non-negative idiosyncratic part `d_i`, whatever the rank. An asset is `nan` in both or in neither. -/
theorem C95_variances [Nonempty (Fin n)] {eigsh : Eigsh} (he : eigsh.Correct) (h1 : 1 ≤ r) (hr : r < n) {a : RealArgs} (ha : a.Valid)
    {T : ℕ} {tm : ℕ → τ} (hd : DistinctTimes T tm) {x : ℕ → Vec n} (hv : ∀ t ∈ live a T x, ∀ i, vol a x t i ≠ 0)
    {rs : List (IEWMA τ (Fin n) XR)} (hrs : iteratedEwma (finFrame T tm x) a.toArgs = .ok rs)
    {items : List (LowRankItem τ n r)} {e : Option Err}
    (hit : lowRankIteratedEwma eigsh r (finFrame T tm x) a = (items, e)) :
    items.length ≤ rs.length ∧ (e = none → items.length = rs.length) ∧
      ∀ k (hk : k < items.length) (hk' : k < rs.length),
        items[k].time = rs[k].time ∧ items[k].mean = rs[k].mean ∧ items[k].volatility = rs[k].volatility ∧
        ∀ i, (rs[k].covariance (i, i) = nan ∧ (∀ l, items[k].covariance.F (i, l) = nan) ∧ items[k].covariance.d i = nan) ∨
          ∃ (F : Vec r) (d : ℝ), (∀ l, items[k].covariance.F (i, l) = fin (F l)) ∧ items[k].covariance.d i = fin d ∧
            0 ≤ d ∧ rs[k].covariance (i, i) = fin ((∑ l, F l ^ 2) + d) := by
  obtain ⟨p1, p2, p3⟩ := paired he h1 hr ha hd hv hrs hit
  refine ⟨p1, p2, fun k hk hk' => ?_⟩
  obtain ⟨j, hj, -, e1, e2, hinv⟩ := p3 k hk hk'
  rw [e1, e2]
  refine ⟨rfl, rfl, rfl, fun i => ?_⟩
  have hdiag := hinv.diag i
  rw [← covAt_eq] at hdiag
  have hnn := covAt_self_nonneg a T x j i
  simp only [itemAt, lrItemAt, Arr.get_ofFn, sigmaAt]
  by_cases hz : covAt a T x j (i, i) = 0
  · left
    rw [hz] at hdiag
    have := scale_row_nan (s := vol a x ((live a T x).getD j 0)) (hinv.d_nonneg i) hdiag
    exact ⟨by simp [hz], this.1, this.2⟩
  · right
    have hpos : 0 < covAt a T x j (i, i) := lt_of_le_of_ne hnn (Ne.symm hz)
    obtain ⟨q1, q2⟩ := scale_row (s := vol a x ((live a T x).getD j 0)) hpos hdiag
    refine ⟨_, _, q1, q2, mul_nonneg (sq_nonneg _) (hinv.d_nonneg i), ?_⟩
    rw [if_neg (by simp [hz])]
    congr 1
    have hs := Real.mul_self_sqrt hnn
    have hs0 : Real.sqrt (covAt a T x j (i, i)) ≠ 0 := (Real.sqrt_pos.mpr hpos).ne'
    have e3 : ∑ l, (vol a x ((live a T x).getD j 0) i / Real.sqrt (covAt a T x j (i, i)) *
        (lrVal eigsh r (betaOf a.covHalflife) (zAt a T x) j).F i l) ^ 2 =
        (vol a x ((live a T x).getD j 0) i / Real.sqrt (covAt a T x j (i, i))) ^ 2 *
          ((lrVal eigsh r (betaOf a.covHalflife) (zAt a T x) j).F * (lrVal eigsh r (betaOf a.covHalflife) (zAt a T x) j).Fᵀ) i i := by
      rw [mul_transpose_diag, Finset.mul_sum]
      exact Finset.sum_congr rfl fun l _ => by ring
    rw [e3, ← mul_add, hdiag, hs]
    field_simp
    rw [pow_two (Real.sqrt _), hs]

/-- The generator fails only where some asset has a zero adjusted return: if in every informative row but the first all
adjusted returns are non-zero, it yields as many results as `iterated_ewma` and raises nothing. -/
theorem C95_complete [Nonempty (Fin n)] {eigsh : Eigsh} (he : eigsh.Correct) (h1 : 1 ≤ r) (hr : r < n) {a : RealArgs} (ha : a.Valid)
    {T : ℕ} {tm : ℕ → τ} (hd : DistinctTimes T tm) {x : ℕ → Vec n} (hv : ∀ t ∈ live a T x, ∀ i, vol a x t i ≠ 0)
    (hz : ∀ j, 1 ≤ j → j < (live a T x).length → ∀ i, zAt a T x j i ≠ 0)
    {rs : List (IEWMA τ (Fin n) XR)} (hrs : iteratedEwma (finFrame T tm x) a.toArgs = .ok rs) :
    ∃ items, lowRankIteratedEwma eigsh r (finFrame T tm x) a = (items, none) ∧ items.length = rs.length := by
  have hrep : Represents (finFrame T tm x) a.nanToNum T tm x :=
    ⟨fun t => finRow (x t), rfl, fun t _ i => Or.inl (by simp [finRow])⟩
  obtain ⟨hl, rfl⟩ := results_of_ok ha hd hrep hrs
  obtain ⟨m, hm, e', g1, g2, g3, g4⟩ := lowRankIteratedEwma_fin eigsh h1 ha hd x hl hv
  cases e' with
  | none => exact ⟨_, g2, by rw [g3 rfl]; simp⟩
  | some err =>
    obtain ⟨g5, g6⟩ := g4 err rfl
    obtain ⟨y, hy⟩ := lrSeq_defined (k := m) he h1 hr (betaOf_pos a.covHalflife) (betaOf_lt_one ha.cov)
      (y := zAt a T x) fun j hj hjm => hz j hj (by omega)
    rw [hy] at g6
    cases g6

/-- the entries of a result all of whose variances are numbers -/
private theorem entries {eigsh : Eigsh} {a : RealArgs} {T : ℕ} {tm : ℕ → τ} {x : ℕ → Vec n} {j : ℕ}
    (hinv : LRInv (betaOf a.covHalflife) (zAt a T x) j (lrVal eigsh r (betaOf a.covHalflife) (zAt a T x) j))
    (hnn : ∀ i, (itemAt a T tm x j).covariance (i, i) ≠ nan) :
    ∃ (w : Vec n) (S : Mat n), (∀ i i', (itemAt a T tm x j).covariance (i, i') = fin (S i i')) ∧
      S = (Matrix.of fun i i' => w i * emaMat (betaOf a.covHalflife) (zAt a T x) j i i' * w i') ∧
      (lrItemAt eigsh r a T tm x j).covariance.Is
        (Matrix.of fun i l => w i * (lrVal eigsh r (betaOf a.covHalflife) (zAt a T x) j).F i l)
        (fun i => w i ^ 2 * (lrVal eigsh r (betaOf a.covHalflife) (zAt a T x) j).d i) := by
  have hz : ∀ i, covAt a T x j (i, i) ≠ 0 := by
    intro i h
    apply hnn i
    simp [itemAt, sigmaAt, h]
  have hpos : ∀ i, 0 < covAt a T x j (i, i) := fun i => lt_of_le_of_ne (covAt_self_nonneg a T x j i) (Ne.symm (hz i))
  refine ⟨fun i => vol a x ((live a T x).getD j 0) i / Real.sqrt (covAt a T x j (i, i)), _, ?_, rfl, ?_⟩
  · intro i i'
    simp only [itemAt, Arr.get_ofFn, sigmaAt, Matrix.of_apply, ← covAt_eq]
    rw [if_neg (by simp [hz])]
    congr 1
    have := (Real.sqrt_pos.mpr (hpos i)).ne'
    have := (Real.sqrt_pos.mpr (hpos i')).ne'
    field_simp
  · constructor
    · intro i l
      have hdiag := hinv.diag i
      rw [← covAt_eq] at hdiag
      exact (scale_row (s := vol a x ((live a T x).getD j 0)) (hpos i) hdiag).1 l
    · intro i
      have hdiag := hinv.diag i
      rw [← covAt_eq] at hdiag
      exact (scale_row (s := vol a x ((live a T x).getD j 0)) (hpos i) hdiag).2

private theorem scaled_mul (w : Vec n) (F : Matrix (Fin n) (Fin r) ℝ) :
    (Matrix.of fun i l => w i * F i l : Matrix (Fin n) (Fin r) ℝ) * (Matrix.of fun i l => w i * F i l : Matrix (Fin n) (Fin r) ℝ)ᵀ =
      Matrix.of fun i i' => w i * (F * Fᵀ) i i' * w i' := by
  ext i j
  simp only [Matrix.mul_apply, Matrix.transpose_apply, Matrix.of_apply, Finset.mul_sum, Finset.sum_mul]
  exact Finset.sum_congr rfl fun l _ => by ring

/-- **C96** The factor part never overstates the risk: whatever the rank, `F Fᵀ` of a result lies below the covariance
`S` that `iterated_ewma` predicts for the same time, so no portfolio `w` has a factor risk above its full risk. -/
theorem C96_factor_risk [Nonempty (Fin n)] {eigsh : Eigsh} (he : eigsh.Correct) (h1 : 1 ≤ r) (hr : r < n) {a : RealArgs} (ha : a.Valid)
    {T : ℕ} {tm : ℕ → τ} (hd : DistinctTimes T tm) {x : ℕ → Vec n} (hv : ∀ t ∈ live a T x, ∀ i, vol a x t i ≠ 0)
    {rs : List (IEWMA τ (Fin n) XR)} (hrs : iteratedEwma (finFrame T tm x) a.toArgs = .ok rs)
    {items : List (LowRankItem τ n r)} {e : Option Err}
    (hit : lowRankIteratedEwma eigsh r (finFrame T tm x) a = (items, e))
    (k : ℕ) (hk : k < items.length) (hk' : k < rs.length) (hnn : ∀ i, rs[k].covariance (i, i) ≠ nan) :
    ∃ (S : Mat n) (F : Matrix (Fin n) (Fin r) ℝ) (d : Vec n), (∀ i i', rs[k].covariance (i, i') = fin (S i i')) ∧
      items[k].covariance.Is F d ∧ (∀ i, 0 ≤ d i) ∧ (S - F * Fᵀ).PosSemidef ∧
      ∀ w : Vec n, ∑ l, (∑ i, F i l * w i) ^ 2 ≤ w ⬝ᵥ S *ᵥ w := by
  obtain ⟨j, hj, -, e1, e2, hinv⟩ := (paired he h1 hr ha hd hv hrs hit).2.2 k hk hk'
  rw [e1] at hnn
  obtain ⟨w, S, s1, s2, s3⟩ := entries (tm := tm) hinv hnn
  rw [e1, e2]
  have hps : (S - (Matrix.of fun i l => w i * (lrVal eigsh r (betaOf a.covHalflife) (zAt a T x) j).F i l) *
      (Matrix.of fun i l => w i * (lrVal eigsh r (betaOf a.covHalflife) (zAt a T x) j).F i l)ᵀ).PosSemidef := by
    rw [s2, scaled_mul]
    have := scale_posSemidef w hinv.le
    convert this using 1
    ext i i'
    simp only [Matrix.sub_apply, Matrix.of_apply]
    ring
  refine ⟨S, _, _, s1, s3, fun i => mul_nonneg (sq_nonneg _) (hinv.d_nonneg i), hps, fun v => ?_⟩
  have hq := hps.dotProduct_mulVec_nonneg v
  rw [star_trivial, Matrix.sub_mulVec, dotProduct_sub, sub_nonneg] at hq
  refine le_trans (le_of_eq ?_) hq
  rw [← Matrix.mulVec_mulVec, Matrix.dotProduct_mulVec, ← Matrix.mulVec_transpose]
  simp only [dotProduct]
  refine Finset.sum_congr rfl fun l _ => ?_
  rw [pow_two]
  rfl

/-- **C97** No approximation error while the data have dimension at most the rank: if the adjusted returns that entered
so far span a space of dimension at most `rank`, the result is exactly the covariance of `iterated_ewma`, `S = F Fᵀ`,
with `d = 0`. -/
theorem C97_exact [Nonempty (Fin n)] {eigsh : Eigsh} (he : eigsh.Correct) (h1 : 1 ≤ r) (hr : r < n) {a : RealArgs} (ha : a.Valid)
    {T : ℕ} {tm : ℕ → τ} (hd : DistinctTimes T tm) {x : ℕ → Vec n} (hv : ∀ t ∈ live a T x, ∀ i, vol a x t i ≠ 0)
    {rs : List (IEWMA τ (Fin n) XR)} (hrs : iteratedEwma (finFrame T tm x) a.toArgs = .ok rs)
    {items : List (LowRankItem τ n r)} {e : Option Err}
    (hit : lowRankIteratedEwma eigsh r (finFrame T tm x) a = (items, e))
    (k : ℕ) (hk : k < items.length) (hk' : k < rs.length) (hnn : ∀ i, rs[k].covariance (i, i) ≠ nan)
    (hspan : Module.finrank ℝ (Submodule.span ℝ {z | ∃ m ≤ k + (a.minPeriodsCov - 1).toNat, z = zAt a T x m}) ≤ r) :
    ∃ F : Matrix (Fin n) (Fin r) ℝ, items[k].covariance.Is F 0 ∧ ∀ i i', rs[k].covariance (i, i') = fin ((F * Fᵀ) i i') := by
  obtain ⟨j, hj, hjk, e1, e2, hinv⟩ := (paired he h1 hr ha hd hv hrs hit).2.2 k hk hk'
  rw [e1] at hnn
  obtain ⟨w, S, s1, s2, s3⟩ := entries (tm := tm) hinv hnn
  rw [e1, e2]
  have hex := hinv.exact _ hspan fun m hm => Submodule.subset_span ⟨m, by omega, rfl⟩
  refine ⟨_, ⟨s3.1, fun i => ?_⟩, fun i i' => ?_⟩
  · rw [s3.2 i]
    simp only [hinv.d_zero hex i, mul_zero, Pi.zero_apply]
  · rw [s1, s2, scaled_mul, hex]

/-- In particular the first `rank` informative rows are exact, whatever the data. -/
theorem C97_first_rows [Nonempty (Fin n)] {eigsh : Eigsh} (he : eigsh.Correct) (h1 : 1 ≤ r) (hr : r < n) {a : RealArgs} (ha : a.Valid)
    {T : ℕ} {tm : ℕ → τ} (hd : DistinctTimes T tm) {x : ℕ → Vec n} (hv : ∀ t ∈ live a T x, ∀ i, vol a x t i ≠ 0)
    {rs : List (IEWMA τ (Fin n) XR)} (hrs : iteratedEwma (finFrame T tm x) a.toArgs = .ok rs)
    {items : List (LowRankItem τ n r)} {e : Option Err}
    (hit : lowRankIteratedEwma eigsh r (finFrame T tm x) a = (items, e))
    (k : ℕ) (hk : k < items.length) (hk' : k < rs.length) (hnn : ∀ i, rs[k].covariance (i, i) ≠ nan)
    (hfirst : k + (a.minPeriodsCov - 1).toNat < r) :
    ∃ F : Matrix (Fin n) (Fin r) ℝ, items[k].covariance.Is F 0 ∧ ∀ i i', rs[k].covariance (i, i') = fin ((F * Fᵀ) i i') := by
  refine C97_exact he h1 hr ha hd hv hrs hit k hk hk' hnn ?_
  have : {z | ∃ m ≤ k + (a.minPeriodsCov - 1).toNat, z = zAt a T x m} =
      Set.range fun m : Fin (k + (a.minPeriodsCov - 1).toNat + 1) => zAt a T x m := by
    ext z
    constructor
    · rintro ⟨m, hm, rfl⟩; exact ⟨⟨m, by omega⟩, rfl⟩
    · rintro ⟨m, rfl⟩; exact ⟨m, by omega, rfl⟩
  rw [this]
  refine (finrank_range_le_card _).trans ?_
  simp only [Fintype.card_fin]
  omega

/-! ### a simple sufficient condition, and examples -/

private theorem vol_ne {a : RealArgs} (ha : a.Valid) (hm : a.mean = false) {x : ℕ → Vec n} (hx : ∀ i, x 0 i ≠ 0) (t : ℕ)
    (i : Fin n) : vol a x t i ≠ 0 := by
  rw [Ne, volSq_zero_iff ha]
  intro h
  have := h 0 (Nat.zero_le _) (Or.inr (Or.inr rfl))
  rw [cRet, muOf, hm] at this
  simp only [Bool.false_eq_true, if_false, sub_zero] at this
  exact hx i this

private theorem zAt_ne {a : RealArgs} (ha : a.Valid) (hm : a.mean = false) {T : ℕ} {x : ℕ → Vec n} (hx : ∀ t < T, ∀ i, x t i ≠ 0)
    {j : ℕ} (hj : j < (live a T x).length) (i : Fin n) : zAt a T x j i ≠ 0 := by
  have hlt := (mem_live.mp (liveRows_getD_mem hj)).1
  have h0 : ∀ i, x 0 i ≠ 0 := hx 0 (by omega)
  have : zAt a T x j i = adjAt a T x j i := by simp [zAt, muOf, hm]
  rw [this]
  unfold adjAt
  rw [Ne, adjReal_eq_zero a.clip_ne (show 0 ≤ vol a x ((live a T x).getD j 0) i from Real.sqrt_nonneg _) (fun _ h => absurd h (vol_ne ha hm h0 _ i))]
  simp only [cRet, muOf, hm, Bool.false_eq_true, if_false, sub_zero]
  exact hx _ hlt i

/-- In zero-mean mode, on returns none of which is zero, `low_rank_iterated_ewma` raises nothing and yields one result
per result of `iterated_ewma`. -/
theorem C95_nonzero_returns [Nonempty (Fin n)] {eigsh : Eigsh} (he : eigsh.Correct) (h1 : 1 ≤ r) (hr : r < n) {a : RealArgs}
    (ha : a.Valid) (hm : a.mean = false) {T : ℕ} {tm : ℕ → τ} (hd : DistinctTimes T tm) {x : ℕ → Vec n}
    (hx : ∀ t < T, ∀ i, x t i ≠ 0) {rs : List (IEWMA τ (Fin n) XR)}
    (hrs : iteratedEwma (finFrame T tm x) a.toArgs = .ok rs) :
    ∃ items, lowRankIteratedEwma eigsh r (finFrame T tm x) a = (items, none) ∧ items.length = rs.length := by
  refine C95_complete he h1 hr ha hd (fun t ht i => ?_) (fun j _ hj i => zAt_ne ha hm hx hj i) hrs
  exact vol_ne ha hm (hx 0 (by have := (mem_live.mp ht).1; omega)) t i

/-- an `eigsh` that meets the contract -/
noncomputable def someEigsh : Eigsh := someEigh

theorem someEigsh_correct : Eigsh.Correct someEigsh := by
  intro n M r hM h1 hr
  have := someEigh_correct n M r h1 hr.le
  rwa [symLower_of_symm (symm_of_posSemidef hM)] at this

namespace LowRankEx
/-- three assets, three rows -/
noncomputable def x (t : ℕ) (i : Fin 3) : ℝ := (t : ℝ) + 1 + (i.val : ℝ)

noncomputable def args : RealArgs where
  volaHalflife := 2
  covHalflife := 3
  minPeriodsVola := 1
  minPeriodsCov := 1

theorem valid : args.Valid := ⟨by norm_num [args], by norm_num [args], by simp [args], by simp [args]⟩

theorem distinct : DistinctTimes 3 (id : ℕ → ℕ) := fun _ _ _ _ h => h

theorem x_ne (t : ℕ) (i : Fin 3) : x t i ≠ 0 := by unfold x; positivity

theorem live_eq : live args 3 x = [0, 1, 2] := by
  rw [show [0, 1, 2] = List.range 3 from rfl]
  apply live_eq_range
  intro t _
  refine ⟨by simp [args], 0, ?_⟩
  rintro ⟨-, h⟩
  have : cRet args x t 0 = x t 0 := by simp [cRet, muOf, args]
  rw [this] at h
  exact x_ne t 0 h

theorem run : iteratedEwma (finFrame 3 id x) args.toArgs = .ok ((rowsFrom 1 3).map (itemAt args 3 id x)) := by
  rw [iteratedEwma_fin valid distinct x, live_eq]
  simp [args]

theorem vol_ne' (t : ℕ) (i : Fin 3) : vol args x t i ≠ 0 := vol_ne valid rfl (x_ne 0) t i

/-- The hypotheses of the theorems above are met, and there are three results. -/
example : ∃ items, lowRankIteratedEwma someEigsh 2 (finFrame 3 id x) args = (items, none) ∧ items.length = 3 := by
  obtain ⟨items, h, hl⟩ := C95_nonzero_returns someEigsh_correct (r := 2) (by norm_num) (by norm_num) valid rfl distinct
    (fun t _ i => x_ne t i) run
  refine ⟨items, h, ?_⟩
  rw [hl, List.length_map]
  rfl

/-- the second of them is exact -/
example : ∃ items, lowRankIteratedEwma someEigsh 2 (finFrame 3 id x) args = (items, none) ∧
    ∃ (h : 1 < items.length) (F : Matrix (Fin 3) (Fin 2) ℝ), items[1].covariance.Is F 0 := by
  obtain ⟨items, h, hl⟩ := C95_nonzero_returns someEigsh_correct (r := 2) (by norm_num) (by norm_num) valid rfl distinct
    (fun t _ i => x_ne t i) run
  have hlen : items.length = 3 := by rw [hl, List.length_map]; rfl
  have hk' : 1 < ((rowsFrom 1 3).map (itemAt args 3 id x)).length := by rw [List.length_map]; decide
  refine ⟨items, h, by omega, ?_⟩
  obtain ⟨F, hF, -⟩ := C97_first_rows someEigsh_correct (r := 2) (by norm_num) (by norm_num) valid distinct
    (fun t _ i => vol_ne' t i) run h 1 (by omega) hk' (by
      intro i
      have hg : ((rowsFrom 1 3).map (itemAt args 3 id x))[1] = itemAt args 3 id x 1 := by
        rw [List.getElem_map]
        congr 1
      rw [hg]
      have hz : covAt args 3 x 1 (i, i) ≠ 0 := by
        rw [Ne, covAt_zero_iff]
        intro hh
        exact zAt_ne valid rfl (fun t _ i => x_ne t i) (by rw [live_eq]; decide) i (hh 0 (by omega))
      simp only [itemAt, Arr.get_ofFn, sigmaAt]
      rw [if_neg (by simp [hz])]
      simp) (by simp [args])
  exact ⟨F, hF⟩

end LowRankEx

/-! ### C98: each update -/

/-- **C98** One update `_low_rank_sum(F, d, r)`: it fails only if the rank is not below the number of assets
(`TypeError`) or some asset has a zero loading and a zero return; otherwise, writing `S = F Fᵀ + r rᵀ`, the diagonal of
`S + D` is preserved exactly, the idiosyncratic variances do not decrease, and among all matrices of rank at most
`rank` the new `F̂ F̂ᵀ` is closest to `S` in units of the assets' standard deviations. -/
theorem C98_best_update {eigsh : Eigsh} (he : eigsh.Correct) (h1 : 1 ≤ r) (hr : r < n) (F : Matrix (Fin n) (Fin r) ℝ)
    (d : Vec n) (hd : ∀ i, 0 ≤ d i) (row : Vec n) (hpos : ∀ i, (∃ l, F i l ≠ 0) ∨ row i ≠ 0) :
    ∃ x, lowRankSum eigsh F d row = .ok x ∧
      (∀ i, (∑ l, x.F i l ^ 2) + x.d i = (∑ l, F i l ^ 2) + d i + row i ^ 2) ∧ (∀ i, d i ≤ x.d i) ∧
      ∀ S : Mat n, (∀ i j, S i j = (∑ l, F i l * F j l) + row i * row j) → ∀ B : Mat n, B.rank ≤ r →
        ∑ i, ∑ j, ((S i j - ∑ l, x.F i l * x.F j l) / (Real.sqrt (S i i) * Real.sqrt (S j j))) ^ 2 ≤
          ∑ i, ∑ j, ((S i j - B i j) / (Real.sqrt (S i i) * Real.sqrt (S j j))) ^ 2 := by
  have hp : ∀ i, sumCov F row i i ≠ 0 := by
    intro i h
    rw [sumCov_diag] at h
    have hnn : 0 ≤ ∑ j, F i j ^ 2 := Finset.sum_nonneg fun j _ => sq_nonneg _
    have hr2 := sq_nonneg (row i)
    rcases hpos i with ⟨l, hl⟩ | hrow
    · have hs0 : ∑ j, F i j ^ 2 = 0 := by linarith
      exact hl (pow_eq_zero_iff (two_ne_zero) |>.mp
        ((Finset.sum_eq_zero_iff_of_nonneg fun j _ => sq_nonneg _).mp hs0 l (Finset.mem_univ _)))
    · exact hrow (pow_eq_zero_iff (two_ne_zero) |>.mp (by linarith))
  obtain ⟨x, x1, x2, x3, _, x5⟩ := lowRankSum_spec he h1 hr F d hd row hp
  refine ⟨x, x1, fun i => ?_, fun i => ?_, fun S hS B hB => ?_⟩
  · rw [x2 i, Matrix.sub_apply, mul_transpose_diag, sumCov_diag]; ring
  · rw [x2 i]
    have := x3.diag_nonneg (i := i)
    linarith
  · have hSe : S = sumCov F row := by
      ext i j
      rw [hS, sumCov, Matrix.add_apply, Matrix.mul_apply]
      rfl
    have := x5 B hB
    rw [← hSe] at this
    simp only [frob, Matrix.of_apply, Matrix.sub_apply, Matrix.mul_apply, Matrix.transpose_apply] at this
    exact this

example : ∃ x, lowRankSum someEigsh (Matrix.of fun (_ : Fin 2) (_ : Fin 1) => (1 : ℝ)) (fun _ => 0) (fun i => (i.val : ℝ)) = .ok x ∧
    x.F 1 0 ^ 2 + x.d 1 = 2 := by
  obtain ⟨x, h, h2, -⟩ := C98_best_update someEigsh_correct (r := 1) (n := 2) (le_refl _) (by norm_num)
    (Matrix.of fun (_ : Fin 2) (_ : Fin 1) => (1 : ℝ)) (fun _ => 0) (fun _ => le_refl _) (fun i => (i.val : ℝ))
    (fun i => Or.inl ⟨0, by simp⟩)
  refine ⟨x, h, ?_⟩
  have := h2 1
  simp only [Finset.univ_unique, Finset.sum_singleton, Matrix.of_apply] at this
  rw [show x.F 1 0 = x.F 1 default from rfl, this]
  norm_num

/-! ### C99: what stops the generator -/

/-- **C99** A rank of 0 raises `IndexError` before the first result; a rank that is not below the number of assets raises
`TypeError` at the second informative row, so that at most one result is yielded (none if `min_periods_cov > 1`). -/
theorem C99_rank [Nonempty (Fin n)] (eigsh : Eigsh) {a : RealArgs} (ha : a.Valid) {T : ℕ} {tm : ℕ → τ} (hd : DistinctTimes T tm)
    {x : ℕ → Vec n} (hv : ∀ t ∈ live a T x, ∀ i, vol a x t i ≠ 0) :
    (live a T x ≠ [] → lowRankIteratedEwma eigsh 0 (finFrame T tm x) a = ([], some .indexError)) ∧
      ∀ r, n ≤ r → 2 ≤ (live a T x).length →
        ∃ items, lowRankIteratedEwma eigsh r (finFrame T tm x) a = (items, some .typeError) ∧
          items.length = if a.minPeriodsCov ≤ 1 then 1 else 0 := by
  constructor
  · intro hl
    have h0 : ∀ y : Frame τ (Fin n) XR, generalLowRank eigsh 0 y (some a.covHalflife) none a.minPeriodsCov =
        ([], some .indexError) := by
      intro y
      unfold generalLowRank
      rw [lowRankBeta_some ha.cov.ne']
      cases y <;> rfl
    unfold lowRankIteratedEwma
    rw [lowRankPrep_fin ha hd x hl hv]
    simp only [ewmaLowRank, h0, List.filterMap_nil, genMap]
  · intro r hr h2
    have hn : 0 < n := Fin.pos (Classical.arbitrary _)
    have hl : live a T x ≠ [] := by intro h; rw [h] at h2; simp at h2
    obtain ⟨m, hm, e, g1, g2, g3, g4⟩ := lowRankIteratedEwma_fin (r := r) eigsh (by omega) ha hd x hl hv
    have hstep : lrSeq eigsh r (betaOf a.covHalflife) (zAt a T x) 1 = .error .typeError := by
      simp only [lrSeq, lowRankStep, lowRankSum, if_pos hr]
    have hm1 : m ≤ 1 := by
      by_contra hcon
      have := g1 1 (by omega)
      rw [hstep] at this
      cases this
    cases e with
    | none => have := g3 rfl; omega
    | some err =>
      obtain ⟨g5, g6⟩ := g4 err rfl
      have hm1' : m = 1 := by
        rcases Nat.lt_or_ge m 1 with h | h
        · obtain rfl : m = 0 := by omega
          cases g6
        · omega
      subst hm1'
      rw [hstep] at g6
      cases g6
      refine ⟨_, g2, ?_⟩
      rw [List.length_map, rowsFrom_eq_drop, List.length_drop, List.length_range]
      split <;> omega

example : lowRankIteratedEwma someEigsh 0 (finFrame 3 id LowRankEx.x) LowRankEx.args = ([], some .indexError) :=
  (C99_rank someEigsh LowRankEx.valid LowRankEx.distinct fun t _ i => LowRankEx.vol_ne' t i).1 (by rw [LowRankEx.live_eq]; simp)

/-- For a rank in range the generator can stop early only at a row in which an asset has a zero adjusted return; the
results of the rows before are produced. -/
theorem C99_stop [Nonempty (Fin n)] {eigsh : Eigsh} (he : eigsh.Correct) (h1 : 1 ≤ r) (hr : r < n) {a : RealArgs} (ha : a.Valid)
    {T : ℕ} {tm : ℕ → τ} (hd : DistinctTimes T tm) {x : ℕ → Vec n} (hl : live a T x ≠ [])
    (hv : ∀ t ∈ live a T x, ∀ i, vol a x t i ≠ 0) {items : List (LowRankItem τ n r)} {err : Err}
    (hit : lowRankIteratedEwma eigsh r (finFrame T tm x) a = (items, some err)) :
    err = .other ∧ ∃ j, items.length = j - (a.minPeriodsCov - 1).toNat ∧ 1 ≤ j ∧ j < (live a T x).length ∧
      ∃ i, zAt a T x j i = 0 := by
  obtain ⟨m, hm, e, g1, g2, g3, g4⟩ := lowRankIteratedEwma_fin eigsh h1 ha hd x hl hv
  rw [g2] at hit
  cases hit
  obtain ⟨g5, g6⟩ := g4 err rfl
  refine ⟨lrSeq_error he h1 hr (betaOf_pos _) (betaOf_lt_one ha.cov) g6, m, ?_, ?_, g5, ?_⟩
  · rw [List.length_map, rowsFrom_eq_drop, List.length_drop, List.length_range]
  · rcases Nat.eq_zero_or_pos m with h | h
    · subst h; cases g6
    · exact h
  · cases m with
    | zero => cases g6
    | succ k =>
      have hk := g1 k (by omega)
      rw [lrSeq, hk] at g6
      simp only at g6
      rcases lowRankStep_spec he h1 hr (betaOf_pos _) (betaOf_lt_one ha.cov)
        (lrSeq_inv he h1 hr (betaOf_pos _) (betaOf_lt_one ha.cov) hk) with ⟨z, hz, _⟩ | ⟨_, i, _, hi⟩
      · rw [hz] at g6; cases g6
      · exact ⟨i, hi⟩

end CovPred
