import Verif.Props.Forgetting

/-
Property C208: what changes when the history starts later.
-/
set_option linter.unusedSectionVars false
namespace CovPred

/-- an average over a history and over the part of it from row `k` on -/
theorem Tight.avg_later {K A d r : ℝ} (h0 : 0 < d) (h1 : d < r) (hr1 : r < 1) {x z : ℕ → ℝ} {t k : ℕ} (hK : 0 ≤ K)
    (h : ∀ j ≤ t, Tight K A (r ^ j) (z j) (x (j + k))) (hA : ∀ j ≤ t + k, |x j| ≤ A) :
    Tight (K * memoryGain d r + 2 * A) A (r ^ t) (emaAvg d z t) (emaAvg d x (t + k)) where
  left := emaAvg_abs_le h0 t fun j hj => (h j hj).left
  right := emaAvg_abs_le h0 (t + k) hA
  diff := by
    have hr : 0 < r := h0.trans h1
    have hA0 : 0 ≤ A := (abs_nonneg _).trans (hA 0 (by omega))
    have s1 := (Tight.avg h0 h1 (x := fun j => x (j + k)) (y := z) (ε := fun j => r ^ j) (t := t) hK
      (fun j hj => by rw [← pow_add, Nat.add_sub_cancel' hj]) h).diff
    have s2 : |emaAvg d (fun j => x (j + k)) t - emaAvg d x (t + k)| ≤ 2 * A * r ^ t := by
      cases k with
      | zero => simp only [Nat.add_zero, sub_self, abs_zero]; positivity
      | succ k =>
        obtain ⟨D1, hD1⟩ : ∃ D, D = ∑ j ∈ Finset.range (t + 1), d ^ (t - j) := ⟨_, rfl⟩
        obtain ⟨D2, hD2⟩ : ∃ D, D = ∑ j ∈ Finset.range (t + (k + 1) + 1), d ^ (t + (k + 1) - j) := ⟨_, rfl⟩
        obtain ⟨D0, hD0⟩ : ∃ D, D = ∑ j ∈ Finset.range (k + 1), d ^ (k - j) := ⟨_, rfl⟩
        have p1 : 0 < D1 := hD1 ▸ emaAvg_den_pos h0 t
        have p0 : 0 < D0 := hD0 ▸ emaAvg_den_pos h0 k
        have hsplit : ∀ f : ℕ → ℝ, ∑ j ∈ Finset.range (t + (k + 1) + 1), d ^ (t + (k + 1) - j) * f j
            = d ^ (t + 1) * (∑ j ∈ Finset.range (k + 1), d ^ (k - j) * f j) + ∑ j ∈ Finset.range (t + 1), d ^ (t - j) * f (j + (k + 1)) := by
          intro f
          rw [show t + (k + 1) + 1 = (k + 1) + (t + 1) by omega, Finset.sum_range_add, Finset.mul_sum]
          congr 1
          · refine Finset.sum_congr rfl fun j hj => ?_
            have := Finset.mem_range.1 hj
            rw [← mul_assoc, ← pow_add]
            congr 2
            omega
          · refine Finset.sum_congr rfl fun j hj => ?_
            rw [show k + 1 + j = j + (k + 1) by omega, show t + (k + 1) - (j + (k + 1)) = t - j by omega]
        have hD : D2 = d ^ (t + 1) * D0 + D1 := by
          have := hsplit fun _ => 1
          simp only [mul_one] at this
          rw [hD2, this, hD0, hD1]
        have e1 : (∑ j ∈ Finset.range (t + 1), d ^ (t - j) * x (j + (k + 1))) = emaAvg d (fun j => x (j + (k + 1))) t * D1 := by
          unfold emaAvg; rw [← hD1, div_mul_cancel₀ _ p1.ne']
        have e0 : (∑ j ∈ Finset.range (k + 1), d ^ (k - j) * x j) = emaAvg d x k * D0 := by
          unfold emaAvg; rw [← hD0, div_mul_cancel₀ _ p0.ne']
        have hpd : 0 < d ^ (t + 1) := pow_pos h0 _
        have p2 : 0 < D2 := by rw [hD]; positivity
        have e2 : emaAvg d (fun j => x (j + (k + 1))) t - emaAvg d x (t + (k + 1))
            = d ^ (t + 1) * (D0 / D2) * (emaAvg d (fun j => x (j + (k + 1))) t - emaAvg d x k) := by
          have : emaAvg d x (t + (k + 1)) = (d ^ (t + 1) * (emaAvg d x k * D0) + emaAvg d (fun j => x (j + (k + 1))) t * D1) / D2 := by
            conv_lhs => unfold emaAvg
            rw [← hD2, hsplit, e0, e1]
          rw [this]
          field_simp
          rw [hD]
          ring
        have b1 := emaAvg_abs_le (b := d) h0 t (x := fun j => x (j + (k + 1))) (M := A) fun j hj => hA _ (by omega)
        have b2 := emaAvg_abs_le (b := d) h0 k (x := x) (M := A) fun j hj => hA _ (by omega)
        have hD1' : 1 ≤ D1 := by
          rw [hD1]
          have := Finset.single_le_sum (f := fun j => d ^ (t - j)) (s := Finset.range (t + 1)) (fun j _ => by positivity)
            (Finset.mem_range.2 (Nat.lt_succ_self t))
          simpa using this
        have hfrac : d ^ (t + 1) * (D0 / D2) ≤ r ^ t := by
          -- `D0 ≤ (geometric series)`; `d ^ (t + 1) D0 / D2 ≤ d ^ (t + 1) D0 / (D1 + d ^ (t + 1) D0)`
          have hgeo1 : D0 * (1 - d) = 1 - d ^ (k + 1) := by
            rw [hD0, emaDen_eq (by linarith : d ≠ 1)]
            rw [div_mul_cancel₀ _ (by linarith : (1 - d : ℝ) ≠ 0)]
          have hgeo2 : D2 * (1 - d) = 1 - d ^ (t + (k + 1) + 1) := by
            rw [hD2, emaDen_eq (by linarith : d ≠ 1)]
            rw [div_mul_cancel₀ _ (by linarith : (1 - d : ℝ) ≠ 0)]
          have hle : D0 ≤ D2 := by
            have h3 : d ^ (t + (k + 1) + 1) ≤ d ^ (k + 1) := pow_le_pow_of_le_one h0.le (by linarith) (by omega)
            have h4 : D0 * (1 - d) ≤ D2 * (1 - d) := by rw [hgeo1, hgeo2]; linarith
            exact le_of_mul_le_mul_right h4 (by linarith)
          have h5 : D0 / D2 ≤ 1 := (div_le_one p2).2 hle
          calc d ^ (t + 1) * (D0 / D2) ≤ d ^ (t + 1) * 1 := mul_le_mul_of_nonneg_left h5 hpd.le
            _ ≤ d ^ t := by rw [mul_one, pow_succ]; exact mul_le_of_le_one_right (pow_nonneg h0.le _) (by linarith)
            _ ≤ r ^ t := pow_le_pow_left₀ h0.le h1.le t
        rw [e2, abs_mul, abs_of_nonneg (by positivity)]
        calc _ ≤ r ^ t * (2 * A) := mul_le_mul hfrac ((abs_sub _ _).trans (by linarith)) (abs_nonneg _) (by positivity)
          _ = 2 * A * r ^ t := by ring
    have e : emaAvg d z t - emaAvg d x (t + k) = (emaAvg d z t - emaAvg d (fun j => x (j + k)) t) + (emaAvg d (fun j => x (j + k)) t - emaAvg d x (t + k)) := by
      ring
    rw [e]
    refine (abs_add_le _ _).trans ?_
    rw [add_mul]
    exact add_le_add s1 s2

variable {τ ι : Type} [DecidableEq τ] [Ix ι]

private theorem later_mu {K A r : ℝ} {mean : Bool} {h : ℝ} (h1 : betaOf h < r) (hr1 : r < 1) {x z : ℕ → ι → ℝ} {t k : ℕ} (hK : 0 ≤ K)
    (i : ι) (hx : ∀ j ≤ t, Tight K A (r ^ j) (z j i) (x (j + k) i)) (hA : ∀ j ≤ t + k, |x j i| ≤ A) :
    Tight (K * memoryGain (betaOf h) r + 2 * A) A (r ^ t) (muOf mean h z t i) (muOf mean h x (t + k) i) := by
  have h0 := Tight.avg_later (betaOf_pos h) h1 hr1 (x := fun k => x k i) (z := fun k => z k i) hK hx hA
  unfold muOf
  cases mean with
  | true =>
    simp only [if_true]
    rw [halflifeAverage_eq, halflifeAverage_eq]
    exact h0
  | false =>
    simp only [Bool.false_eq_true, if_false]
    have hA := h0.bound_nonneg
    exact ⟨by simpa using h0.nonneg, by simpa using hA, by simpa using hA⟩

/-- C208 with a bound on the covariances -/
theorem restart_bounded {hv hc h1 h2 H M v0 d0 : ℝ} (hhv : 0 < hv) (hhc : 0 < hc) (hh1 : 0 < h1) (hh2 : 0 < h2) (hvH : hv < H) (hcH : hc < H)
    (h1H : h1 < H) (h2H : h2 < H) (hM : 0 ≤ M) (hv0 : 0 < v0) (hd0 : 0 < d0) :
    ∃ K B : ℝ, ∀ (τ ι : Type) [DecidableEq τ] [Ix ι] [Nonempty ι] (a : RealArgs), a.Valid → a.volaHalflife = hv → a.covHalflife = hc → a.mu1h = h1 →
      a.mu2h = h2 → a.clip = none →
      ∀ (T k : ℕ) (tm : ℕ → τ) (x : ℕ → ι → ℝ), DistinctTimes (T + k) tm → 0 < T → a.minPeriodsVola ≤ T →
        (∀ t, t < T + k → ∀ i, |x t i| ≤ M) →
        (∀ t, t < T + k → a.minPeriodsVola - 1 ≤ (t : Int) → ∀ i, v0 ≤ vol a x t i) →
        (∀ t, t < T → a.minPeriodsVola - 1 ≤ (t : Int) → ∀ i, v0 ≤ vol a (fun t => x (t + k)) t i) →
        (∀ j ∈ rowsFrom a.minPeriodsCov (rowsFrom a.minPeriodsVola (T + k)).length, ∀ i, d0 ≤ covAt a (T + k) x j (i, i)) →
        (∀ j ∈ rowsFrom a.minPeriodsCov (rowsFrom a.minPeriodsVola T).length, ∀ i, d0 ≤ covAt a T (fun t => x (t + k)) j (i, i)) →
        ∃ (rows rows' : List ℕ) (m m' v v' : ℕ → ι → ℝ) (S S' : ℕ → ι × ι → ℝ),
          iteratedEwma (finFrame (T + k) tm x) a.toArgs
            = .ok (rows.map fun t => { time := tm t, mean := finRow (m t), covariance := finRow (S t), volatility := finRow (v t) }) ∧
          iteratedEwma (finFrame T (fun t => tm (t + k)) fun t => x (t + k)) a.toArgs
            = .ok (rows'.map fun t => { time := tm (t + k), mean := finRow (m' t), covariance := finRow (S' t), volatility := finRow (v' t) }) ∧
          ∀ t ∈ rows', t + k ∈ rows ∧ (∀ i, |m' t i - m (t + k) i| ≤ K * (2 : ℝ) ^ (-((t - (a.minPeriodsVola - 1).toNat : ℕ) : ℝ) / H)) ∧
            (∀ i, |v' t i - v (t + k) i| ≤ K * (2 : ℝ) ^ (-((t - (a.minPeriodsVola - 1).toNat : ℕ) : ℝ) / H)) ∧
            ∀ i j, |S' t (i, j) - S (t + k) (i, j)| ≤ K * (2 : ℝ) ^ (-((t - (a.minPeriodsVola - 1).toNat : ℕ) : ℝ) / H) ∧ |S (t + k) (i, j)| ≤ B ∧ |S' t (i, j)| ≤ B := by
  have hH : 0 < H := hhv.trans hvH
  set r := betaOf H with hr
  have r0 : 0 < r := betaOf_pos H
  have r1 : r < 1 := betaOf_lt_one hH
  have hlt : ∀ h, 0 < h → h < H → betaOf h < r := by
    intro h hh hhH
    rw [hr]
    unfold betaOf
    refine Real.exp_lt_exp.2 ?_
    rw [neg_div, neg_div, neg_lt_neg_iff]
    exact div_lt_div_of_pos_left (Real.log_pos (by norm_num)) hh hhH
  have bv := hlt hv hhv hvH
  have bc := hlt hc hhc hcH
  have b1 := hlt h1 hh1 h1H
  have b2 := hlt h2 hh2 h2H
  obtain ⟨gv, egv⟩ : ∃ g, g = memoryGain (betaOf hv) r := ⟨_, rfl⟩
  obtain ⟨gc, egc⟩ : ∃ g, g = memoryGain (betaOf hc) r := ⟨_, rfl⟩
  obtain ⟨g1, eg1⟩ : ∃ g, g = memoryGain (betaOf h1) r := ⟨_, rfl⟩
  obtain ⟨g2, eg2⟩ : ∃ g, g = memoryGain (betaOf h2) r := ⟨_, rfl⟩
  have ngv : 0 ≤ gv := egv ▸ memoryGain_nonneg (betaOf_pos _) bv
  have ngc : 0 ≤ gc := egc ▸ memoryGain_nonneg (betaOf_pos _) bc
  have ng1 : 0 ≤ g1 := eg1 ▸ memoryGain_nonneg (betaOf_pos _) b1
  have ng2 : 0 ≤ g2 := eg2 ▸ memoryGain_nonneg (betaOf_pos _) b2
  -- the constants of the centred returns, their squares, the volatilities, the adjusted returns
  obtain ⟨K1, eK1⟩ : ∃ K, K = 0 + (0 * g1 + 2 * M) := ⟨_, rfl⟩
  obtain ⟨K2, eK2⟩ : ∃ K, K = K1 * (M + M) + (M + M) * K1 := ⟨_, rfl⟩
  obtain ⟨K3, eK3⟩ : ∃ K, K = (K2 * gv + 2 * ((M + M) * (M + M))) / v0 := ⟨_, rfl⟩
  obtain ⟨A3, eA3⟩ : ∃ A, A = Real.sqrt ((M + M) * (M + M)) := ⟨_, rfl⟩
  obtain ⟨K4, eK4⟩ : ∃ K, K = K1 / v0 + (M + M) * K3 / (v0 * v0) := ⟨_, rfl⟩
  obtain ⟨A4, eA4⟩ : ∃ A, A = (M + M) / v0 := ⟨_, rfl⟩
  obtain ⟨Kn, eKn⟩ : ∃ K, K = K4 * g2 + 2 * A4 := ⟨_, rfl⟩
  obtain ⟨K5, eK5⟩ : ∃ K, K = K4 + Kn := ⟨_, rfl⟩
  obtain ⟨K6, eK6⟩ : ∃ K, K = (K5 * (A4 + A4) + (A4 + A4) * K5) * gc + 2 * ((A4 + A4) * (A4 + A4)) := ⟨_, rfl⟩
  obtain ⟨A6, eA6⟩ : ∃ A, A = (A4 + A4) * (A4 + A4) := ⟨_, rfl⟩
  have nA3 : 0 ≤ A3 := eA3 ▸ Real.sqrt_nonneg _
  have nK1 : 0 ≤ K1 := by rw [eK1]; positivity
  have nK2 : 0 ≤ K2 := by rw [eK2]; positivity
  have nK3 : 0 ≤ K3 := by rw [eK3]; positivity
  have nK4 : 0 ≤ K4 := by rw [eK4]; positivity
  have nA4 : 0 ≤ A4 := by rw [eA4]; positivity
  have nKn : 0 ≤ Kn := by rw [eKn]; positivity
  have nK5 : 0 ≤ K5 := by rw [eK5]; positivity
  have nK6 : 0 ≤ K6 := by rw [eK6]; positivity
  obtain ⟨Kd, eKd⟩ : ∃ K, K = K6 / Real.sqrt d0 * Real.sqrt A6 + Real.sqrt A6 * (K6 / Real.sqrt d0) := ⟨_, rfl⟩
  obtain ⟨Kr, eKr⟩ : ∃ K, K = K6 / d0 + A6 * Kd / (d0 * d0) := ⟨_, rfl⟩
  obtain ⟨Ks, eKs⟩ : ∃ K, K = (K3 * A3 + A3 * K3) * (A6 / d0) + A3 * A3 * Kr := ⟨_, rfl⟩
  obtain ⟨Km, eKm⟩ : ∃ K, K = (0 * g1 + 2 * M) + (K3 * A4 + A3 * Kn) := ⟨_, rfl⟩
  refine ⟨max Km (max K3 Ks), A3 * A3 * (A6 / d0), ?_⟩
  intro τ ι _ _ _ a ha ea1 ea2 ea3 ea4 hcl T k tm x hd hT hmT hx hvolx hvolz hcovx hcovz
  obtain ⟨z, hz⟩ : ∃ z : ℕ → ι → ℝ, z = fun t => x (t + k) := ⟨_, rfl⟩
  rw [← hz] at hvolz hcovz ⊢
  have hzx : ∀ t, z t = x (t + k) := fun t => by rw [hz]
  have hdz : DistinctTimes T fun t => tm (t + k) := fun i j hi hj he => by
    have := hd (i + k) (j + k) (by omega) (by omega) he
    omega
  have hlx : live a (T + k) x = rowsFrom a.minPeriodsVola (T + k) := live_of_vol hv0 hvolx
  have hlz : live a T z = rowsFrom a.minPeriodsVola T := live_of_vol hv0 hvolz
  obtain ⟨N, hN⟩ : ∃ N, N = (rowsFrom a.minPeriodsVola T).length := ⟨_, rfl⟩
  obtain ⟨s0, hs0⟩ : ∃ k, k = (a.minPeriodsVola - 1).toNat := ⟨_, rfl⟩
  have hNk : (rowsFrom a.minPeriodsVola (T + k)).length = N + k := by
    rw [hN, rowsFrom_eq_drop, rowsFrom_eq_drop, List.length_drop, List.length_drop, List.length_range, List.length_range]
    omega
  have hgz : ∀ j, j < N → (live a T z).getD j 0 = s0 + j := fun j hj => by rw [hlz, hs0]; exact rowsFrom_getD (hN ▸ hj)
  have hgx : ∀ j, j < N + k → (live a (T + k) x).getD j 0 = s0 + j := fun j hj => by rw [hlx, hs0]; exact rowsFrom_getD (by omega)
  have hrow : ∀ j, j < N → s0 + j < T := fun j hj => by
    rw [hN, rowsFrom_eq_drop, List.length_drop, List.length_range] at hj
    omega
  have hne : rowsFrom a.minPeriodsVola T ≠ [] := List.ne_nil_of_mem (mem_rowsFrom.2 ⟨show T - 1 < T by omega, by omega⟩)
  have hnek : rowsFrom a.minPeriodsVola (T + k) ≠ [] := List.ne_nil_of_mem (mem_rowsFrom.2 ⟨show T - 1 < T + k by omega, by omega⟩)
  have hmin : ∀ j, a.minPeriodsVola - 1 ≤ ((s0 + j : ℕ) : Int) := fun j => by omega
  have hs0r : ∀ j, r ^ (s0 + j) ≤ r ^ j := fun j => pow_le_pow_of_le_one r0.le r1.le (by omega)
  have weak : ∀ {K A u w : ℝ} {j : ℕ}, 0 ≤ K → Tight K A (r ^ (s0 + j)) u w → Tight K A (r ^ j) u w := fun {K A u w j} hK h =>
    ⟨h.diff.trans (mul_le_mul_of_nonneg_left (hs0r j) hK), h.left, h.right⟩
  -- returns
  have tx : ∀ t, t < T → ∀ i, Tight 0 M (r ^ t) (z t i) (x (t + k) i) := fun t ht i =>
    ⟨by rw [hzx, sub_self, abs_zero, zero_mul], by rw [hzx]; exact hx _ (by omega) i, hx _ (by omega) i⟩
  have tmu : ∀ t, t < T → ∀ i, Tight (0 * g1 + 2 * M) M (r ^ t) (muOf a.mean a.mu1h z t i) (muOf a.mean a.mu1h x (t + k) i) := fun t ht i => by
    rw [eg1, ea3]
    exact later_mu b1 r1 le_rfl i (fun j hj => tx j (by omega) i) fun j hj => hx j (by omega) i
  have bmu : ∀ t, t < T + k → ∀ i, |muOf a.mean a.mu1h x t i| ≤ M := fun t ht i => by
    unfold muOf
    split
    · rw [halflifeAverage_eq]; exact emaAvg_abs_le (betaOf_pos _) t fun j hj => hx j (by omega) i
    · rw [abs_zero]; exact hM
  have tc : ∀ t, t < T → ∀ i, Tight K1 (M + M) (r ^ t) (cRet a z t i) (cRet a x (t + k) i) := fun t ht i => by
    rw [eK1]
    exact (tx t ht i).sub (tmu t ht i)
  have bc' : ∀ t, t < T + k → ∀ i, |cRet a x t i| ≤ M + M := fun t ht i =>
    (abs_sub _ _).trans (add_le_add (hx t ht i) (bmu t ht i))
  have bsq : ∀ t, t < T + k → ∀ i, |cRet a x t i ^ 2| ≤ (M + M) * (M + M) := fun t ht i => by
    rw [sq, abs_mul]
    exact mul_le_mul (bc' t ht i) (bc' t ht i) (abs_nonneg _) (by linarith)
  have tv : ∀ t, t < T → a.minPeriodsVola - 1 ≤ (t : Int) → ∀ i, Tight K3 A3 (r ^ t) (vol a z t i) (vol a x (t + k) i) := by
    intro t ht hm i
    have h := Tight.avg_later (betaOf_pos hv) bv r1 (x := fun k => cRet a x k i ^ 2) (z := fun k => cRet a z k i ^ 2) nK2
      (t := t) (k := k) (A := (M + M) * (M + M)) (fun j hj => by
        rw [sq, sq, eK2]
        exact (tc j (by omega) i).mul (tc j (by omega) i)) fun j hj => bsq j (by omega) i
    rw [← halflifeAverage_eq, ← halflifeAverage_eq, ← ea1, ← volSq_none ha hcl, ← volSq_none ha hcl, ea1, ← egv] at h
    rw [eK3, eA3]
    exact h.sqrt hv0 (hvolx _ (by omega) (by omega) i) (hvolz t ht hm i)
  -- adjusted returns
  have ex : ∀ j, j < N + k → ∀ i, adjAt a (T + k) x j i = cRet a x (s0 + j) i / vol a x (s0 + j) i := fun j hj i => by
    unfold adjAt; rw [hgx j hj, hcl]; rfl
  have ez : ∀ j, j < N → ∀ i, adjAt a T z j i = cRet a z (s0 + j) i / vol a z (s0 + j) i := fun j hj i => by
    unfold adjAt; rw [hgz j hj, hcl]; rfl
  have hlt : ∀ j, j < N + k → s0 + j < T + k := fun j hj => by
    have : N ≠ 0 := fun h => hne (List.length_eq_zero_iff.1 (hN ▸ h))
    have := hrow (N - 1) (by omega)
    omega
  have ba : ∀ j, j < N + k → ∀ i, |adjAt a (T + k) x j i| ≤ A4 := fun j hj i => by
    have h := hvolx (s0 + j) (hlt j hj) (hmin j) i
    rw [ex j hj, abs_div, abs_of_pos (hv0.trans_le h), eA4]
    exact div_le_div₀ (by linarith) (bc' _ (hlt j hj) i) hv0 h
  have ta : ∀ j, j < N → ∀ i, Tight K4 A4 (r ^ j) (adjAt a T z j i) (adjAt a (T + k) x (j + k) i) := by
    intro j hj i
    refine weak nK4 ?_
    rw [ez j hj, ex (j + k) (by omega), eK4, eA4, ← Nat.add_assoc]
    exact (tc _ (hrow j hj) i).div (tv _ (hrow j hj) (hmin j) i) hv0 (hvolx _ (by have := hrow j hj; omega) (by have := hmin j; omega) i)
      (hvolz _ (hrow j hj) (hmin j) i)
  have tnu : ∀ j, j < N → ∀ i, Tight Kn A4 (r ^ j) (muOf a.mean a.mu2h (adjAt a T z) j i) (muOf a.mean a.mu2h (adjAt a (T + k) x) (j + k) i) :=
    fun j hj i => by
      rw [eKn, eg2, ea4]
      exact later_mu b2 r1 nK4 i (fun l hl => ta l (by omega) i) fun l hl => ba l (by omega) i
  have bnu : ∀ j, j < N + k → ∀ i, |muOf a.mean a.mu2h (adjAt a (T + k) x) j i| ≤ A4 := fun j hj i => by
    unfold muOf
    split
    · rw [halflifeAverage_eq]; exact emaAvg_abs_le (betaOf_pos _) j fun l hl => ba l (by omega) i
    · rw [abs_zero]; exact nA4
  have tz : ∀ j, j < N → ∀ i, Tight K5 (A4 + A4) (r ^ j) (zAt a T z j i) (zAt a (T + k) x (j + k) i) := fun j hj i => by
    rw [eK5]
    exact (ta j hj i).sub (tnu j hj i)
  have bz : ∀ j, j < N + k → ∀ i, |zAt a (T + k) x j i| ≤ A4 + A4 := fun j hj i => (abs_sub _ _).trans (add_le_add (ba j hj i) (bnu j hj i))
  have tC : ∀ j, j < N → ∀ p, Tight K6 A6 (r ^ j) (covAt a T z j p) (covAt a (T + k) x (j + k) p) := fun j hj p => by
    unfold covAt
    rw [halflifeAverage_eq, halflifeAverage_eq, ea2, eK6, eA6, egc]
    refine Tight.avg_later (betaOf_pos hc) bc r1 (x := fun l => zAt a (T + k) x l p.1 * zAt a (T + k) x l p.2) (by positivity)
      (fun l hl => (tz l (by omega) p.1).mul (tz l (by omega) p.2)) fun l hl => ?_
    rw [abs_mul]
    exact mul_le_mul (bz l (by omega) p.1) (bz l (by omega) p.2) (abs_nonneg _) (by linarith)
  obtain ⟨J, hJ⟩ : ∃ J, J = rowsFrom a.minPeriodsCov N := ⟨_, rfl⟩
  obtain ⟨J', hJ'⟩ : ∃ J, J = rowsFrom a.minPeriodsCov (N + k) := ⟨_, rfl⟩
  have hcz : ∀ j ∈ J, ∀ i, d0 ≤ covAt a T z j (i, i) := fun j hj => hcovz j (by rw [hJ, hN] at hj; exact hj)
  have hcx : ∀ j ∈ J', ∀ i, d0 ≤ covAt a (T + k) x j (i, i) := fun j hj => hcovx j (by rw [hJ', ← hNk] at hj; exact hj)
  have hJN : ∀ j ∈ J, j < N := fun j hj => rowsFrom_lt (hJ ▸ hj)
  have hJJ : ∀ j ∈ J, j + k ∈ J' := fun j hj => by
    rw [hJ, mem_rowsFrom] at hj
    rw [hJ', mem_rowsFrom]
    exact ⟨by omega, by omega⟩
  have hsd : 0 < Real.sqrt d0 := Real.sqrt_pos.2 hd0
  have tS : ∀ j ∈ J, ∀ p : ι × ι, Tight Ks (A3 * A3 * (A6 / d0)) (r ^ j)
      (vol a z (s0 + j) p.1 * vol a z (s0 + j) p.2 * (covAt a T z j p / (Real.sqrt (covAt a T z j (p.1, p.1)) * Real.sqrt (covAt a T z j (p.2, p.2)))))
      (vol a x (s0 + j + k) p.1 * vol a x (s0 + j + k) p.2 * (covAt a (T + k) x (j + k) p / (Real.sqrt (covAt a (T + k) x (j + k) (p.1, p.1)) *
        Real.sqrt (covAt a (T + k) x (j + k) (p.2, p.2))))) := by
    intro j hj p
    have hjN := hJN j hj
    have q : ∀ i, Tight (K6 / Real.sqrt d0) (Real.sqrt A6) (r ^ j) (Real.sqrt (covAt a T z j (i, i))) (Real.sqrt (covAt a (T + k) x (j + k) (i, i))) :=
      fun i => (tC j hjN (i, i)).sqrt hsd (Real.sqrt_le_sqrt (hcx _ (hJJ j hj) i)) (Real.sqrt_le_sqrt (hcz j hj i))
    have hlow : ∀ {u w : ℝ}, d0 ≤ u → d0 ≤ w → d0 ≤ Real.sqrt u * Real.sqrt w := fun {u w} hu hw => by
      refine (Real.mul_self_sqrt hd0.le).symm.le.trans ?_
      exact mul_le_mul (Real.sqrt_le_sqrt hu) (Real.sqrt_le_sqrt hw) hsd.le (Real.sqrt_nonneg _)
    have d := (tC j hjN p).div ((q p.1).mul (q p.2)) hd0 (hlow (hcx _ (hJJ j hj) p.1) (hcx _ (hJJ j hj) p.2)) (hlow (hcz j hj p.1) (hcz j hj p.2))
    have w := weak (by positivity) ((tv _ (hrow j hjN) (hmin j) p.1).mul (tv _ (hrow j hjN) (hmin j) p.2))
    rw [eKs, eKr, eKd]
    exact w.mul d
  have tm' : ∀ j ∈ J, ∀ i, |meanAt a T z j i - meanAt a (T + k) x (j + k) i| ≤ Km * r ^ j := by
    intro j hj i
    have hjN := hJN j hj
    have h := (weak (by positivity) (tmu _ (hrow j hjN) i)).add ((weak nK3 (tv _ (hrow j hjN) (hmin j) i)).mul (tnu j hjN i))
    rw [eKm]
    unfold meanAt
    rw [hgx (j + k) (by omega), hgz j hjN, ← Nat.add_assoc]
    by_cases hm : a.mean = true
    · rw [if_pos hm, if_pos hm]; exact h.diff
    · rw [if_neg hm, if_neg hm, sub_self, abs_zero]; exact h.nonneg
  have run : ∀ (u : ℕ → ι → ℝ) (T' N' : ℕ) (lab : ℕ → τ), DistinctTimes T' lab → live a T' u = rowsFrom a.minPeriodsVola T' →
      rowsFrom a.minPeriodsVola T' ≠ [] → (rowsFrom a.minPeriodsVola T').length = N' → (∀ j, j < N' → (live a T' u).getD j 0 = s0 + j) →
      (∀ j ∈ rowsFrom a.minPeriodsCov N', ∀ i, d0 ≤ covAt a T' u j (i, i)) →
      iteratedEwma (finFrame T' lab u) a.toArgs = .ok (((rowsFrom a.minPeriodsCov N').map fun j => s0 + j).map fun t =>
        { time := lab t, mean := finRow (meanAt a T' u (t - s0)), covariance := finRow fun p =>
            vol a u t p.1 * vol a u t p.2 * (covAt a T' u (t - s0) p /
              (Real.sqrt (covAt a T' u (t - s0) (p.1, p.1)) * Real.sqrt (covAt a T' u (t - s0) (p.2, p.2)))),
          volatility := finRow (vol a u t) }) := by
    intro u T' N' lab hd' hl hne' hlen hg hc'
    rw [iteratedEwma_fin ha hd' u, if_neg (hl ▸ hne'), hl, hlen, List.map_map]
    congr 1
    refine List.map_congr_left fun j hj => ?_
    have h1 := hc' j hj
    simp only [Function.comp, itemAt, hg j (rowsFrom_lt hj), Nat.add_sub_cancel_left]
    congr 1
    unfold finRow
    ext p
    simp only [Arr.get_ofFn, sigmaAt, hg j (rowsFrom_lt hj)]
    rw [if_neg (by
      rintro (h | h)
      · have := h1 p.1; linarith
      · have := h1 p.2; linarith)]
  refine ⟨J'.map fun j => s0 + j, J.map fun j => s0 + j, _, _, _, _, _, _, hJ' ▸ run x (T + k) (N + k) tm hd hlx hnek hNk hgx (hJ' ▸ hcx),
    hJ ▸ run z T N (fun t => tm (t + k)) hdz hlz hne hN.symm hgz (hJ ▸ hcz), ?_⟩
  intro t ht
  obtain ⟨j, hj, rfl⟩ := List.mem_map.1 ht
  rw [← betaOf_pow, ← hr, ← hs0, Nat.add_sub_cancel_left, show s0 + j + k - s0 = j + k by omega]
  have hp : 0 ≤ r ^ j := pow_nonneg r0.le _
  refine ⟨List.mem_map.2 ⟨j + k, hJJ j hj, by omega⟩, fun i => ?_, fun i => ?_, fun i l => ?_⟩
  · exact (tm' j hj i).trans (mul_le_mul_of_nonneg_right (le_max_left _ _) hp)
  · exact (weak nK3 (tv _ (hrow j (hJN j hj)) (hmin j) i)).diff.trans
      (mul_le_mul_of_nonneg_right ((le_max_left _ _).trans (le_max_right _ _)) hp)
  · exact ⟨(tS j hj (i, l)).diff.trans (mul_le_mul_of_nonneg_right ((le_max_right _ _).trans (le_max_right _ _)) hp), (tS j hj (i, l)).right,
      (tS j hj (i, l)).left⟩

/-- **C208.** What `iterated_ewma` predicts from a history that starts `k` rows later. Without clipping, with or without the mean, fix the half-lives, any `H`
longer than all of them, a bound `M` on the returns, and positive lower bounds `v0` on the volatilities (from row `min_periods_vola - 1` on) and `d0` on the
second moments of the volatility-adjusted returns, of both histories. There is a constant `K` such that, for any history, any number of rows `k` left out and any
number of assets, every row with a result for the shorter history has one for the whole history, and the means, volatilities and covariances differ by at most
`K 2^(-j/H)` if the row is `j` rows after row `min_periods_vola - 1` of the shorter history. -/
theorem C208_later_start {hv hc h1 h2 H M v0 d0 : ℝ} (hhv : 0 < hv) (hhc : 0 < hc) (hh1 : 0 < h1) (hh2 : 0 < h2) (hvH : hv < H) (hcH : hc < H)
    (h1H : h1 < H) (h2H : h2 < H) (hM : 0 ≤ M) (hv0 : 0 < v0) (hd0 : 0 < d0) :
    ∃ K : ℝ, ∀ (τ ι : Type) [DecidableEq τ] [Ix ι] [Nonempty ι] (a : RealArgs), a.Valid → a.volaHalflife = hv → a.covHalflife = hc → a.mu1h = h1 →
      a.mu2h = h2 → a.clip = none →
      ∀ (T k : ℕ) (tm : ℕ → τ) (x : ℕ → ι → ℝ), DistinctTimes (T + k) tm → 0 < T → a.minPeriodsVola ≤ T →
        (∀ t, t < T + k → ∀ i, |x t i| ≤ M) →
        (∀ t, t < T + k → a.minPeriodsVola - 1 ≤ (t : Int) → ∀ i, v0 ≤ vol a x t i) →
        (∀ t, t < T → a.minPeriodsVola - 1 ≤ (t : Int) → ∀ i, v0 ≤ vol a (fun t => x (t + k)) t i) →
        (∀ j ∈ rowsFrom a.minPeriodsCov (rowsFrom a.minPeriodsVola (T + k)).length, ∀ i, d0 ≤ covAt a (T + k) x j (i, i)) →
        (∀ j ∈ rowsFrom a.minPeriodsCov (rowsFrom a.minPeriodsVola T).length, ∀ i, d0 ≤ covAt a T (fun t => x (t + k)) j (i, i)) →
        ∃ (rows rows' : List ℕ) (m m' v v' : ℕ → ι → ℝ) (S S' : ℕ → ι × ι → ℝ),
          iteratedEwma (finFrame (T + k) tm x) a.toArgs
            = .ok (rows.map fun t => { time := tm t, mean := finRow (m t), covariance := finRow (S t), volatility := finRow (v t) }) ∧
          iteratedEwma (finFrame T (fun t => tm (t + k)) fun t => x (t + k)) a.toArgs
            = .ok (rows'.map fun t => { time := tm (t + k), mean := finRow (m' t), covariance := finRow (S' t), volatility := finRow (v' t) }) ∧
          ∀ t ∈ rows', t + k ∈ rows ∧
            (∀ i, |m' t i - m (t + k) i| ≤ K * (2 : ℝ) ^ (-((t - (a.minPeriodsVola - 1).toNat : ℕ) : ℝ) / H)) ∧
            (∀ i, |v' t i - v (t + k) i| ≤ K * (2 : ℝ) ^ (-((t - (a.minPeriodsVola - 1).toNat : ℕ) : ℝ) / H)) ∧
            ∀ i j, |S' t (i, j) - S (t + k) (i, j)| ≤ K * (2 : ℝ) ^ (-((t - (a.minPeriodsVola - 1).toNat : ℕ) : ℝ) / H) := by
  obtain ⟨K, B, h⟩ := restart_bounded hhv hhc hh1 hh2 hvH hcH h1H h2H hM hv0 hd0
  refine ⟨K, ?_⟩
  intro τ ι _ _ _ a ha e1 e2 e3 e4 hcl T k tm x hd hT hmT hx hvx hvz hcx hcz
  obtain ⟨rows, rows', m, m', v, v', S, S', r1, r2, h3⟩ := h τ ι a ha e1 e2 e3 e4 hcl T k tm x hd hT hmT hx hvx hvz hcx hcz
  exact ⟨rows, rows', m, m', v, v', S, S', r1, r2, fun t ht => ⟨(h3 t ht).1, (h3 t ht).2.1, (h3 t ht).2.2.1, fun i j => ((h3 t ht).2.2.2 i j).1⟩⟩

namespace RestartEx
open RoundedIewmaEx

/-- Half-lives of 63 and 125 rows, two assets with returns of one percent up or down: for every number of rows left out at the start, the predictions differ
by at most `K 2^(-(t-19)/126)` in the `t`-th row of the shorter history. -/
example : ∃ K : ℝ, ∀ (T k : ℕ) (x : ℕ → Fin 2 → ℝ), 20 ≤ T → (∀ t i, |x t i| = 1 / 100) →
    ∃ (rows rows' : List ℕ) (m m' v v' : ℕ → Fin 2 → ℝ) (S S' : ℕ → Fin 2 × Fin 2 → ℝ),
      iteratedEwma (finFrame (T + k) (fun t => t) x) args.toArgs
        = .ok (rows.map fun t => { time := t, mean := finRow (m t), covariance := finRow (S t), volatility := finRow (v t) }) ∧
      iteratedEwma (finFrame T (fun t => t + k) fun t => x (t + k)) args.toArgs
        = .ok (rows'.map fun t => { time := t + k, mean := finRow (m' t), covariance := finRow (S' t), volatility := finRow (v' t) }) ∧
      ∀ t ∈ rows', t + k ∈ rows ∧ ∀ i j, |S' t (i, j) - S (t + k) (i, j)| ≤ K * (2 : ℝ) ^ (-((t - 19 : ℕ) : ℝ) / 126) := by
  obtain ⟨K, h⟩ := C208_later_start (hv := 63) (hc := 125) (h1 := 63) (h2 := 125) (H := 126) (M := 1 / 100) (v0 := 1 / 100) (d0 := 1)
    (by norm_num) (by norm_num) (by norm_num) (by norm_num) (by norm_num) (by norm_num) (by norm_num) (by norm_num) (by norm_num) (by norm_num)
    (by norm_num)
  refine ⟨K, fun T k x hT hx => ?_⟩
  have hz : ∀ t i, |(fun t => x (t + k)) t i| = 1 / 100 := fun t i => hx (t + k) i
  obtain ⟨rows, rows', m, m', v, v', S, S', r1, r2, r3⟩ := h ℕ (Fin 2) args args_valid rfl rfl (by simp [args, RealArgs.mu1h, orElse])
    (by simp [args, RealArgs.mu2h, orElse]) RoundedIewmaEx.clip_eq T k (fun t => t) x (fun _ _ _ _ h => h) (by omega) (by simp only [args]; omega)
    (fun t _ i => (hx t i).le) (fun t _ _ i => (vol_eq hx t i).ge) (fun t _ _ i => (vol_eq hz t i).ge)
    (fun j _ i => (cov_eq hx _ j i).ge) (fun j _ i => (cov_eq hz T j i).ge)
  exact ⟨rows, rows', m, m', v, v', S, S', r1, r2, fun t ht => ⟨(r3 t ht).1, fun i j => (r3 t ht).2.2.2 i j⟩⟩

end RestartEx

end CovPred
