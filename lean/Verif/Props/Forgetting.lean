import Verif.Lemmas.Forgetting
import Verif.Props.RoundedIewma
import Verif.Props.Memory

/-
Property C206: how fast `iterated_ewma` forgets the past.
-/
set_option linter.unusedSectionVars false
namespace CovPred

variable {τ ι : Type} [DecidableEq τ] [Ix ι]

private theorem tight_mu {K A r : ℝ} {mean : Bool} {h : ℝ} (h1 : betaOf h < r) {x y : ℕ → ι → ℝ} {ε : ℕ → ℝ} {t : ℕ} (hK : 0 ≤ K)
    (hε : ∀ k ≤ t, ε k * r ^ (t - k) ≤ ε t) (i : ι) (hx : ∀ k ≤ t, Tight K A (ε k) (y k i) (x k i)) :
    Tight (K * memoryGain (betaOf h) r) A (ε t) (muOf mean h y t i) (muOf mean h x t i) := by
  have h0 := Tight.avg (betaOf_pos h) h1 (x := fun k => x k i) (y := fun k => y k i) hK hε hx
  unfold muOf
  cases mean with
  | true =>
    simp only [if_true]
    rw [halflifeAverage_eq, halflifeAverage_eq]
    exact h0
  | false =>
    simp only [Bool.false_eq_true, if_false]
    have hA := h0.bound_nonneg
    exact ⟨by simpa using h0.nonneg, by simpa using hA, by simpa using hA⟩

/-- C206 with a bound on the covariances -/
theorem forgets_bounded {hv hc h1 h2 H M v0 d0 : ℝ} (hhv : 0 < hv) (hhc : 0 < hc) (hh1 : 0 < h1) (hh2 : 0 < h2) (hvH : hv < H) (hcH : hc < H)
    (h1H : h1 < H) (h2H : h2 < H) (hM : 0 ≤ M) (hv0 : 0 < v0) (hd0 : 0 < d0) :
    ∃ K B : ℝ, ∀ (τ ι : Type) [DecidableEq τ] [Ix ι] [Nonempty ι] (a : RealArgs), a.Valid → a.volaHalflife = hv → a.covHalflife = hc → a.mu1h = h1 →
      a.mu2h = h2 → a.clip = none →
      ∀ (T : ℕ) (tm : ℕ → τ) (x y : ℕ → ι → ℝ), DistinctTimes T tm → 0 < T → a.minPeriodsVola ≤ T →
        (∀ t, t < T → ∀ i, |x t i| ≤ M ∧ |y t i| ≤ M) →
        (∀ t, t < T → a.minPeriodsVola - 1 ≤ (t : Int) → ∀ i, v0 ≤ vol a x t i ∧ v0 ≤ vol a y t i) →
        (∀ j ∈ rowsFrom a.minPeriodsCov (rowsFrom a.minPeriodsVola T).length, ∀ i, d0 ≤ covAt a T x j (i, i) ∧ d0 ≤ covAt a T y j (i, i)) →
        ∀ s, (∀ t, s ≤ t → t < T → x t = y t) →
        ∃ (rows : List ℕ) (m m' v v' : ℕ → ι → ℝ) (S S' : ℕ → ι × ι → ℝ),
          iteratedEwma (finFrame T tm x) a.toArgs
            = .ok (rows.map fun t => { time := tm t, mean := finRow (m t), covariance := finRow (S t), volatility := finRow (v t) }) ∧
          iteratedEwma (finFrame T tm y) a.toArgs
            = .ok (rows.map fun t => { time := tm t, mean := finRow (m' t), covariance := finRow (S' t), volatility := finRow (v' t) }) ∧
          ∀ t ∈ rows, (∀ i, |m' t i - m t i| ≤ K * (2 : ℝ) ^ (-((t - s : ℕ) : ℝ) / H)) ∧
            (∀ i, |v' t i - v t i| ≤ K * (2 : ℝ) ^ (-((t - s : ℕ) : ℝ) / H)) ∧
            ∀ i j, |S' t (i, j) - S t (i, j)| ≤ K * (2 : ℝ) ^ (-((t - s : ℕ) : ℝ) / H) ∧ |S t (i, j)| ≤ B ∧ |S' t (i, j)| ≤ B := by
  have hH : 0 < H := hhv.trans hvH
  set r := betaOf H with hr
  have r0 : 0 < r := betaOf_pos H
  have r1 : r < 1 := betaOf_lt_one hH
  have hlt : ∀ h, 0 < h → h < H → betaOf h < r := by
    intro h hh hhH
    rw [hr]
    unfold betaOf
    refine Real.exp_lt_exp.2 ?_
    rw [neg_div, neg_div, neg_lt_neg_iff]
    exact div_lt_div_of_pos_left (Real.log_pos (by norm_num)) hh hhH
  have bv := hlt hv hhv hvH
  have bc := hlt hc hhc hcH
  have b1 := hlt h1 hh1 h1H
  have b2 := hlt h2 hh2 h2H
  obtain ⟨gv, egv⟩ : ∃ g, g = memoryGain (betaOf hv) r := ⟨_, rfl⟩
  obtain ⟨gc, egc⟩ : ∃ g, g = memoryGain (betaOf hc) r := ⟨_, rfl⟩
  obtain ⟨g1, eg1⟩ : ∃ g, g = memoryGain (betaOf h1) r := ⟨_, rfl⟩
  obtain ⟨g2, eg2⟩ : ∃ g, g = memoryGain (betaOf h2) r := ⟨_, rfl⟩
  have ngv : 0 ≤ gv := egv ▸ memoryGain_nonneg (betaOf_pos _) bv
  have ngc : 0 ≤ gc := egc ▸ memoryGain_nonneg (betaOf_pos _) bc
  have ng1 : 0 ≤ g1 := eg1 ▸ memoryGain_nonneg (betaOf_pos _) b1
  have ng2 : 0 ≤ g2 := eg2 ▸ memoryGain_nonneg (betaOf_pos _) b2
  -- the constants of the centred returns, their squares, the volatilities, the adjusted returns
  obtain ⟨K1, eK1⟩ : ∃ K, K = 2 * M + 2 * M * g1 := ⟨_, rfl⟩
  obtain ⟨K2, eK2⟩ : ∃ K, K = K1 * (M + M) + (M + M) * K1 := ⟨_, rfl⟩
  obtain ⟨K3, eK3⟩ : ∃ K, K = K2 * gv / v0 := ⟨_, rfl⟩
  obtain ⟨A3, eA3⟩ : ∃ A, A = Real.sqrt ((M + M) * (M + M)) := ⟨_, rfl⟩
  obtain ⟨K4, eK4⟩ : ∃ K, K = K1 / v0 + (M + M) * K3 / (v0 * v0) := ⟨_, rfl⟩
  obtain ⟨A4, eA4⟩ : ∃ A, A = (M + M) / v0 := ⟨_, rfl⟩
  obtain ⟨K5, eK5⟩ : ∃ K, K = K4 + K4 * g2 := ⟨_, rfl⟩
  obtain ⟨K6, eK6⟩ : ∃ K, K = (K5 * (A4 + A4) + (A4 + A4) * K5) * gc := ⟨_, rfl⟩
  obtain ⟨A6, eA6⟩ : ∃ A, A = (A4 + A4) * (A4 + A4) := ⟨_, rfl⟩
  have nA3 : 0 ≤ A3 := eA3 ▸ Real.sqrt_nonneg _
  have nK1 : 0 ≤ K1 := by rw [eK1]; positivity
  have nK2 : 0 ≤ K2 := by rw [eK2]; positivity
  have nK3 : 0 ≤ K3 := by rw [eK3]; positivity
  have nK4 : 0 ≤ K4 := by rw [eK4]; positivity
  have nA4 : 0 ≤ A4 := by rw [eA4]; positivity
  have nK5 : 0 ≤ K5 := by rw [eK5]; positivity
  have nK6 : 0 ≤ K6 := by rw [eK6]; positivity
  obtain ⟨Kd, eKd⟩ : ∃ K, K = K6 / Real.sqrt d0 * Real.sqrt A6 + Real.sqrt A6 * (K6 / Real.sqrt d0) := ⟨_, rfl⟩
  obtain ⟨Kr, eKr⟩ : ∃ K, K = K6 / d0 + A6 * Kd / (d0 * d0) := ⟨_, rfl⟩
  obtain ⟨Ks, eKs⟩ : ∃ K, K = (K3 * A3 + A3 * K3) * (A6 / d0) + A3 * A3 * Kr := ⟨_, rfl⟩
  obtain ⟨Km, eKm⟩ : ∃ K, K = 2 * M * g1 + (K3 * A4 + A3 * (K4 * g2)) := ⟨_, rfl⟩
  refine ⟨max Km (max K3 Ks), A3 * A3 * (A6 / d0), ?_⟩
  intro τ ι _ _ _ a ha ea1 ea2 ea3 ea4 hcl T tm x y hd hT hmT hxy hvol hcov s hs
  have hlx : live a T x = rowsFrom a.minPeriodsVola T := live_of_vol hv0 fun t ht hm i => (hvol t ht hm i).1
  have hly : live a T y = rowsFrom a.minPeriodsVola T := live_of_vol hv0 fun t ht hm i => (hvol t ht hm i).2
  obtain ⟨N, hN⟩ : ∃ N, N = (rowsFrom a.minPeriodsVola T).length := ⟨_, rfl⟩
  obtain ⟨s0, hs0⟩ : ∃ k, k = (a.minPeriodsVola - 1).toNat := ⟨_, rfl⟩
  have hgx : ∀ j, j < N → (live a T x).getD j 0 = s0 + j := fun j hj => by rw [hlx, hs0]; exact rowsFrom_getD (hN ▸ hj)
  have hgy : ∀ j, j < N → (live a T y).getD j 0 = s0 + j := fun j hj => by rw [hly, hs0]; exact rowsFrom_getD (hN ▸ hj)
  have hrow : ∀ j, j < N → s0 + j < T := fun j hj => by
    have := rowsFrom_getD (hN ▸ hj)
    rw [← hs0] at this
    rw [← this]
    rw [hN] at hj
    rw [getD_lt hj]
    exact rowsFrom_lt (List.getElem_mem hj)
  have hne : rowsFrom a.minPeriodsVola T ≠ [] := List.ne_nil_of_mem (mem_rowsFrom.2 ⟨show T - 1 < T by omega, by omega⟩)
  have hstep : ∀ t, ∀ k ≤ t, r ^ (k - s) * r ^ (t - k) ≤ r ^ (t - s) := fun t k hk => by simpa using rate_step r0 r1 0 s hk
  -- returns
  have tx : ∀ t, t < T → ∀ i, Tight (2 * M) M (r ^ (t - s)) (y t i) (x t i) := fun t ht i =>
    ⟨by
      by_cases h : s ≤ t
      · rw [hs t h ht, sub_self, abs_zero]; positivity
      · rw [show t - s = 0 by omega, pow_zero, mul_one, two_mul]
        exact (abs_sub _ _).trans (add_le_add (hxy t ht i).2 (hxy t ht i).1), (hxy t ht i).2, (hxy t ht i).1⟩
  have tmu : ∀ t, t < T → ∀ i, Tight (2 * M * g1) M (r ^ (t - s)) (muOf a.mean a.mu1h y t i) (muOf a.mean a.mu1h x t i) := fun t ht i => by
    rw [eg1, ea3]
    exact tight_mu b1 (ε := fun k => r ^ (k - s)) (by positivity) (hstep t) i fun k hk => tx k (by omega) i
  have tc : ∀ t, t < T → ∀ i, Tight K1 (M + M) (r ^ (t - s)) (cRet a y t i) (cRet a x t i) := fun t ht i => by
    rw [eK1]
    exact (tx t ht i).sub (tmu t ht i)
  have tv : ∀ t, t < T → a.minPeriodsVola - 1 ≤ (t : Int) → ∀ i, Tight K3 A3 (r ^ (t - s)) (vol a y t i) (vol a x t i) := by
    intro t ht hm i
    have h := Tight.avg (betaOf_pos hv) bv (x := fun k => cRet a x k i ^ 2) (y := fun k => cRet a y k i ^ 2) (ε := fun k => r ^ (k - s)) nK2
      (hstep t) (t := t) (A := (M + M) * (M + M)) fun k hk => by
        rw [sq, sq, eK2]
        exact (tc k (by omega) i).mul (tc k (by omega) i)
    rw [← halflifeAverage_eq, ← halflifeAverage_eq, ← ea1, ← volSq_none ha hcl, ← volSq_none ha hcl, ea1, ← egv] at h
    rw [eK3, eA3]
    exact h.sqrt hv0 (hvol t ht hm i).1 (hvol t ht hm i).2
  have hmin : ∀ j, a.minPeriodsVola - 1 ≤ ((s0 + j : ℕ) : Int) := fun j => by omega
  -- adjusted returns
  have ta : ∀ j, j < N → ∀ i, Tight K4 A4 (r ^ (s0 + j - s)) (adjAt a T y j i) (adjAt a T x j i) := by
    intro j hj i
    unfold adjAt
    rw [hgx j hj, hgy j hj, hcl, eK4, eA4]
    exact (tc _ (hrow j hj) i).div (tv _ (hrow j hj) (hmin j) i) hv0 (hvol _ (hrow j hj) (hmin j) i).1 (hvol _ (hrow j hj) (hmin j) i).2
  have hstep2 : ∀ j, ∀ k ≤ j, r ^ (s0 + k - s) * r ^ (j - k) ≤ r ^ (s0 + j - s) := fun j k hk => rate_step r0 r1 s0 s hk
  have tnu : ∀ j, j < N → ∀ i, Tight (K4 * g2) A4 (r ^ (s0 + j - s)) (muOf a.mean a.mu2h (adjAt a T y) j i) (muOf a.mean a.mu2h (adjAt a T x) j i) :=
    fun j hj i => by
      rw [eg2, ea4]
      exact tight_mu b2 (ε := fun k => r ^ (s0 + k - s)) nK4 (hstep2 j) i fun k hk => ta k (by omega) i
  have tz : ∀ j, j < N → ∀ i, Tight K5 (A4 + A4) (r ^ (s0 + j - s)) (zAt a T y j i) (zAt a T x j i) := fun j hj i => by
    rw [eK5]
    exact (ta j hj i).sub (tnu j hj i)
  have tC : ∀ j, j < N → ∀ p, Tight K6 A6 (r ^ (s0 + j - s)) (covAt a T y j p) (covAt a T x j p) := fun j hj p => by
    unfold covAt
    rw [halflifeAverage_eq, halflifeAverage_eq, ea2, eK6, eA6, egc]
    exact Tight.avg (betaOf_pos hc) bc (ε := fun k => r ^ (s0 + k - s)) (by positivity) (hstep2 j) fun k hk =>
      (tz k (by omega) p.1).mul (tz k (by omega) p.2)
  obtain ⟨J, hJ⟩ : ∃ J, J = rowsFrom a.minPeriodsCov N := ⟨_, rfl⟩
  have hcov' : ∀ j ∈ J, ∀ i, d0 ≤ covAt a T x j (i, i) ∧ d0 ≤ covAt a T y j (i, i) := fun j hj => hcov j (by rw [hJ, hN] at hj; exact hj)
  have hJN : ∀ j ∈ J, j < N := fun j hj => rowsFrom_lt (hJ ▸ hj)
  have hsd : 0 < Real.sqrt d0 := Real.sqrt_pos.2 hd0
  have tS : ∀ j ∈ J, ∀ p : ι × ι, Tight Ks (A3 * A3 * (A6 / d0)) (r ^ (s0 + j - s))
      (vol a y (s0 + j) p.1 * vol a y (s0 + j) p.2 * (covAt a T y j p / (Real.sqrt (covAt a T y j (p.1, p.1)) * Real.sqrt (covAt a T y j (p.2, p.2)))))
      (vol a x (s0 + j) p.1 * vol a x (s0 + j) p.2 * (covAt a T x j p / (Real.sqrt (covAt a T x j (p.1, p.1)) * Real.sqrt (covAt a T x j (p.2, p.2))))) := by
    intro j hj p
    have hjN := hJN j hj
    have q : ∀ i, Tight (K6 / Real.sqrt d0) (Real.sqrt A6) (r ^ (s0 + j - s)) (Real.sqrt (covAt a T y j (i, i))) (Real.sqrt (covAt a T x j (i, i))) :=
      fun i => (tC j hjN (i, i)).sqrt hsd (Real.sqrt_le_sqrt (hcov' j hj i).1) (Real.sqrt_le_sqrt (hcov' j hj i).2)
    have hlow : ∀ {u w : ℝ}, d0 ≤ u → d0 ≤ w → d0 ≤ Real.sqrt u * Real.sqrt w := fun {u w} hu hw => by
      refine (Real.mul_self_sqrt hd0.le).symm.le.trans ?_
      exact mul_le_mul (Real.sqrt_le_sqrt hu) (Real.sqrt_le_sqrt hw) hsd.le (Real.sqrt_nonneg _)
    have d := (tC j hjN p).div ((q p.1).mul (q p.2)) hd0 (hlow (hcov' j hj p.1).1 (hcov' j hj p.2).1) (hlow (hcov' j hj p.1).2 (hcov' j hj p.2).2)
    have w := (tv _ (hrow j hjN) (hmin j) p.1).mul (tv _ (hrow j hjN) (hmin j) p.2)
    rw [eKs, eKr, eKd]
    exact w.mul d
  have tm' : ∀ j ∈ J, ∀ i, |meanAt a T y j i - meanAt a T x j i| ≤ Km * r ^ (s0 + j - s) := by
    intro j hj i
    have hjN := hJN j hj
    have h := (tmu _ (hrow j hjN) i).add ((tv _ (hrow j hjN) (hmin j) i).mul (tnu j hjN i))
    rw [eKm]
    unfold meanAt
    rw [hgx j hjN, hgy j hjN]
    by_cases hm : a.mean = true
    · rw [if_pos hm, if_pos hm]; exact h.diff
    · rw [if_neg hm, if_neg hm, sub_self, abs_zero]; exact h.nonneg
  have run : ∀ u : ℕ → ι → ℝ, live a T u = rowsFrom a.minPeriodsVola T → (∀ j, j < N → (live a T u).getD j 0 = s0 + j) →
      (∀ j ∈ J, ∀ i, d0 ≤ covAt a T u j (i, i)) →
      iteratedEwma (finFrame T tm u) a.toArgs = .ok ((J.map fun j => s0 + j).map fun t =>
        { time := tm t, mean := finRow (meanAt a T u (t - s0)), covariance := finRow fun p =>
            vol a u t p.1 * vol a u t p.2 * (covAt a T u (t - s0) p /
              (Real.sqrt (covAt a T u (t - s0) (p.1, p.1)) * Real.sqrt (covAt a T u (t - s0) (p.2, p.2)))),
          volatility := finRow (vol a u t) }) := by
    intro u hl hg hc'
    rw [iteratedEwma_fin ha hd u, if_neg (hl ▸ hne), hl, ← hN, ← hJ, List.map_map]
    congr 1
    refine List.map_congr_left fun j hj => ?_
    have h1 := hc' j hj
    simp only [Function.comp, itemAt, hg j (hJN j hj), Nat.add_sub_cancel_left]
    congr 1
    unfold finRow
    ext p
    simp only [Arr.get_ofFn, sigmaAt, hg j (hJN j hj)]
    rw [if_neg (by
      rintro (h | h)
      · have := h1 p.1; linarith
      · have := h1 p.2; linarith)]
  refine ⟨J.map fun j => s0 + j, _, _, _, _, _, _, run x hlx hgx fun j hj i => (hcov' j hj i).1, run y hly hgy fun j hj i => (hcov' j hj i).2, ?_⟩
  intro t ht
  obtain ⟨j, hj, rfl⟩ := List.mem_map.1 ht
  rw [← betaOf_pow, ← hr, Nat.add_sub_cancel_left]
  have hp : 0 ≤ r ^ (s0 + j - s) := pow_nonneg r0.le _
  refine ⟨fun i => ?_, fun i => ?_, fun i k => ?_⟩
  · exact (tm' j hj i).trans (mul_le_mul_of_nonneg_right (le_max_left _ _) hp)
  · exact (tv _ (hrow j (hJN j hj)) (hmin j) i).diff.trans
      (mul_le_mul_of_nonneg_right ((le_max_left _ _).trans (le_max_right _ _)) hp)
  · exact ⟨(tS j hj (i, k)).diff.trans (mul_le_mul_of_nonneg_right ((le_max_right _ _).trans (le_max_right _ _)) hp), (tS j hj (i, k)).right,
      (tS j hj (i, k)).left⟩

/-- **C206.** Without clipping, with or without the mean, `iterated_ewma` forgets at the rate of its longest half-life. Fix the half-lives, any `H` longer
than all of them, a bound `M` on the returns and positive lower bounds `v0` on the volatilities (from row `min_periods_vola - 1` on) and `d0`
on the second moments of the volatility-adjusted returns. There is a constant `K` such that for any two histories within the bounds, of any length
and any number of assets, that agree from row `s` on, both calls give results for the same rows and at row `t` the means, volatilities and covariances
differ at most by `K 2^(-(t-s)/H)`. -/
theorem C206_forgets {hv hc h1 h2 H M v0 d0 : ℝ} (hhv : 0 < hv) (hhc : 0 < hc) (hh1 : 0 < h1) (hh2 : 0 < h2) (hvH : hv < H) (hcH : hc < H)
    (h1H : h1 < H) (h2H : h2 < H) (hM : 0 ≤ M) (hv0 : 0 < v0) (hd0 : 0 < d0) :
    ∃ K : ℝ, ∀ (τ ι : Type) [DecidableEq τ] [Ix ι] [Nonempty ι] (a : RealArgs), a.Valid → a.volaHalflife = hv → a.covHalflife = hc → a.mu1h = h1 →
      a.mu2h = h2 → a.clip = none →
      ∀ (T : ℕ) (tm : ℕ → τ) (x y : ℕ → ι → ℝ), DistinctTimes T tm → 0 < T → a.minPeriodsVola ≤ T →
        (∀ t, t < T → ∀ i, |x t i| ≤ M ∧ |y t i| ≤ M) →
        (∀ t, t < T → a.minPeriodsVola - 1 ≤ (t : Int) → ∀ i, v0 ≤ vol a x t i ∧ v0 ≤ vol a y t i) →
        (∀ j ∈ rowsFrom a.minPeriodsCov (rowsFrom a.minPeriodsVola T).length, ∀ i, d0 ≤ covAt a T x j (i, i) ∧ d0 ≤ covAt a T y j (i, i)) →
        ∀ s, (∀ t, s ≤ t → t < T → x t = y t) →
        ∃ (rows : List ℕ) (m m' v v' : ℕ → ι → ℝ) (S S' : ℕ → ι × ι → ℝ),
          iteratedEwma (finFrame T tm x) a.toArgs
            = .ok (rows.map fun t => { time := tm t, mean := finRow (m t), covariance := finRow (S t), volatility := finRow (v t) }) ∧
          iteratedEwma (finFrame T tm y) a.toArgs
            = .ok (rows.map fun t => { time := tm t, mean := finRow (m' t), covariance := finRow (S' t), volatility := finRow (v' t) }) ∧
          ∀ t ∈ rows, (∀ i, |m' t i - m t i| ≤ K * (2 : ℝ) ^ (-((t - s : ℕ) : ℝ) / H)) ∧
            (∀ i, |v' t i - v t i| ≤ K * (2 : ℝ) ^ (-((t - s : ℕ) : ℝ) / H)) ∧
            ∀ i j, |S' t (i, j) - S t (i, j)| ≤ K * (2 : ℝ) ^ (-((t - s : ℕ) : ℝ) / H) := by
  obtain ⟨K, B, h⟩ := forgets_bounded hhv hhc hh1 hh2 hvH hcH h1H h2H hM hv0 hd0
  refine ⟨K, ?_⟩
  intro τ ι _ _ _ a ha e1 e2 e3 e4 hcl T tm x y hd hT hmT hxy hvol hcov s hs
  obtain ⟨rows, m, m', v, v', S, S', r1, r2, h3⟩ := h τ ι a ha e1 e2 e3 e4 hcl T tm x y hd hT hmT hxy hvol hcov s hs
  exact ⟨rows, m, m', v, v', S, S', r1, r2, fun t ht => ⟨(h3 t ht).1, (h3 t ht).2.1, fun i j => ((h3 t ht).2.2 i j).1⟩⟩

/-- **C206.** With clipping at a level above 1 (and without the mean) nothing of the kind holds: for every factor `l` there are two bounded histories
that agree after row `max 0 min_periods_vola`, with volatilities between positive bounds, for which the volatilities in every result differ by the
factor `l`, however long the histories are. -/
theorem C206_not_with_clip [Nonempty ι] {a : RealArgs} (ha : a.Valid) (hm : a.mean = false) {c : ℝ} (hc : 1 < c) (hcl : a.clip = some c) {l : ℝ}
    (hl : 0 < l) :
    ∃ (x y : ℕ → ι → ℝ) (M lo hi : ℝ), 0 < lo ∧ (∀ t i, |x t i| ≤ M ∧ |y t i| ≤ M) ∧
      (∀ t : ℕ, a.minPeriodsVola < (t : Int) → 0 < t → x t = y t) ∧
      ∀ (T : ℕ) (tm : ℕ → τ), DistinctTimes T tm → 0 < T → a.minPeriodsVola ≤ T → ∃ rs rs' : List (IEWMA τ ι XR),
        iteratedEwma (finFrame T tm x) a.toArgs = .ok rs ∧ iteratedEwma (finFrame T tm y) a.toArgs = .ok rs' ∧
        rs.length = (rowsFrom a.minPeriodsCov (rowsFrom a.minPeriodsVola T).length).length ∧
        List.Forall₂ (fun r r' => r.time = r'.time ∧ ∃ v v' : ι → ℝ, r.volatility = finRow v ∧ r'.volatility = finRow v' ∧
          ∀ i, lo ≤ v i ∧ v i ≤ hi ∧ v' i = l * v i) rs rs' := by
  obtain ⟨x, y, M, lo, hi, hlo, hM, hxy, hrun⟩ := C189_clipped_remembers (τ := τ) (ι := ι) ha.vola a.minPeriodsVola hc hl
  refine ⟨x, y, M, lo, hi, hlo, hM, hxy, fun T tm hd hT hmT => ?_⟩
  obtain ⟨v, w, hv, hw, hvw⟩ := hrun T tm hT
  have hc0 : ∀ d ∈ some c, d ≠ 0 := fun d hd' => by
    rw [Option.mem_some_iff] at hd'
    subst hd'
    linarith
  have hval : ∀ (u : ℕ → ι → ℝ) (z : ℕ → ι → ℝ), volatility (finFrame T tm u) (XR.fin a.volaHalflife) a.minPeriodsVola ((some c).map XR.fin)
      = .ok (finRows (rowsFrom a.minPeriodsVola T) tm z) → ∀ t, t < T → a.minPeriodsVola - 1 ≤ (t : Int) → ∀ i, vol a u t i = z t i := by
    intro u z hz t ht hmt i
    rw [two_runs ha.vola a.minPeriodsVola hc0 hT tm u hz ht hmt i]
    unfold vol volSq
    rw [hcl, decayOf_eq]
    congr 2
    funext k
    simp [cRet, muOf, hm]
  have hvx := hval x v hv
  have hvy := hval y w hw
  have hlx : live a T x = rowsFrom a.minPeriodsVola T := live_of_vol hlo fun t ht hmt i => by rw [hvx t ht hmt i]; exact (hvw t i).1
  have hly : live a T y = rowsFrom a.minPeriodsVola T := live_of_vol (v0 := l * lo) (mul_pos hl hlo) fun t ht hmt i => by
    rw [hvy t ht hmt i, (hvw t i).2.2]
    exact mul_le_mul_of_nonneg_left (hvw t i).1 hl.le
  have hne : rowsFrom a.minPeriodsVola T ≠ [] := List.ne_nil_of_mem (mem_rowsFrom.2 ⟨show T - 1 < T by omega, by omega⟩)
  refine ⟨_, _, by rw [iteratedEwma_fin ha hd, if_neg (hlx ▸ hne)], by rw [iteratedEwma_fin ha hd, if_neg (hly ▸ hne)], ?_, ?_⟩
  · rw [List.length_map, hlx]
  · rw [hlx, hly, List.forall₂_map_left_iff, List.forall₂_map_right_iff, List.forall₂_same]
    intro j hj
    have hjl := rowsFrom_lt hj
    have hmem : (rowsFrom a.minPeriodsVola T).getD j 0 ∈ rowsFrom a.minPeriodsVola T := by
      rw [getD_lt hjl]
      exact List.getElem_mem hjl
    obtain ⟨h1, h2⟩ := mem_rowsFrom.1 hmem
    refine ⟨by simp only [itemAt, hlx, hly], vol a x ((rowsFrom a.minPeriodsVola T).getD j 0), vol a y ((rowsFrom a.minPeriodsVola T).getD j 0),
      by simp only [itemAt, hlx], by simp only [itemAt, hly], fun i => ?_⟩
    rw [hvx _ h1 h2 i, hvy _ h1 h2 i]
    exact hvw _ i

namespace ForgettingEx
open RoundedIewmaEx

/-- Half-lives of 63 and 125 rows, two assets with returns of one percent up or down: whatever two such histories were before row `s`, the predictions
approach each other like `2^(-(t-s)/126)`. -/
example : ∃ K : ℝ, ∀ (T s : ℕ) (x y : ℕ → Fin 2 → ℝ), 20 ≤ T → (∀ t i, |x t i| = 1 / 100) → (∀ t i, |y t i| = 1 / 100) →
    (∀ t, s ≤ t → x t = y t) →
    ∃ (rows : List ℕ) (m m' v v' : ℕ → Fin 2 → ℝ) (S S' : ℕ → Fin 2 × Fin 2 → ℝ),
      iteratedEwma (finFrame T (fun t => t) x) args.toArgs
        = .ok (rows.map fun t => { time := t, mean := finRow (m t), covariance := finRow (S t), volatility := finRow (v t) }) ∧
      iteratedEwma (finFrame T (fun t => t) y) args.toArgs
        = .ok (rows.map fun t => { time := t, mean := finRow (m' t), covariance := finRow (S' t), volatility := finRow (v' t) }) ∧
      ∀ t ∈ rows, ∀ i j, |S' t (i, j) - S t (i, j)| ≤ K * (2 : ℝ) ^ (-((t - s : ℕ) : ℝ) / 126) := by
  obtain ⟨K, h⟩ := C206_forgets (hv := 63) (hc := 125) (h1 := 63) (h2 := 125) (H := 126) (M := 1 / 100) (v0 := 1 / 100) (d0 := 1)
    (by norm_num) (by norm_num) (by norm_num) (by norm_num) (by norm_num) (by norm_num) (by norm_num) (by norm_num) (by norm_num) (by norm_num)
    (by norm_num)
  refine ⟨K, fun T s x y hT hx hy hxy => ?_⟩
  obtain ⟨rows, m, m', v, v', S, S', r1, r2, r3⟩ := h ℕ (Fin 2) args args_valid rfl rfl (by simp [args, RealArgs.mu1h, orElse])
    (by simp [args, RealArgs.mu2h, orElse]) RoundedIewmaEx.clip_eq T (fun t => t) x y (fun _ _ _ _ h => h) (by omega) (by simp only [args]; omega)
    (fun t _ i => ⟨(hx t i).le, (hy t i).le⟩) (fun t _ _ i => ⟨(vol_eq hx t i).ge, (vol_eq hy t i).ge⟩)
    (fun j _ i => ⟨(cov_eq hx T j i).ge, (cov_eq hy T j i).ge⟩) s fun t h1 _ => hxy t h1
  exact ⟨rows, m, m', v, v', S, S', r1, r2, fun t ht i j => (r3 t ht).2.2 i j⟩

/-- The conditions of C206_not_with_clip are met with `clip_at = 4.2` and the half-lives above; with 100 rows there are 62 results, and all volatilities
of the second history are 10 times those of the first. -/
example : ∃ (x y : ℕ → Fin 2 → ℝ) (rs rs' : List (IEWMA ℕ (Fin 2) XR)), (∀ t : ℕ, 20 < t → x t = y t) ∧
    iteratedEwma (finFrame 100 (fun t => t) x) { args with clipAt := some 4.2 }.toArgs = .ok rs ∧
    iteratedEwma (finFrame 100 (fun t => t) y) { args with clipAt := some 4.2 }.toArgs = .ok rs' ∧ rs.length = 62 ∧
    List.Forall₂ (fun r r' => ∃ v v' : Fin 2 → ℝ, r.volatility = finRow v ∧ r'.volatility = finRow v' ∧ ∀ i, 0 < v i ∧ v' i = 10 * v i) rs rs' := by
  have hv : RealArgs.Valid { args with clipAt := some 4.2 } := ⟨args_valid.vola, args_valid.cov, args_valid.mu1, args_valid.mu2⟩
  obtain ⟨x, y, M, lo, hi, hlo, _, hxy, hrun⟩ := C206_not_with_clip (τ := ℕ) (ι := Fin 2) hv rfl (c := 4.2) (by norm_num)
    (by simp [RealArgs.clip]; norm_num) (l := 10) (by norm_num)
  obtain ⟨rs, rs', r1, r2, r3, r4⟩ := hrun 100 (fun t => t) (fun _ _ _ _ h => h) (by norm_num) (by simp [args])
  refine ⟨x, y, rs, rs', fun t ht => hxy t (by simp only [args]; omega) (by omega), r1, r2, ?_, ?_⟩
  · rw [r3]
    show (rowsFrom 20 (rowsFrom 20 100).length).length = 62
    rfl
  · exact r4.imp fun r r' h => by
      obtain ⟨_, v, v', h1, h2, h3⟩ := h
      exact ⟨v, v', h1, h2, fun i => ⟨hlo.trans_le (h3 i).1, (h3 i).2.2⟩⟩

end ForgettingEx

end CovPred
