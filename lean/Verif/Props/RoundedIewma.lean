import Verif.Lemmas.Rounded6
import Verif.Lemmas.VarSeq
import Verif.Spec.RoundedIewma
import Verif.Props.Iewma

/-
Property C188: `iterated_ewma` with rounding.
-/
set_option linter.unusedSectionVars false
namespace CovPred

variable {τ ι : Type} [DecidableEq τ] [Ix ι] {F : FloatOps}

theorem rf_truthy_getD (o : Option ℝ) (d : ℝ) :
    (Scalar.truthy (o.map fun h => (⟨.fin h⟩ : RF F))).getD ⟨.fin d⟩ = ⟨.fin (orElse o d)⟩ := by
  cases o with
  | none => rfl
  | some h =>
    simp only [Option.map_some, Scalar.truthy, orElse]
    by_cases hh : h = 0
    · subst hh
      rw [if_pos (by show XR.isZero (.fin 0) = true; simp [XR.isZero]), if_pos rfl]; rfl
    · rw [if_neg (by show ¬ XR.isZero (.fin h) = true; simp [XR.isZero, hh]), if_neg hh]; rfl

theorem rf_truthy_clip {a : RealArgs} (h : a.clip = none) : Scalar.truthy (a.clipAt.map fun c => (⟨.fin c⟩ : RF F)) = none := by
  unfold RealArgs.clip at h
  cases hc : a.clipAt with
  | none => rfl
  | some c =>
    rw [hc] at h
    simp only at h
    by_cases hh : c = 0
    · subst hh
      simp only [Option.map_some, Scalar.truthy]
      rw [if_pos (by show XR.isZero (.fin 0) = true; simp [XR.isZero])]
    · rw [if_neg hh] at h; cases h

theorem volSq_none {a : RealArgs} (ha : a.Valid) (hc : a.clip = none) (x : ℕ → ι → ℝ) (t : ℕ) (i : ι) :
    volSq a x t i = halflifeAverage a.volaHalflife (fun k => cRet a x k i ^ 2) t := by
  unfold volSq
  rw [hc, decayOf_eq, varSeq_none (betaOf_pos _) (betaOf_lt_one ha.vola), halflifeAverage_eq]

theorem live_of_vol [Nonempty ι] {a : RealArgs} {T : ℕ} {x : ℕ → ι → ℝ} {v0 : ℝ} (hv0 : 0 < v0)
    (hv : ∀ t, t < T → a.minPeriodsVola - 1 ≤ (t : Int) → ∀ i, v0 ≤ vol a x t i) : live a T x = rowsFrom a.minPeriodsVola T := by
  obtain ⟨i⟩ := ‹Nonempty ι›
  unfold live rowsFrom
  refine List.filter_congr fun t ht => ?_
  rw [List.mem_range] at ht
  refine decide_eq_decide.2 ⟨fun h => h.1, fun h => ⟨h, i, fun h1 => ?_⟩⟩
  have := hv t ht h i
  linarith [h1.1]

theorem rowsFrom_getD {mv : Int} {T j : ℕ} (hj : j < (rowsFrom mv T).length) : (rowsFrom mv T).getD j 0 = (mv - 1).toNat + j := by
  rw [rowsFrom_eq_drop] at hj ⊢
  rw [getD_lt hj]
  simp

/-- What the constants are for: the run with rounding next to the exact values of `Spec/Iewma`. -/
theorem iteratedEwma_round {hv hc h1 h2 M v0 d0 : ℝ} (hhv : 0 < hv) (hhc : 0 < hc) (hh1 : 0 < h1) (hh2 : 0 < h2) (hM : 0 ≤ M) (hv0 : 0 < v0)
    (hd0 : 0 < d0) :
    ∃ K u0 B : ℝ, 0 < u0 ∧ ∀ (τ ι : Type) [DecidableEq τ] [Ix ι] [Nonempty ι] (F : FloatOps) (u η : ℝ), F.Accurate u η → u + η ≤ u0 → B ≤ F.big →
      ∀ a : RealArgs, a.Valid → a.volaHalflife = hv → a.covHalflife = hc → a.mu1h = h1 → a.mu2h = h2 → a.clip = none →
      ∀ (T : ℕ) (tm : ℕ → τ) (x : ℕ → ι → ℝ), DistinctTimes T tm → 0 < T → a.minPeriodsVola ≤ T → (∀ t, t < T → ∀ i, |x t i| ≤ M) →
        (∀ t, t < T → a.minPeriodsVola - 1 ≤ (t : Int) → ∀ i, v0 ≤ vol a x t i) →
        (∀ j ∈ rowsFrom a.minPeriodsCov (live a T x).length, ∀ i, d0 ≤ covAt a T x j (i, i)) →
        ∃ (m v : ℕ → ι → ℝ) (S : ℕ → ι × ι → ℝ),
          iteratedEwma (rfRows F (List.range T) tm x) (a.toRF F) = .ok ((rowsFrom a.minPeriodsCov (live a T x).length).map fun j =>
            { time := tm ((live a T x).getD j 0), mean := rfRow F (m j), covariance := rfRow F (S j), volatility := rfRow F (v j) }) ∧
          ∀ j ∈ rowsFrom a.minPeriodsCov (live a T x).length,
            (∀ i, |m j i - meanAt a T x j i| ≤ K * (u + η)) ∧
            (∀ i, |v j i - vol a x ((live a T x).getD j 0) i| ≤ K * (u + η)) ∧
            (∀ p : ι × ι, |S j p - vol a x ((live a T x).getD j 0) p.1 * vol a x ((live a T x).getD j 0) p.2 *
              (covAt a T x j p / (Real.sqrt (covAt a T x j (p.1, p.1)) * Real.sqrt (covAt a T x j (p.2, p.2))))| ≤ K * (u + η)) := by
  -- constants
  set Kc := centreK h1 0 M with hKc
  set Ac := M + M with hAc
  set Km1 := avgK h1 0 M with hKm1
  set Kq := avgK hv (mulK Kc Ac Kc Ac) (Ac * Ac) with hKq
  set Kv := volK hv v0 Kc Ac with hKv
  set Av := Ac * Ac + 1 with hAv
  set Ka := divK v0 Kc Ac Kv with hKa
  set Aa := Ac / v0 with hAa
  set Kz := centreK h2 Ka Aa with hKz
  set Az := Aa + Aa with hAz
  set Km2 := avgK h2 Ka Aa with hKm2
  set KC := avgK hc (mulK Kz Az Kz Az) (Az * Az) with hKC
  set AC := Az * Az with hAC
  set m := Real.sqrt d0 with hm
  have hm0 : 0 < m := Real.sqrt_pos.2 hd0
  have hmm : m ^ 2 = d0 := Real.sq_sqrt hd0.le
  have pAc : 0 ≤ Ac := by positivity
  have pKc : 0 ≤ Kc := centreK_nonneg hh1 le_rfl hM
  have pKm1 : 0 ≤ Km1 := avgK_nonneg hh1 le_rfl hM
  have pKq : 0 ≤ Kq := avgK_nonneg hhv (mulK_nonneg pKc pAc pKc pAc) (by positivity)
  have pKv : 0 ≤ Kv := volK_nonneg hhv hv0 pKc pAc
  have pAv : 0 ≤ Av := by positivity
  have pAa : 0 ≤ Aa := by positivity
  have pKa : 0 ≤ Ka := divK_nonneg hv0 pKc pAc pKv
  have pAz : 0 ≤ Az := by positivity
  have pKz : 0 ≤ Kz := centreK_nonneg hh2 pKa pAa
  have pKm2 : 0 ≤ Km2 := avgK_nonneg hh2 pKa pAa
  have pAC : 0 ≤ AC := by positivity
  have pKC : 0 ≤ KC := avgK_nonneg hhc (mulK_nonneg pKz pAz pKz pAz) pAC
  have pS : 0 ≤ scaleK m KC AC Kv Av := (scale_nonneg hm0 pKC pAC pKv pAv).2.2.2.2.2
  have pMn : 0 ≤ meanK Km1 M Km2 Aa Kv Av := addK_nonneg pKm1 hM (mulK_nonneg pKv pAv pKm2 pAa) (by positivity)
  obtain ⟨u0, hu0, B, hgood⟩ := ((good_le one_pos).and ((good_le (neededAccuracy_pos hh1)).and ((good_le (neededAccuracy_pos hhv)).and
    ((good_le (neededAccuracy_pos hh2)).and (good_le (neededAccuracy_pos hhc)))))).and
    (((good_big (24 * (M + 0 + 1 + 1 / h1))).and (good_big (M + M + Kc))).and
    (((good_big (24 * (Ac * Ac + mulK Kc Ac Kc Ac + 1 + 1 / hv))).and ((good_mul pKq (show 0 < v0 ^ 2 / 2 by positivity)).and
      (good_big (Ac * Ac + 1 + Kv)))).and
    (((good_mul pKv (show 0 < v0 / 2 by positivity)).and (good_big (Aa + Ka))).and
    (((good_big (24 * (Aa + Ka + 1 + 1 / h2))).and (good_big (Aa + Aa + Kz))).and
    ((good_big (24 * (Az * Az + mulK Kz Az Kz Az + 1 + 1 / hc))).and
    ((good_scale hm0 pKC pAC Kv Av).and (good_mean Km1 M Km2 Aa Kv Av)))))))
  refine ⟨meanK Km1 M Km2 Aa Kv Av + Kv + scaleK m KC AC Kv Av, u0, B, hu0, ?_⟩
  intro τ ι _ _ _ F u η hF hu hB a ha ea1 ea2 ea3 ea4 hcl T tm x hd hT hmT hx hvol hcov
  obtain ⟨⟨he1, g1, g2, g3, g4⟩, ⟨b1, b2⟩, ⟨b3, s1, b4⟩, ⟨s2, b5⟩, ⟨b6, b7⟩, b8, hsc, hmn⟩ := hgood (u + η) hu F.big hB
  have hu0' := hF.u_nonneg
  have hη0 := hF.η_nonneg
  have he0 : 0 ≤ u + η := by positivity
  have hlive := live_of_vol hv0 hvol
  set S := live a T x with hS
  have hSlt : ∀ k ∈ S, k < T := fun k hk => by rw [hlive] at hk; exact rowsFrom_lt hk
  have hSn : S.Nodup := List.Nodup.filter _ List.nodup_range
  have hd' := distinct_reindex hd hSlt hSn
  have hlen : 0 < S.length := by
    rw [hlive]
    exact List.length_pos_of_mem (mem_rowsFrom.2 ⟨show T - 1 < T by omega, by omega⟩)
  -- centring
  obtain ⟨c, m1, f1, r1, r2, n1, n2⟩ := centre_near hF rfl he1 hh1 g1 le_rfl b1 b2 a.mean hT hd (x' := x) (x := x)
    fun t ht i => near_self he0 (hx t ht i)
  have ecR : ∀ t i, x t i - muOf a.mean h1 x t i = cRet a x t i := fun t i => by unfold cRet; rw [ea3]
  simp only [ecR] at n1
  -- volatilities
  have hvsq : ∀ t i, halflifeAverage hv (fun k => cRet a x k i ^ 2) t = volSq a x t i := fun t i => by rw [volSq_none ha hcl, ea1]
  obtain ⟨v, r3, n3⟩ := vol_near hF rfl he1 hhv g2 pKc b3 hv0 s1 b4 a.minPeriodsVola hT tm n1 fun t ht htm i => by
    rw [hvsq]
    have h := hvol t ht htm i
    have h0 : 0 ≤ volSq a x t i := volSq_nonneg ha x t i
    have : v0 ^ 2 ≤ vol a x t i ^ 2 := pow_le_pow_left₀ hv0.le h 2
    rwa [vol, Real.sq_sqrt h0] at this
  have n3' : ∀ t, t < T → a.minPeriodsVola - 1 ≤ (t : Int) → ∀ i, Near Kv Av (u + η) (v t i) (vol a x t i) := fun t ht htm i => by
    have := n3 t ht htm i
    rw [hvsq] at this
    exact this
  have hvp : ∀ t, t < T → a.minPeriodsVola - 1 ≤ (t : Int) → ∀ i, 0 < v t i := fun t ht htm i =>
    lt_of_lt_of_le (by positivity) ((n3' t ht htm i).lower (hvol t ht htm i) s2)
  -- adjusted returns
  have n4 : ∀ t, t < T → a.minPeriodsVola - 1 ≤ (t : Int) → ∀ i, Near Ka Aa (u + η) (F.div (c t i) (v t i)) (cRet a x t i / vol a x t i) :=
    fun t ht htm i => Near.div_of hu0' hη0 rfl he1 (hF.div _ _ (hvp t ht htm i).ne') (n1 t ht i) (n3' t ht htm i) pKc hv0 (hvol t ht htm i) s2
  have r4 := adj_round (F := F) hd a.minPeriodsVola (c := c) (v := v) (fun t ht htm i => (hvp t ht htm i).ne')
    fun t ht htm i => ((n4 t ht htm i).abs_bound pKa he1).trans b5
  have r4 := r4.trans ((congrArg (fun l => rfRows F l tm fun t i => F.div (c t i) (v t i)) hlive.symm).trans (rf_reindex S tm _))
  have hrow : ∀ j, j < S.length → S.getD j 0 < T ∧ a.minPeriodsVola - 1 ≤ ((S.getD j 0 : ℕ) : Int) := fun j hj => by
    have := liveRows_getD_mem hj
    rw [hlive] at this
    have h := mem_rowsFrom.1 this
    rw [← hlive] at h
    exact h
  have n5 : ∀ j, j < S.length → ∀ i, Near Ka Aa (u + η) (F.div (c (S.getD j 0) i) (v (S.getD j 0) i)) (adjAt a T x j i) := fun j hj i => by
    have := n4 _ (hrow j hj).1 (hrow j hj).2 i
    unfold adjAt adjReal
    rw [hcl]
    exact this
  obtain ⟨z, m2, f2, r5, r6, n6, n7⟩ := centre_near hF rfl he1 hh2 g3 pKa b6 b7 a.mean hlen hd' n5
  have ezA : ∀ j i, adjAt a T x j i - muOf a.mean h2 (adjAt a T x) j i = zAt a T x j i := fun j i => by unfold zAt; rw [ea4]
  simp only [ezA] at n6
  -- second moments
  obtain ⟨C, r7, n8⟩ := cov_near hF rfl he1 hhc g4 pKz b8 a.minPeriodsCov hlen (fun j => tm (S.getD j 0)) n6
  have ecov : ∀ j p, halflifeAverage hc (fun k => zAt a T x k p.1 * zAt a T x k p.2) j = covAt a T x j p := fun j p => by unfold covAt; rw [ea2]
  simp only [ecov] at n8
  -- results
  have hfin : ∀ j ∈ rowsFrom a.minPeriodsCov S.length, ∃ it : (ι → ℝ) × (ι × ι → ℝ),
      iewmaItem a.mean (rfRows F (rowsFrom a.minPeriodsVola T) tm v) f1 f2 (tm (S.getD j 0)) (rfRow F (C j))
        = .ok { time := tm (S.getD j 0), mean := rfRow F it.1, covariance := rfRow F it.2, volatility := rfRow F (v (S.getD j 0)) } ∧
      (∀ i, |it.1 i - meanAt a T x j i| ≤ meanK Km1 M Km2 Aa Kv Av * (u + η)) ∧
      (∀ p : ι × ι, |it.2 p - vol a x (S.getD j 0) p.1 * vol a x (S.getD j 0) p.2 *
              (covAt a T x j p / (Real.sqrt (covAt a T x j (p.1, p.1)) * Real.sqrt (covAt a T x j (p.2, p.2))))| ≤ scaleK m KC AC Kv Av * (u + η)) := by
    intro j hj
    have hjl := rowsFrom_lt hj
    obtain ⟨ht, htm⟩ := hrow j hjl
    obtain ⟨Sg, q1, q2⟩ := scale_near hF rfl he1 hm0 pKC pKv hsc (n3' _ ht htm) (n8 j hjl) fun i => by rw [hmm]; exact hcov j hj i
    have hv' : locE (rfRows F (rowsFrom a.minPeriodsVola T) tm v) (tm (S.getD j 0)) = .ok (rfRow F (v (S.getD j 0))) := by
      unfold locE
      rw [rf_loc hd _ (fun k hk => rowsFrom_lt hk) ht, if_pos (mem_rowsFrom.mpr ⟨ht, htm⟩)]
    unfold iewmaItem
    rw [hv']
    cases hmean : a.mean with
    | false =>
      refine ⟨(fun _ => 0, Sg), ?_, fun i => ?_, fun p => (q2 p).1⟩
      · simp only [Bool.false_eq_true, if_false, bind, Except.bind, pure, Except.pure]
        rw [q1]; rfl
      · simp only [meanAt, hmean, Bool.false_eq_true, if_false, sub_zero, abs_zero]
        positivity
    | true =>
      rw [hmean] at r2 r6 n2 n7
      have e1 : locE f1 (tm (S.getD j 0)) = .ok (rfRow F (m1 (S.getD j 0))) := by
        unfold locE
        rw [r2 rfl, rf_loc hd _ (fun k hk => List.mem_range.1 hk) ht, if_pos (List.mem_range.2 ht)]
      have e2 : locE f2 (tm (S.getD j 0)) = .ok (rfRow F (m2 j)) := by
        unfold locE
        rw [r6 rfl, rf_loc (t := j) hd' _ (fun k hk => List.mem_range.1 hk) hjl, if_pos (List.mem_range.2 hjl)]
      obtain ⟨z', q3, q4⟩ := scaleMean_near hF rfl he1 pKm1 pKm2 pKv hmn (n3' _ ht htm) (n2 rfl _ ht) (n7 rfl j hjl)
      refine ⟨(z', Sg), ?_, fun i => ?_, fun p => (q2 p).1⟩
      · simp only [if_true, bind, Except.bind, pure, Except.pure]
        rw [e1, e2, q1]
        simp only [q3]
      · have := (q4 i).1
        unfold meanAt
        rw [hmean, ea3, ea4]
        simpa using this
  choose! it q1 q2 q3 using hfin
  refine ⟨fun j => (it j).1, fun j => v (S.getD j 0), fun j => (it j).2, ?_, fun j hj => ⟨fun i => ?_, fun i => ?_, fun p => ?_⟩⟩
  · unfold iteratedEwma
    simp only [RealArgs.toRF, rf_truthy_getD, rf_hasNaN, Bool.false_eq_true, if_false, ite_self]
    rw [show orElse a.muHalflife1 a.volaHalflife = h1 from ea3, show orElse a.muHalflife2 a.covHalflife = h2 from ea4, r1, ea1, ea2]
    simp only [bind, Except.bind]
    rw [volatility_truthy, rf_truthy_clip hcl, r3]
    simp only []
    rw [clip_truthy, rf_truthy_clip hcl, r4, r5]
    simp only []
    rw [r7]
    simp only []
    unfold rfRows
    rw [List.mapM_map]
    refine mapM_ok _ _ _ fun j hj => ?_
    exact q1 j hj
  · exact (q2 j hj i).trans (mul_le_mul_of_nonneg_right (by linarith) he0)
  · obtain ⟨ht, htm⟩ := hrow j (rowsFrom_lt hj)
    exact (n3' _ ht htm i).1.trans (mul_le_mul_of_nonneg_right (by linarith) he0)
  · exact (q3 j hj p).trans (mul_le_mul_of_nonneg_right (by linarith) he0)

/-- `iterated_ewma` with rounding, next to the exact run of the same program: for half-lives, a bound on the returns and lower bounds on the volatilities and on
the second moments of the adjusted returns there are constants such that every sufficiently accurate arithmetic yields the same rows as exact arithmetic, all
of them numbers, and every mean, volatility and covariance is within a multiple of the unit roundoff. The constants depend on nothing else: not on
the number of rows and assets, the returns, the two `min_periods` or the arithmetic. -/
theorem C188_iterated_ewma {hv hc h1 h2 M v0 d0 : ℝ} (hhv : 0 < hv) (hhc : 0 < hc) (hh1 : 0 < h1) (hh2 : 0 < h2) (hM : 0 ≤ M) (hv0 : 0 < v0)
    (hd0 : 0 < d0) :
    ∃ K u0 B : ℝ, 0 < u0 ∧ ∀ (τ ι : Type) [DecidableEq τ] [Ix ι] [Nonempty ι] (F : FloatOps) (u η : ℝ), F.Accurate u η → u + η ≤ u0 → B ≤ F.big →
      ∀ a : RealArgs, a.Valid → a.volaHalflife = hv → a.covHalflife = hc → a.mu1h = h1 → a.mu2h = h2 → a.clip = none →
      ∀ (T : ℕ) (tm : ℕ → τ) (x : ℕ → ι → ℝ), DistinctTimes T tm → 0 < T → a.minPeriodsVola ≤ T → (∀ t, t < T → ∀ i, |x t i| ≤ M) →
        (∀ t, t < T → a.minPeriodsVola - 1 ≤ (t : Int) → ∀ i, v0 ≤ vol a x t i) →
        (∀ j ∈ rowsFrom a.minPeriodsCov (live a T x).length, ∀ i, d0 ≤ covAt a T x j (i, i)) →
        ∃ (rows : List ℕ) (m m' v v' : ℕ → ι → ℝ) (S S' : ℕ → ι × ι → ℝ),
          iteratedEwma (finFrame T tm x) a.toArgs
            = .ok (rows.map fun t => { time := tm t, mean := finRow (m t), covariance := finRow (S t), volatility := finRow (v t) }) ∧
          iteratedEwma (rfRows F (List.range T) tm x) (a.toRF F)
            = .ok (rows.map fun t => { time := tm t, mean := rfRow F (m' t), covariance := rfRow F (S' t), volatility := rfRow F (v' t) }) ∧
          ∀ t ∈ rows, (∀ i, |m' t i - m t i| ≤ K * (u + η)) ∧ (∀ i, |v' t i - v t i| ≤ K * (u + η)) ∧
            ∀ i j, |S' t (i, j) - S t (i, j)| ≤ K * (u + η) := by
  obtain ⟨K, u0, B, hu0, hmain⟩ := iteratedEwma_round hhv hhc hh1 hh2 hM hv0 hd0
  refine ⟨K, u0, B, hu0, ?_⟩
  intro τ ι _ _ _ F u η hF hu hB a ha ea1 ea2 ea3 ea4 hcl T tm x hd hT hmT hx hvol hcov
  obtain ⟨m', v', S', r, n⟩ := hmain τ ι F u η hF hu hB a ha ea1 ea2 ea3 ea4 hcl T tm x hd hT hmT hx hvol hcov
  have hlive := live_of_vol hv0 hvol
  set s0 := (a.minPeriodsVola - 1).toNat with hs0
  have hget : ∀ j, j < (live a T x).length → (live a T x).getD j 0 = s0 + j := fun j hj => by
    rw [hlive] at hj ⊢
    exact rowsFrom_getD hj
  have hne : live a T x ≠ [] := by
    rw [hlive]
    exact List.ne_nil_of_mem (mem_rowsFrom.2 ⟨show T - 1 < T by omega, by omega⟩)
  set J := rowsFrom a.minPeriodsCov (live a T x).length with hJ
  refine ⟨J.map fun j => s0 + j, fun t => meanAt a T x (t - s0), fun t => m' (t - s0), fun t => vol a x t, fun t => v' (t - s0),
    fun t p => vol a x t p.1 * vol a x t p.2 * (covAt a T x (t - s0) p /
      (Real.sqrt (covAt a T x (t - s0) (p.1, p.1)) * Real.sqrt (covAt a T x (t - s0) (p.2, p.2)))), fun t => S' (t - s0), ?_, ?_, ?_⟩
  · rw [iteratedEwma_fin ha hd x, if_neg hne, List.map_map]
    congr 1
    refine List.map_congr_left fun j hj => ?_
    have hjl := rowsFrom_lt hj
    have h1 := hcov j hj
    simp only [Function.comp, itemAt, hget j hjl, Nat.add_sub_cancel_left]
    congr 1
    unfold finRow
    ext p
    simp only [Arr.get_ofFn, sigmaAt, hget j hjl]
    rw [if_neg (by
      rintro (h | h)
      · have := h1 p.1; linarith
      · have := h1 p.2; linarith)]
  · rw [r, List.map_map]
    congr 1
    refine List.map_congr_left fun j hj => ?_
    simp only [Function.comp, hget j (rowsFrom_lt hj), Nat.add_sub_cancel_left]
  · intro t ht
    obtain ⟨j, hj, rfl⟩ := List.mem_map.1 ht
    obtain ⟨n1, n2, n3⟩ := n j hj
    simp only [Nat.add_sub_cancel_left]
    rw [hget j (rowsFrom_lt hj)] at n2 n3
    exact ⟨n1, n2, fun i k => n3 (i, k)⟩

namespace RoundedIewmaEx

/-- Half-lives of 63 and 125 rows and the default `min_periods`. -/
noncomputable def args : RealArgs := { volaHalflife := 63, covHalflife := 125 }

theorem args_valid : args.Valid where
  vola := by norm_num [args]
  cov := by norm_num [args]
  mu1 := by simp [args]
  mu2 := by simp [args]

theorem avg_const (h c : ℝ) (t : ℕ) : halflifeAverage h (fun _ => c) t = c := by
  rw [halflifeAverage_eq]; exact emaAvg_const (betaOf_pos h) c t

theorem cRet_eq (x : ℕ → Fin 2 → ℝ) (t : ℕ) (i : Fin 2) : cRet args x t i = x t i := by simp [cRet, muOf, args]

theorem clip_eq : args.clip = none := rfl

theorem vol_eq {x : ℕ → Fin 2 → ℝ} (hx : ∀ t i, |x t i| = 1 / 100) (t : ℕ) (i : Fin 2) : vol args x t i = 1 / 100 := by
  have h1 : volSq args x t i = (1 / 100) ^ 2 := by
    rw [volSq_none args_valid clip_eq]
    have : (fun k => cRet args x k i ^ 2) = fun _ => (1 / 100 : ℝ) ^ 2 := by
      funext k; rw [cRet_eq, ← sq_abs, hx]
    rw [this, avg_const]
  rw [vol, h1, Real.sqrt_sq (by norm_num)]

theorem cov_eq {x : ℕ → Fin 2 → ℝ} (hx : ∀ t i, |x t i| = 1 / 100) (T j : ℕ) (i : Fin 2) : covAt args T x j (i, i) = 1 := by
  have h1 : ∀ k, zAt args T x k i * zAt args T x k i = 1 := fun k => by
    have h2 : zAt args T x k i = x ((live args T x).getD k 0) i / (1 / 100) := by
      unfold zAt adjAt adjReal
      rw [clip_eq, vol_eq hx]
      simp only [cRet_eq]
      simp [muOf, args]
    rw [h2, ← sq, div_pow, ← sq_abs, hx]
    norm_num
  unfold covAt
  simp only [h1]
  exact avg_const _ _ _

/-- Binary arithmetic with enough bits: for returns of one percent up or down of two assets, in any order and for any number of days, every prediction is within
`1e-9` of the exact one. -/
example : ∃ (p : ℕ) (big : ℝ), ∀ (T : ℕ) (x : ℕ → Fin 2 → ℝ), 20 ≤ T → (∀ t i, |x t i| = 1 / 100) →
    ∃ (rows : List ℕ) (m m' v v' : ℕ → Fin 2 → ℝ) (S S' : ℕ → Fin 2 × Fin 2 → ℝ),
      iteratedEwma (finFrame T (fun t => t) x) args.toArgs
        = .ok (rows.map fun t => { time := t, mean := finRow (m t), covariance := finRow (S t), volatility := finRow (v t) }) ∧
      iteratedEwma (rfRows { RoundedEx.bits p with big := big } (List.range T) (fun t => t) x) (args.toRF _)
        = .ok (rows.map fun t => { time := t, mean := rfRow _ (m' t), covariance := rfRow _ (S' t), volatility := rfRow _ (v' t) }) ∧
      ∀ t ∈ rows, ∀ i j, |S' t (i, j) - S t (i, j)| ≤ 1 / 10 ^ 9 := by
  obtain ⟨K, u0, B, hu0, h⟩ := C188_iterated_ewma (hv := 63) (hc := 125) (h1 := 63) (h2 := 125) (M := 1 / 100) (v0 := 1 / 100) (d0 := 1)
    (by norm_num) (by norm_num) (by norm_num) (by norm_num) (by norm_num) (by norm_num) (by norm_num)
  have hc : 0 < min u0 (1 / (10 ^ 9 * (|K| + 1))) := lt_min hu0 (by positivity)
  obtain ⟨p, hp⟩ := exists_pow_lt_of_lt_one hc (show (1 / 2 : ℝ) < 1 by norm_num)
  have hpe : (2 : ℝ) ^ (-(p : ℤ)) = (1 / 2) ^ p := by rw [zpow_neg, zpow_natCast, one_div, inv_pow]
  refine ⟨p, B, fun T x hT hx => ?_⟩
  have hacc : FloatOps.Accurate { RoundedEx.bits p with big := B } (2 ^ (-(p : ℤ))) 0 :=
    ⟨(RoundedEx.bits_accurate p).u_nonneg, le_rfl, (RoundedEx.bits_accurate p).add, (RoundedEx.bits_accurate p).sub,
      (RoundedEx.bits_accurate p).mul, (RoundedEx.bits_accurate p).div, (RoundedEx.bits_accurate p).sqrt, (RoundedEx.bits_accurate p).exp,
      (RoundedEx.bits_accurate p).log, (RoundedEx.bits_accurate p).npow⟩
  obtain ⟨rows, m, m', v, v', S, S', r1, r2, n⟩ := h ℕ (Fin 2) _ _ _ hacc
    (by rw [add_zero, hpe]; exact hp.le.trans (min_le_left _ _)) le_rfl args args_valid rfl rfl rfl rfl clip_eq T (fun t => t) x
    (fun _ _ _ _ h => h) (by omega) (by show (20 : Int) ≤ _; omega) (fun t _ i => (hx t i).le) (fun t _ _ i => (vol_eq hx t i).ge)
    (fun j _ i => (cov_eq hx T j i).ge)
  refine ⟨rows, m, m', v, v', S, S', r1, r2, fun t ht i j => ((n t ht).2.2 i j).trans ?_⟩
  rw [add_zero, hpe]
  have h1 := hp.le.trans (min_le_right _ _)
  rw [le_div_iff₀ (by positivity)] at h1
  have h2 : K * (1 / 2 : ℝ) ^ p ≤ |K| * (1 / 2) ^ p := mul_le_mul_of_nonneg_right (le_abs_self K) (by positivity)
  have h3 : (0 : ℝ) ≤ (1 / 2) ^ p := by positivity
  rw [le_div_iff₀ (by positivity)]
  nlinarith

end RoundedIewmaEx
end CovPred
