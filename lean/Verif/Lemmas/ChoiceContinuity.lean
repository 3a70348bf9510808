import Verif.Spec.Pipeline
import Verif.Props.PortfolioInfluence
import Verif.Lemmas.PortfolioExist
import Verif.Lemmas.Continuity

/-
What a strategy chooses depends continuously on the covariance it is given.
-/
set_option linter.unusedSectionVars false
namespace CovPred
open Matrix Filter

variable {τ : Type} {n : ℕ}

/-- a quadratic bound on the distance, and a small change: the distance is small -/
private theorem close_of_bound {S S' : Mat n} (hS : S.PosDef) {y y' : Vec n} {η : ℝ} (hη0 : 0 ≤ η) (hη : ∀ i j, |S' i j - S i j| ≤ η)
    (hmove : (y' - y) ⬝ᵥ (S *ᵥ (y' - y)) ≤ (y' - y) ⬝ᵥ ((S - S') *ᵥ y')) (hsmall : 2 * η * (∑ i, Real.sqrt (S⁻¹ i i)) ^ 2 ≤ 1) :
    ∑ i, |y' i - y i| ≤ 2 * η * (∑ i, Real.sqrt (S⁻¹ i i)) ^ 2 * ∑ i, |y i| := by
  set c := (∑ i, Real.sqrt (S⁻¹ i i)) ^ 2 with hc
  have h1 : ∑ i, |y' i - y i| ≤ η * (∑ i, |y' i|) * c := sum_sqrt_bound (v := y' - y) hS (hmove.trans (change_le hη _ _))
    (mul_nonneg hη0 (Finset.sum_nonneg fun _ _ => abs_nonneg _))
  have h2 : ∑ i, |y' i| ≤ ∑ i, |y i| + ∑ i, |y' i - y i| := by
    rw [← Finset.sum_add_distrib]
    refine Finset.sum_le_sum fun i _ => ?_
    have := abs_add_le (y i) (y' i - y i)
    rwa [add_sub_cancel] at this
  set A := ∑ i, |y' i - y i|
  have hA : 0 ≤ A := Finset.sum_nonneg fun _ _ => abs_nonneg _
  have hc0 : 0 ≤ c := sq_nonneg _
  have h3 : η * (∑ i, |y' i|) * c ≤ η * (∑ i, |y i| + A) * c := mul_le_mul_of_nonneg_right (mul_le_mul_of_nonneg_left h2 hη0) hc0
  have h4 : 2 * η * c * A ≤ 1 * A := mul_le_mul_of_nonneg_right hsmall hA
  have e : η * (∑ i, |y i| + A) * c = η * c * ∑ i, |y i| + η * c * A := by ring
  have e2 : 2 * η * c * A = 2 * (η * c * A) := by ring
  have e3 : 2 * η * c * ∑ i, |y i| = 2 * (η * c * ∑ i, |y i|) := by ring
  linarith

/-- a tolerance for which the bound above is below `e` -/
private theorem exists_eta {c s e : ℝ} (hc : 0 ≤ c) (hs : 0 ≤ s) (he : 0 < e) :
    ∃ η, 0 < η ∧ 2 * η * c ≤ 1 ∧ 2 * η * c * s < e := by
  refine ⟨min (1 / (2 * (c + 1))) (e / (2 * (c + 1) * (s + 1))), lt_min (by positivity) (by positivity), ?_, ?_⟩
  · have h1 : min (1 / (2 * (c + 1))) (e / (2 * (c + 1) * (s + 1))) * (2 * (c + 1)) ≤ 1 := by
      rw [← le_div_iff₀ (by positivity)]; exact min_le_left _ _
    have h0 : 0 < min (1 / (2 * (c + 1))) (e / (2 * (c + 1) * (s + 1))) := lt_min (by positivity) (by positivity)
    nlinarith
  · set η := min (1 / (2 * (c + 1))) (e / (2 * (c + 1) * (s + 1)))
    have h0 : 0 < η := lt_min (by positivity) (by positivity)
    have h1 : η * (2 * (c + 1) * (s + 1)) ≤ e := by
      rw [← le_div_iff₀ (by positivity)]; exact min_le_right _ _
    have h2 : 0 ≤ η * (c * s) := mul_nonneg h0.le (mul_nonneg hc hs)
    have h3 : 0 ≤ η * c := mul_nonneg h0.le hc
    have h4 : 0 ≤ η * s := mul_nonneg h0.le hs
    have e1 : η * (2 * (c + 1) * (s + 1)) = 2 * (η * (c * s)) + 2 * (η * c) + 2 * (η * s) + 2 * η := by ring
    have e2 : 2 * η * c * s = 2 * (η * (c * s)) := by ring
    linarith

private theorem lim_of_le {f : ℕ → ℝ} {a : ℝ} (h : ∀ m : ℕ, |f m - a| ≤ 1 / ((m : ℝ) + 1)) : Tendsto f atTop (nhds a) := by
  rw [tendsto_iff_dist_tendsto_zero]
  refine squeeze_zero (fun m => dist_nonneg) (fun m => ?_) tendsto_one_div_add_atTop_nhds_zero_nat
  rw [Real.dist_eq]
  exact h m

theorem longOnly_compact (M : ℝ) : IsCompact {w : Vec n | LongOnly M w} := by
  have h : {w : Vec n | LongOnly M w} = stdSimplex ℝ (Fin n) ∩ {w | ∀ i, w i ≤ M} := by
    ext w
    exact ⟨fun h : LongOnly M w => ⟨⟨h.nonneg, h.sum_one⟩, h.upper⟩, fun h => ⟨h.1.1, h.2, h.1.2⟩⟩
  rw [h]
  refine (isCompact_stdSimplex _ _).inter_right ?_
  simp only [Set.ofPred_forall]
  exact isClosed_iInter fun i => isClosed_le (continuous_apply i) continuous_const

theorem longOnly_ne_zero {M : ℝ} {w : Vec n} (h : LongOnly M w) : w ≠ 0 := by
  rintro rfl
  have := h.sum_one
  simp at this

/-- only one long-only portfolio is most diversified -/
theorem diverse_unique {S : Mat n} (hS : S.PosDef) {M : ℝ} {u v : Vec n} (hu : LongOnly M u) (hv : LongOnly M v)
    (hmu : ∀ x, LongOnly M x → divRatio S x ≤ divRatio S u) (hmv : ∀ x, LongOnly M x → divRatio S x ≤ divRatio S v) : u = v := by
  have hmid : LongOnly M ((1 / 2 : ℝ) • (u + v)) := by
    have e : ∀ i, ((1 / 2 : ℝ) • (u + v)) i = (u i + v i) / 2 := fun i => by
      simp only [Pi.smul_apply, Pi.add_apply, smul_eq_mul]; ring
    refine ⟨fun i => ?_, fun i => ?_, ?_⟩
    · rw [e]; have := hu.nonneg i; have := hv.nonneg i; linarith
    · rw [e]; have := hu.upper i; have := hv.upper i; linarith
    · simp only [e]
      rw [← Finset.sum_div, Finset.sum_add_distrib, hu.sum_one, hv.sum_one]
      norm_num
  have pu := predictedStd_pos hS (longOnly_ne_zero hu)
  have pv := predictedStd_pos hS (longOnly_ne_zero hv)
  have pm := predictedStd_pos hS (longOnly_ne_zero hmid)
  have heq : divRatio S u = divRatio S v := le_antisymm (hmv u hu) (hmu v hv)
  obtain ⟨h1, h2⟩ := risk_midpoint hS u v
  set r := divRatio S v with hr
  have e1 : ∑ i, Real.sqrt (S i i) * u i = r * predictedStd S u := by rw [← heq]; unfold divRatio; field_simp
  have e2 : ∑ i, Real.sqrt (S i i) * v i = r * predictedStd S v := by rw [hr]; unfold divRatio; field_simp
  have hr0 : 0 < r := by
    have hn : ∃ i, 0 < v i := by
      by_contra hcon
      push Not at hcon
      have := Finset.sum_nonpos fun i (_ : i ∈ Finset.univ) => hcon i
      rw [hv.sum_one] at this
      linarith
    obtain ⟨i, hi⟩ := hn
    have hsd : ∀ j, 0 < Real.sqrt (S j j) := fun j => Real.sqrt_pos.2 hS.diag_pos
    rw [hr]
    refine div_pos (Finset.sum_pos' (fun j _ => mul_nonneg (hsd j).le (hv.nonneg j)) ⟨i, Finset.mem_univ i, mul_pos (hsd i) hi⟩) pv
  have e3 : ∑ i, Real.sqrt (S i i) * ((1 / 2 : ℝ) • (u + v)) i = r * ((predictedStd S u + predictedStd S v) / 2) := by
    have : ∀ i, Real.sqrt (S i i) * ((1 / 2 : ℝ) • (u + v)) i = (Real.sqrt (S i i) * u i + Real.sqrt (S i i) * v i) / 2 := fun i => by
      simp only [Pi.smul_apply, Pi.add_apply, smul_eq_mul]; ring
    simp only [this]
    rw [← Finset.sum_div, Finset.sum_add_distrib, e1, e2]
    ring
  have h3 := hmv _ hmid
  rw [show divRatio S ((1 / 2 : ℝ) • (u + v)) = (∑ i, Real.sqrt (S i i) * ((1 / 2 : ℝ) • (u + v)) i) / predictedStd S ((1 / 2 : ℝ) • (u + v)) from rfl,
    e3, div_le_iff₀ pm] at h3
  have h4 := le_antisymm h1 (le_of_mul_le_mul_left h3 hr0)
  have ones : ∀ w : Vec n, (fun _ => (1 : ℝ)) ⬝ᵥ w = ∑ i, w i := fun w => by simp [dotProduct]
  exact ray_of_sum hS (c := fun _ => 1) (by rw [ones]; exact hu.sum_one) (by rw [ones]; exact hv.sum_one) (h2 h4)

private theorem divRatio_tendsto {A : ℕ → Mat n} {S : Mat n} (hS : S.PosDef) (hA : Tendsto A atTop (nhds S)) {u : ℕ → Vec n} {w : Vec n}
    (hu : Tendsto u atTop (nhds w)) (hw : w ≠ 0) : Tendsto (fun m => divRatio (A m) (u m)) atTop (nhds (divRatio S w)) := by
  unfold divRatio
  refine Tendsto.div (tendsto_finsetSum _ fun i _ => Tendsto.mul ?_ (tendsto_pi_nhds.1 hu i)) ?_ (predictedStd_pos hS hw).ne'
  · exact (Real.continuous_sqrt.tendsto _).comp (tendsto_matrix_iff.1 hA i i)
  · exact (Real.continuous_sqrt.tendsto _).comp (tendsto_dotProduct hu (tendsto_matrix_mulVec hA hu))

/-- **What a strategy chooses depends continuously on the covariance.** -/
theorem chooses_near (hn : 0 < n) {S : Mat n} (hS : S.PosDef) {st : Strategy τ n} {w : Vec n} (hw : st.Chooses S w) {e : ℝ} (he : 0 < e) :
    ∃ η, 0 < η ∧ ∀ S' : Mat n, S'.PosDef → (∀ i j, |S' i j - S i j| ≤ η) → ∀ w', st.Chooses S' w' → ∀ i, |w' i - w i| < e := by
  cases st with
  | meanVariance _ _ _ => exact hw.elim
  | eqWeighted =>
    refine ⟨1, one_pos, fun S' _ _ w' hw' i => ?_⟩
    rw [hw' i, hw i, sub_self, abs_zero]
    exact he
  | minRisk cons =>
    obtain ⟨η, h1, h2, h3⟩ := exists_eta (sq_nonneg (∑ i, Real.sqrt (S⁻¹ i i))) (Finset.sum_nonneg fun i (_ : i ∈ Finset.univ) => abs_nonneg (w i)) he
    refine ⟨η, h1, fun S' hS' hc w' hw' i => ?_⟩
    have hmove := minRisk_moves hS.posSemidef hS'.posSemidef hw.1 hw.2 hw'.1 hw'.2
    exact (Finset.single_le_sum (f := fun i => |w' i - w i|) (fun i _ => abs_nonneg _) (Finset.mem_univ i)).trans_lt
      ((close_of_bound hS h1.le hc hmove h2).trans_lt h3)
  | riskParity =>
    set y : Vec n := fun i => w i / predictedStd S w with hy
    have hsh := parity_share hn hS hw.1 hw.2.2 (v := y) fun i => rfl
    have back : ∀ {A : Mat n} {v : Vec n}, A.PosDef → ∑ i, v i = 1 → ∀ i, v i = (v i / predictedStd A v) / ∑ j, v j / predictedStd A v := by
      intro A v hA hv i
      have hne : v ≠ 0 := fun h0 => by rw [h0] at hv; simp at hv
      have := (predictedStd_pos hA hne).ne'
      rw [← Finset.sum_div, hv]
      field_simp
    by_contra hcon
    push Not at hcon
    choose A hA hAc v hv hbad using fun m : ℕ => hcon (1 / ((m : ℝ) + 1)) Nat.one_div_pos_of_nat
    have hlim : Tendsto (fun m i => v m i / predictedStd (A m) (v m)) atTop (nhds y) := by
      rw [tendsto_pi_nhds]
      intro i
      rw [tendsto_iff_dist_tendsto_zero]
      have hinv : ∀ᶠ m : ℕ in atTop, 2 * (1 / ((m : ℝ) + 1)) * (∑ i, Real.sqrt (S⁻¹ i i)) ^ 2 ≤ 1 := by
        have : Tendsto (fun m : ℕ => 2 * (1 / ((m : ℝ) + 1)) * (∑ i, Real.sqrt (S⁻¹ i i)) ^ 2) atTop (nhds (2 * 0 * (∑ i, Real.sqrt (S⁻¹ i i)) ^ 2)) :=
          (tendsto_one_div_add_atTop_nhds_zero_nat.const_mul 2).mul_const _
        rw [mul_zero, zero_mul] at this
        exact (this.eventually (gt_mem_nhds one_pos)).mono fun m hm => hm.le
      have hz : Tendsto (fun m : ℕ => 2 * (1 / ((m : ℝ) + 1)) * (∑ i, Real.sqrt (S⁻¹ i i)) ^ 2 * ∑ i, |y i|) atTop (nhds 0) := by
        have : Tendsto (fun m : ℕ => 2 * (1 / ((m : ℝ) + 1)) * (∑ i, Real.sqrt (S⁻¹ i i)) ^ 2 * ∑ i, |y i|) atTop
            (nhds (2 * 0 * (∑ i, Real.sqrt (S⁻¹ i i)) ^ 2 * ∑ i, |y i|)) :=
          ((tendsto_one_div_add_atTop_nhds_zero_nat.const_mul 2).mul_const _).mul_const _
        simpa using this
      refine squeeze_zero' (.of_forall fun m => dist_nonneg) (hinv.mono fun m hm => ?_) hz
      rw [Real.dist_eq]
      have hsh' := parity_share hn (hA m) (hv m).1 (hv m).2.2 (v := fun i => v m i / predictedStd (A m) (v m)) fun i => rfl
      exact (Finset.single_le_sum (f := fun i => |v m i / predictedStd (A m) (v m) - y i|) (fun i _ => abs_nonneg _) (Finset.mem_univ i)).trans
        (close_of_bound hS Nat.one_div_pos_of_nat.le (hAc m) (parity_moves hn hsh hsh') hm)
    have hsum : 0 < ∑ j, y j := Finset.sum_pos (fun j _ => (hsh j).1) ⟨⟨0, hn⟩, Finset.mem_univ _⟩
    have key : ∀ᶠ m in atTop, ∀ i, |v m i - w i| < e := eventually_all.2 fun i => by
      have h1 := (tendsto_pi_nhds.1 hlim i).div (tendsto_finsetSum Finset.univ fun j _ => tendsto_pi_nhds.1 hlim j) hsum.ne'
      rw [← back hS hw.2.1 i] at h1
      refine (Metric.tendsto_nhds.1 h1 e he).mono fun m hm => ?_
      rw [Real.dist_eq] at hm
      have hb := back (hA m) (hv m).2.1 i
      rw [hb]
      exact hm
    obtain ⟨m, hm⟩ := key.exists
    obtain ⟨i, hi⟩ := hbad m
    exact absurd (hm i) (not_lt.2 hi)
  | maxDiverse cons =>
    obtain ⟨M, hM, hwl, hmax⟩ := hw
    by_contra hcon
    push Not at hcon
    choose A hA hAc v hv hbad using fun m : ℕ => hcon (1 / ((m : ℝ) + 1)) Nat.one_div_pos_of_nat
    have hAl : Tendsto A atTop (nhds S) := tendsto_matrix_iff.2 fun i j => lim_of_le fun m => hAc m i j
    have hv' : ∀ m, LongOnly M (v m) ∧ ∀ x, LongOnly M x → divRatio (A m) x ≤ divRatio (A m) (v m) := fun m => by
      obtain ⟨M', hM', h1, h2⟩ := hv m
      rw [hM] at hM'
      cases hM'
      exact ⟨h1, h2⟩
    have hlim : Tendsto v atTop (nhds w) := by
      refine tendsto_of_subseq_tendsto fun ns hns => ?_
      obtain ⟨v0, hv0, φ, hφ, hl⟩ := (longOnly_compact M).tendsto_subseq (x := fun m => v (ns m)) fun m => (hv' _).1
      refine ⟨φ, ?_⟩
      have hAs : Tendsto (fun m => A (ns (φ m))) atTop (nhds S) := hAl.comp (hns.comp hφ.tendsto_atTop)
      have : v0 = w := diverse_unique hS hv0 hwl (fun x hx => le_of_tendsto_of_tendsto'
        (divRatio_tendsto hS hAs tendsto_const_nhds (longOnly_ne_zero hx)) (divRatio_tendsto hS hAs hl (longOnly_ne_zero hv0))
        fun m => (hv' _).2 x hx) hmax
      rw [← this]
      exact hl
    have key : ∀ᶠ m in atTop, ∀ i, |v m i - w i| < e := eventually_all.2 fun i =>
      (Metric.tendsto_nhds.1 (tendsto_pi_nhds.1 hlim i) e he).mono fun m hm => by rwa [Real.dist_eq] at hm
    obtain ⟨m, hm⟩ := key.exists
    obtain ⟨i, hi⟩ := hbad m
    exact absurd (hm i) (not_lt.2 hi)

end CovPred
