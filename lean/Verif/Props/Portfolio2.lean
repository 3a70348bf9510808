import Verif.Props.Portfolio
import Mathlib.Analysis.Calculus.LocalExtr.Basic
import Mathlib.Analysis.SpecialFunctions.Log.Deriv
import Mathlib.Analysis.SpecialFunctions.Sqrt
import Mathlib.Analysis.InnerProductSpace.PiL2

/-
Properties C83-C87: what the portfolio problems of the `Trader` mean (trading_model.py).
-/
namespace CovPred
open Matrix
set_option linter.unusedSectionVars false

variable {n : ℕ} {τ : Type} [DecidableEq τ]

/-! ### C83: `max_diverse` -/

/-- The diversification ratio of a portfolio: the weighted volatilities over the predicted standard deviation. -/
noncomputable def divRatio (S : Mat n) (w : Vec n) : ℝ := (∑ i, Real.sqrt (S i i) * w i) / predictedStd S w

/-- The long-only, fully invested portfolios with no weight above `M`. -/
structure LongOnly (M : ℝ) (w : Vec n) : Prop where
  nonneg : ∀ i, 0 ≤ w i
  upper : ∀ i, w i ≤ M
  sum_one : ∑ i, w i = 1

theorem predictedStd_smul (S : Mat n) (w : Vec n) {c : ℝ} (hc : 0 ≤ c) :
    predictedStd S (fun i => c * w i) = c * predictedStd S w := by
  have : (fun i => c * w i) = c • w := rfl
  unfold predictedStd
  rw [this, Matrix.mulVec_smul, dotProduct_smul, smul_dotProduct, smul_eq_mul, smul_eq_mul, ← mul_assoc,
    Real.sqrt_mul (mul_self_nonneg c), Real.sqrt_mul_self hc]

theorem predictedStd_pos {S : Mat n} (hS : S.PosDef) {w : Vec n} (hw : w ≠ 0) : 0 < predictedStd S w := by
  unfold predictedStd
  apply Real.sqrt_pos.2
  have := hS.dotProduct_mulVec_pos hw
  simpa using this

/-- **C83.** If `z` solves the problem given to the solver, the weights returned by `max_diverse` are a long-only, fully
invested portfolio within the upper bound with the largest diversification ratio of all of these. -/
theorem C83_max_diverse {S L : Mat n} (hS : S.PosDef) (hL : getLInv S = .ok L) (M : ℝ) (z : Vec n)
    (hz : DiverseOptimal L M (fun i => Real.sqrt (S i i)) z) :
    LongOnly M (normalizeW z) ∧ ∀ w, LongOnly M w → divRatio S w ≤ divRatio S (normalizeW z) := by
  obtain ⟨L', hL', hrisk⟩ := C56_whitener hS
  rw [hL] at hL'
  cases hL'
  obtain ⟨⟨hz0, hzM, hz1⟩, hopt⟩ := hz
  have hsig : ∀ i, 0 < Real.sqrt (S i i) := fun i => Real.sqrt_pos.2 (hS.diag_pos)
  have hzne : z ≠ 0 := by
    rintro rfl
    simp at hz1
  have hsum : 0 < ∑ j, z j := by
    obtain ⟨i, hi⟩ := Function.ne_iff.1 hzne
    exact Finset.sum_pos' (fun j _ => hz0 j) ⟨i, Finset.mem_univ i, lt_of_le_of_ne (hz0 i) (Ne.symm hi)⟩
  have hnorm : normalizeW z = fun i => (∑ j, z j)⁻¹ * z i := by
    funext i; unfold normalizeW; rw [div_eq_inv_mul]
  constructor
  · refine ⟨fun i => div_nonneg (hz0 i) hsum.le, fun i => ?_, ?_⟩
    · unfold normalizeW
      rw [div_le_iff₀ hsum]
      exact hzM i
    · unfold normalizeW
      rw [← Finset.sum_div, div_self hsum.ne']
  · intro w hw
    have hwne : w ≠ 0 := by
      rintro rfl
      have := hw.sum_one
      simp at this
    have hden : 0 < ∑ i, Real.sqrt (S i i) * w i := by
      obtain ⟨i, hi⟩ := Function.ne_iff.1 hwne
      exact Finset.sum_pos' (fun j _ => mul_nonneg (hsig j).le (hw.nonneg j))
        ⟨i, Finset.mem_univ i, mul_pos (hsig i) (lt_of_le_of_ne (hw.nonneg i) (Ne.symm hi))⟩
    set c := ∑ i, Real.sqrt (S i i) * w i with hc
    have hfeas : DiverseFeasible M (fun i => Real.sqrt (S i i)) (fun i => c⁻¹ * w i) := by
      refine ⟨fun i => mul_nonneg (inv_nonneg.2 hden.le) (hw.nonneg i), fun i => ?_, ?_⟩
      · rw [← Finset.mul_sum, hw.sum_one, mul_one, mul_comm]
        exact mul_le_mul_of_nonneg_right (hw.upper i) (inv_nonneg.2 hden.le)
      · have : ∀ i, Real.sqrt (S i i) * (c⁻¹ * w i) = c⁻¹ * (Real.sqrt (S i i) * w i) := fun i => by ring
        simp only [this]
        rw [← Finset.mul_sum, ← hc, inv_mul_cancel₀ hden.ne']
    have hle := hopt _ hfeas
    rw [hrisk, hrisk, predictedStd_smul S w (inv_nonneg.2 hden.le)] at hle
    have hpz := predictedStd_pos hS hzne
    have hpw := predictedStd_pos hS hwne
    have e1 : divRatio S (normalizeW z) = (predictedStd S z)⁻¹ := by
      unfold divRatio
      rw [hnorm, predictedStd_smul S z (inv_nonneg.2 hsum.le)]
      have : ∀ i, Real.sqrt (S i i) * ((∑ j, z j)⁻¹ * z i) = (∑ j, z j)⁻¹ * (Real.sqrt (S i i) * z i) := fun i => by ring
      simp only [this]
      rw [← Finset.mul_sum, hz1, mul_one, div_eq_mul_inv, mul_inv, inv_inv, ← mul_assoc, inv_mul_cancel₀ hsum.ne', one_mul]
    have e2 : divRatio S w = (c⁻¹ * predictedStd S w)⁻¹ := by
      unfold divRatio
      rw [← hc, mul_inv, inv_inv, div_eq_mul_inv]
    rw [e1, e2]
    exact inv_anti₀ hpz hle

/-! ### C84: `risk_parity` -/

private theorem log_geo (w : Vec n) (hw : ∀ i, 0 < w i) :
    Real.log ((∏ i, w i) ^ ((1 : ℝ) / n)) = (1 / n) * ∑ i, Real.log (w i) := by
  rw [Real.log_rpow (Finset.prod_pos fun i _ => hw i), Real.log_prod (fun i _ => (hw i).ne')]

private theorem quad_update (S : Mat n) (hsym : Sᵀ = S) (w : Vec n) (i : Fin n) (t : ℝ) :
    (w + t • Pi.single i 1) ⬝ᵥ (S *ᵥ (w + t • Pi.single i 1))
      = w ⬝ᵥ (S *ᵥ w) + 2 * t * (S *ᵥ w) i + t ^ 2 * S i i := by
  have h1 : w ⬝ᵥ (S *ᵥ (Pi.single i 1 : Vec n)) = (S *ᵥ w) i := by
    rw [Matrix.dotProduct_mulVec, ← Matrix.mulVec_transpose, hsym, dotProduct_single, mul_one]
  have h2 : (Pi.single i 1 : Vec n) ⬝ᵥ (S *ᵥ w) = (S *ᵥ w) i := by rw [single_dotProduct, one_mul]
  have h3 : (Pi.single i 1 : Vec n) ⬝ᵥ (S *ᵥ (Pi.single i 1 : Vec n)) = S i i := by
    rw [single_dotProduct, one_mul, Matrix.mulVec_single_one]
    rfl
  rw [Matrix.mulVec_add, Matrix.mulVec_smul, dotProduct_add, add_dotProduct, add_dotProduct, dotProduct_smul,
    smul_dotProduct, dotProduct_smul, smul_dotProduct, h1, h2, h3]
  simp only [smul_eq_mul]
  ring

/-- Cauchy-Schwarz for the risk -/
private theorem cauchy (S : Mat n) (hS : S.PosDef) (w v : Vec n) :
    v ⬝ᵥ (S *ᵥ w) ≤ predictedStd S v * predictedStd S w := by
  obtain ⟨L, _, hL⟩ := C56_whitener hS
  have hq : ∀ w, (L *ᵥ w) ⬝ᵥ (L *ᵥ w) = w ⬝ᵥ (S *ᵥ w) := by
    intro w
    have h := hL w
    unfold riskExpr predictedStd at h
    have h1 : 0 ≤ ∑ i, (∑ j, L i j * w j) ^ 2 := Finset.sum_nonneg fun i _ => sq_nonneg _
    have h2 : 0 ≤ w ⬝ᵥ (S *ᵥ w) := by simpa using hS.posSemidef.dotProduct_mulVec_nonneg w
    rw [Real.sqrt_inj h1 h2] at h
    rw [← h]
    exact Finset.sum_congr rfl fun i _ => by rw [sq]; rfl
  have hsym : Sᵀ = S := by
    have := hS.isHermitian
    rwa [Matrix.IsHermitian, Matrix.conjTranspose_eq_transpose_of_trivial] at this
  have hpol : (L *ᵥ v) ⬝ᵥ (L *ᵥ w) = v ⬝ᵥ (S *ᵥ w) := by
    have h := hq (v + w)
    rw [Matrix.mulVec_add, Matrix.mulVec_add, dotProduct_add, add_dotProduct, add_dotProduct, dotProduct_add, add_dotProduct,
      add_dotProduct, hq, hq] at h
    have hs1 : w ⬝ᵥ (S *ᵥ v) = v ⬝ᵥ (S *ᵥ w) := by
      rw [Matrix.dotProduct_mulVec, ← Matrix.mulVec_transpose, hsym, dotProduct_comm]
    rw [dotProduct_comm (L *ᵥ w) (L *ᵥ v), hs1] at h
    linarith
  have hcs := Finset.sum_mul_sq_le_sq_mul_sq Finset.univ (L *ᵥ v) (L *ᵥ w)
  have hb : (v ⬝ᵥ (S *ᵥ w)) ^ 2 ≤ (predictedStd S v * predictedStd S w) ^ 2 := by
    have hsv : predictedStd S v ^ 2 = v ⬝ᵥ (S *ᵥ v) := Real.sq_sqrt (by simpa using hS.posSemidef.dotProduct_mulVec_nonneg v)
    have hsw : predictedStd S w ^ 2 = w ⬝ᵥ (S *ᵥ w) := Real.sq_sqrt (by simpa using hS.posSemidef.dotProduct_mulVec_nonneg w)
    rw [mul_pow, hsv, hsw, ← hq v, ← hq w, ← hpol]
    refine le_trans hcs (le_of_eq ?_)
    congr 1 <;> exact Finset.sum_congr rfl fun i _ => by rw [sq]
  exact (abs_le_of_sq_le_sq' hb (mul_nonneg (Real.sqrt_nonneg _) (Real.sqrt_nonneg _))).2

/-- **C84.** Positive weights solve the risk parity problem exactly if all assets have the same risk contribution
`w_i (S w)_i`, of size `4 / n`. -/
theorem C84_optimal_iff {S L : Mat n} (hn : 0 < n) (hS : S.PosDef) (hL : getLInv S = .ok L) (w : Vec n) :
    ParityOptimal L w ↔ (∀ i, 0 < w i) ∧ ∀ i, w i * (S *ᵥ w) i = 4 / n := by
  obtain ⟨L', hL', hrisk⟩ := C56_whitener hS
  rw [hL] at hL'
  cases hL'
  have hsym : Sᵀ = S := by
    have := hS.isHermitian
    rwa [Matrix.IsHermitian, Matrix.conjTranspose_eq_transpose_of_trivial] at this
  have hn' : (0 : ℝ) < n := by exact_mod_cast hn
  have hobj : ∀ v : Vec n, (∀ i, 0 < v i) →
      parityObjective L v = 1 / 2 * predictedStd S v - (1 / n) * ∑ i, Real.log (v i) := by
    intro v hv
    unfold parityObjective
    rw [hrisk, log_geo v hv]
  have hne : ∀ v : Vec n, (∀ i, 0 < v i) → v ≠ 0 := by
    intro v hv h
    have := hv ⟨0, hn⟩
    rw [h] at this
    exact lt_irrefl _ this
  constructor
  · rintro ⟨hw, hopt⟩
    refine ⟨hw, ?_⟩
    have hsd := predictedStd_pos hS (hne w hw)
    -- stationarity in every coordinate
    have hstat : ∀ i, w i * (S *ᵥ w) i = 2 / n * predictedStd S w := by
      intro i
      set f : ℝ → ℝ := fun t => 1 / 2 * Real.sqrt (w ⬝ᵥ (S *ᵥ w) + 2 * t * (S *ᵥ w) i + t ^ 2 * S i i)
        - 1 / n * (∑ j ∈ Finset.univ.erase i, Real.log (w j) + Real.log (w i + t)) with hf
      have hval : ∀ t, 0 < w i + t → f t = parityObjective L (w + t • Pi.single i 1) := by
        intro t ht
        have hpos : ∀ j, 0 < (w + t • (Pi.single i 1 : Vec n)) j := by
          intro j
          by_cases h : j = i
          · subst h; simpa using ht
          · simpa [h] using hw j
        rw [hobj _ hpos, hf]
        dsimp only
        unfold predictedStd
        rw [quad_update S hsym, ← Finset.add_sum_erase _ _ (Finset.mem_univ i)]
        congr 2
        rw [add_comm]
        congr 1
        · simp
        · refine Finset.sum_congr rfl fun j hj => ?_
          have : j ≠ i := Finset.ne_of_mem_erase hj
          simp [this]
      have hmin : IsLocalMin f 0 := by
        have hev : ∀ᶠ t in nhds (0 : ℝ), 0 < w i + t := by
          have : Filter.Tendsto (fun t : ℝ => w i + t) (nhds 0) (nhds (w i + 0)) :=
            (continuous_const.add continuous_id).tendsto 0
          rw [add_zero] at this
          exact this.eventually (lt_mem_nhds (hw i))
        filter_upwards [hev] with t ht
        rw [hval t ht, hval 0 (by simpa using hw i)]
        have h0 : w + (0 : ℝ) • (Pi.single i 1 : Vec n) = w := by simp
        rw [h0]
        apply hopt
        intro j
        by_cases h : j = i
        · subst h; simpa using ht
        · simpa [h] using hw j
      have hq0 : w ⬝ᵥ (S *ᵥ w) + 2 * 0 * (S *ᵥ w) i + 0 ^ 2 * S i i ≠ 0 := by
        have : w ⬝ᵥ (S *ᵥ w) ≠ 0 := (Real.sqrt_pos.1 hsd).ne'
        simpa using this
      have hder : HasDerivAt f (1 / 2 * ((2 * (S *ᵥ w) i) / (2 * predictedStd S w)) - 1 / n * (1 / w i)) 0 := by
        have hpoly : HasDerivAt (fun t : ℝ => w ⬝ᵥ (S *ᵥ w) + 2 * t * (S *ᵥ w) i + t ^ 2 * S i i) (2 * (S *ᵥ w) i) 0 := by
          have h1 : HasDerivAt (fun t : ℝ => 2 * t * (S *ᵥ w) i) (2 * 1 * (S *ᵥ w) i) 0 :=
            ((hasDerivAt_id (0 : ℝ)).const_mul 2).mul_const _
          have h2 : HasDerivAt (fun t : ℝ => t ^ 2 * S i i) ((2 : ℕ) * (0 : ℝ) ^ (2 - 1) * S i i) 0 :=
            (hasDerivAt_pow 2 (0 : ℝ)).mul_const _
          have h3 := (h1.const_add (w ⬝ᵥ (S *ᵥ w))).add h2
          have e : (2 * 1 * (S *ᵥ w) i + (2 : ℕ) * (0 : ℝ) ^ (2 - 1) * S i i) = 2 * (S *ᵥ w) i := by norm_num
          rw [e] at h3
          exact h3
        have hs := hpoly.sqrt hq0
        have hlog : HasDerivAt (fun t : ℝ => Real.log (w i + t)) (1 / (w i + 0)) 0 := by
          have := ((hasDerivAt_id (0 : ℝ)).const_add (w i)).log (by simpa using (hw i).ne')
          exact this
        have hl2 := (hlog.const_add (∑ j ∈ Finset.univ.erase i, Real.log (w j))).const_mul (1 / (n : ℝ))
        have hfin := (hs.const_mul (1 / 2)).sub hl2
        have e1 : Real.sqrt (w ⬝ᵥ (S *ᵥ w) + 2 * 0 * (S *ᵥ w) i + 0 ^ 2 * S i i) = predictedStd S w := by
          unfold predictedStd; congr 1; ring
        rw [e1, add_zero] at hfin
        exact hfin
      have hz := hmin.hasDerivAt_eq_zero hder
      have hwi := (hw i).ne'
      field_simp at hz
      field_simp
      linarith
    -- the size of the risk
    have hq : predictedStd S w ^ 2 = w ⬝ᵥ (S *ᵥ w) := Real.sq_sqrt (by simpa using hS.posSemidef.dotProduct_mulVec_nonneg w)
    have htot : w ⬝ᵥ (S *ᵥ w) = 2 * predictedStd S w := by
      rw [dotProduct, Finset.sum_congr rfl fun i _ => hstat i, Finset.sum_const, Finset.card_univ, Fintype.card_fin,
        nsmul_eq_mul]
      field_simp
    have h2 : predictedStd S w = 2 := by
      have : predictedStd S w * (predictedStd S w - 2) = 0 := by nlinarith
      rcases mul_eq_zero.1 this with h | h
      · exact absurd h hsd.ne'
      · linarith
    intro i
    rw [hstat i, h2]
    ring
  · rintro ⟨hw, hrc⟩
    refine ⟨hw, ?_⟩
    intro v hv
    have hsd := predictedStd_pos hS (hne w hw)
    have hq : predictedStd S w ^ 2 = w ⬝ᵥ (S *ᵥ w) := Real.sq_sqrt (by simpa using hS.posSemidef.dotProduct_mulVec_nonneg w)
    have htot : w ⬝ᵥ (S *ᵥ w) = 4 := by
      rw [dotProduct, Finset.sum_congr rfl fun i _ => hrc i, Finset.sum_const, Finset.card_univ, Fintype.card_fin,
        nsmul_eq_mul]
      field_simp
    have h2 : predictedStd S w = 2 := by
      rw [htot] at hq
      have : (predictedStd S w - 2) * (predictedStd S w + 2) = 0 := by ring_nf; linarith
      rcases mul_eq_zero.1 this with h | h <;> linarith
    have hSw : ∀ i, (S *ᵥ w) i = 4 / n / w i := by
      intro i
      rw [eq_div_iff (hw i).ne', mul_comm]
      exact hrc i
    have hcs := cauchy S hS w v
    rw [h2] at hcs
    have hvS : v ⬝ᵥ (S *ᵥ w) = 4 / n * ∑ i, v i / w i := by
      rw [dotProduct, Finset.mul_sum]
      exact Finset.sum_congr rfl fun i _ => by rw [hSw i]; ring
    have hlog : ∑ i, Real.log (v i) ≤ ∑ i, Real.log (w i) + ∑ i, v i / w i - n := by
      have : ∀ i, Real.log (v i) ≤ Real.log (w i) + (v i / w i - 1) := by
        intro i
        have h := Real.log_le_sub_one_of_pos (div_pos (hv i) (hw i))
        rw [Real.log_div (hv i).ne' (hw i).ne'] at h
        linarith
      have h := Finset.sum_le_sum fun i (_ : i ∈ Finset.univ) => this i
      rw [Finset.sum_add_distrib, Finset.sum_sub_distrib, Finset.sum_const, Finset.card_univ, Fintype.card_fin, nsmul_eq_mul,
        mul_one] at h
      linarith
    rw [hobj w hw, hobj v hv, h2]
    have hinv : (0 : ℝ) < 1 / n := by positivity
    have h3 := mul_le_mul_of_nonneg_left hlog hinv.le
    have h4 : 1 / (n : ℝ) * n = 1 := by field_simp
    rw [hvS] at hcs
    have h5 : (4 : ℝ) / n * ∑ i, v i / w i = 4 * (1 / n * ∑ i, v i / w i) := by ring
    rw [h5] at hcs
    have h6 : 1 / (n : ℝ) * (∑ i, Real.log (w i) + ∑ i, v i / w i - n)
        = 1 / n * ∑ i, Real.log (w i) + 1 / n * ∑ i, v i / w i - 1 := by
      rw [mul_sub, mul_add, h4]
    rw [h6] at h3
    linarith

/-- **C84.** The weights returned by `risk_parity` are positive, sum to one and all assets contribute equally to the
risk. -/
theorem C84_equal_contributions {S L : Mat n} (hn : 0 < n) (hS : S.PosDef) (hL : getLInv S = .ok L) (w : Vec n)
    (hw : ParityOptimal L w) :
    (∀ i, 0 < normalizeW w i) ∧ ∑ i, normalizeW w i = 1 ∧
      ∀ i j, normalizeW w i * (S *ᵥ normalizeW w) i = normalizeW w j * (S *ᵥ normalizeW w) j := by
  obtain ⟨hpos, hrc⟩ := (C84_optimal_iff hn hS hL w).1 hw
  have hsum : 0 < ∑ j, w j := Finset.sum_pos (fun j _ => hpos j) ⟨⟨0, hn⟩, Finset.mem_univ _⟩
  have hnorm : normalizeW w = (∑ j, w j)⁻¹ • w := by
    funext i; unfold normalizeW; rw [div_eq_inv_mul]; rfl
  refine ⟨fun i => div_pos (hpos i) hsum, ?_, ?_⟩
  · unfold normalizeW
    rw [← Finset.sum_div, div_self hsum.ne']
  · intro i j
    have : ∀ i, normalizeW w i * (S *ᵥ normalizeW w) i = (∑ j, w j)⁻¹ ^ 2 * (4 / n) := by
      intro i
      rw [hnorm, Matrix.mulVec_smul, Pi.smul_apply, Pi.smul_apply, smul_eq_mul, smul_eq_mul, ← hrc i]
      ring
    rw [this i, this j]

end CovPred
