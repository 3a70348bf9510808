import Verif.Model.Prescient
import Verif.Spec.Prescient
import Verif.Lemmas.FromEwmas
import Verif.Lemmas.Ccp2

/-
Properties of the prescient predictors (C140-C142).
-/
set_option linter.unusedSectionVars false
namespace CovPred
open Matrix

variable {τ : Type} {n : ℕ}

/-! ### Sums over lists of returns -/

private theorem sum_apply (rs : List (Vec n)) (i : Fin n) : rs.sum i = (rs.map fun r => r i).sum := by
  induction rs with
  | nil => rfl
  | cons r rs ih => rw [List.sum_cons, Pi.add_apply, ih, List.map_cons, List.sum_cons]

private theorem msum_apply (l : List (Mat n)) (i j : Fin n) : l.sum i j = (l.map fun A => A i j).sum := by
  induction l with
  | nil => rfl
  | cons r rs ih => rw [List.sum_cons, Matrix.add_apply, ih, List.map_cons, List.sum_cons]

private theorem npMean0_eq (rs : List (Vec n)) : npMean0 rs = rowMean rs := by
  funext i
  rw [npMean0, Pi.smul_apply, sum_apply, smul_eq_mul, rowMean, one_div, inv_mul_eq_div]

private theorem npCov_eq (rs : List (Vec n)) (h : rs.length ≠ 1) : npCov rs = some (sampleCov rs) := by
  rw [npCov, if_neg h, npMean0_eq]
  congr 1
  ext i j
  rw [Matrix.smul_apply, msum_apply, List.map_map, smul_eq_mul, sampleCov, Matrix.of_apply, one_div, inv_mul_eq_div]
  rfl

/-- the expansion of a sum of products of deviations -/
private theorem dev_sum (rs : List (Vec n)) (a b : ℝ) (i j : Fin n) :
    (rs.map fun r => (r i - a) * (r j - b)).sum =
      (rs.map fun r => r i * r j).sum - b * (rs.map fun r => r i).sum - a * (rs.map fun r => r j).sum
        + rs.length * (a * b) := by
  induction rs with
  | nil => simp
  | cons r rs ih =>
    simp only [List.map_cons, List.sum_cons, ih, List.length_cons, Nat.cast_add, Nat.cast_one]
    ring

/-- `(N-1) C = N (S - m mᵀ)` -/
private theorem cov_expand (rs : List (Vec n)) (h : 2 ≤ rs.length) :
    sampleCov rs = ((rs.length : ℝ) / (rs.length - 1)) • (secondMoment rs - outerR (rowMean rs)) := by
  have h0 : (0 : ℝ) < rs.length - 1 := by
    have : (2 : ℝ) ≤ rs.length := by exact_mod_cast h
    linarith
  have h1 : (rs.length : ℝ) ≠ 0 := by linarith
  ext i j
  simp only [sampleCov, Matrix.of_apply, Matrix.smul_apply, Matrix.sub_apply, secondMoment, outerR, smul_eq_mul]
  rw [dev_sum]
  have hi : (rs.map fun r => r i).sum = rs.length * rowMean rs i := by rw [rowMean]; field_simp
  have hj : (rs.map fun r => r j).sum = rs.length * rowMean rs j := by rw [rowMean]; field_simp
  rw [hi, hj]
  field_simp
  ring

/-- the matrix stored is the second moment plus the sample covariance over the number of rows -/
private theorem prescient_eq (rs : List (Vec n)) (h : 2 ≤ rs.length) :
    sampleCov rs + outerR (rowMean rs) = secondMoment rs + (1 / (rs.length : ℝ)) • sampleCov rs := by
  have h0 : (0 : ℝ) < rs.length - 1 := by
    have : (2 : ℝ) ≤ rs.length := by exact_mod_cast h
    linarith
  have h1 : (rs.length : ℝ) ≠ 0 := by linarith
  rw [cov_expand rs h]
  ext i j
  simp only [Matrix.add_apply, Matrix.smul_apply, Matrix.sub_apply, smul_eq_mul]
  field_simp
  ring

private theorem quad_dev (rs : List (Vec n)) (m x : Vec n) :
    x ⬝ᵥ ((rs.map fun r => outerR (r - m)).sum *ᵥ x) = (rs.map fun r => (x ⬝ᵥ (r - m)) ^ 2).sum := by
  induction rs with
  | nil => simp
  | cons r rs ih =>
    rw [List.map_cons, List.sum_cons, Matrix.add_mulVec, dotProduct_add, ih, List.map_cons, List.sum_cons]
    congr 1
    have : outerR (r - m) = Matrix.vecMulVec (r - m) (r - m) := by ext i j; rfl
    rw [this, Matrix.vecMulVec_mulVec, sq]
    simp [dotProduct_comm, dotProduct_smul]

private theorem cov_posSemidef (rs : List (Vec n)) (h : 2 ≤ rs.length) : (sampleCov rs).PosSemidef := by
  have h0 : (0 : ℝ) < rs.length - 1 := by
    have : (2 : ℝ) ≤ rs.length := by exact_mod_cast h
    linarith
  have e : sampleCov rs = (1 / ((rs.length : ℝ) - 1)) • (rs.map fun r => outerR (r - rowMean rs)).sum := by
    ext i j
    rw [Matrix.smul_apply, msum_apply, List.map_map, smul_eq_mul, sampleCov, Matrix.of_apply, one_div, inv_mul_eq_div]
    rfl
  apply Matrix.PosSemidef.of_dotProduct_mulVec_nonneg
  · ext i j
    simp only [sampleCov, Matrix.conjTranspose_apply, Matrix.of_apply, star_trivial]
    simp only [mul_comm]
  · intro x
    rw [star_trivial, e, Matrix.smul_mulVec, dotProduct_smul, quad_dev, smul_eq_mul]
    apply mul_nonneg (by positivity)
    apply List.sum_nonneg
    intro y hy
    rw [List.mem_map] at hy
    obtain ⟨r, _, rfl⟩ := hy
    exact sq_nonneg _

private theorem outerR_posSemidef (m : Vec n) : (outerR m).PosSemidef := by
  have : outerR m = Matrix.vecMulVec m (star m) := by ext i j; rfl
  rw [this]
  exact Matrix.posSemidef_vecMulVec_self_star m

/-! ### C140 -/

private theorem quarter_filter (c : Calendar τ) (hc : ∀ t, 1 ≤ c.month t ∧ c.month t ≤ 12) (s t : τ) :
    (c.year s = c.year t ∧ c.indexQuarter s = c.quarter t) ↔
      SameQuarter (c.year s, c.month s) (c.year t, c.month t) := by
  have h1 := hc s
  have h2 := hc t
  simp only [Calendar.indexQuarter, Calendar.quarter, SameQuarter, Set.mem_insert_iff, Set.mem_singleton_iff]
  refine and_congr_right fun _ => ?_
  constructor
  · intro h
    refine ⟨3 * ((c.month t - 1) / 3), ?_, ?_⟩ <;> omega
  · rintro ⟨q, hq, h⟩
    omega

open Classical in
private theorem quarterRows_eq (c : Calendar τ) (hc : ∀ t, 1 ≤ c.month t ∧ c.month t ≤ 12) (returns : List (τ × Vec n)) (t : τ) :
    quarterRows c returns t =
      (returns.filter fun p => SameQuarter (c.year p.1, c.month p.1) (c.year t, c.month t)).map Prod.snd := by
  unfold quarterRows
  congr 1
  apply List.filter_congr
  intro p _
  simp only [quarter_filter c hc]

private theorem dictOf_lookup {L A : Type} [DecidableEq L] (l : List L) (f : L → A) :
    (∀ a ∈ l, (dictOf (l.map fun a => (a, f a))).lookup a = some (f a)) := by
  obtain ⟨h1, h2, _⟩ := dictOf_keys (l.map fun a => (a, f a))
  have e : (l.map fun a => (a, f a)).map Prod.fst = l := by rw [List.map_map]; exact List.map_id l
  rw [e] at h2
  intro a ha
  obtain ⟨⟨a', v⟩, hm, rfl⟩ := List.mem_map.1 ((h2 a).2 ha)
  have hv : v = f a' := by
    obtain ⟨pre, post, hl, _⟩ := dictOf_last _ _ _ hm
    have : (a', v) ∈ l.map fun a => (a, f a) := by rw [hl]; simp
    obtain ⟨b, _, hb⟩ := List.mem_map.1 this
    rw [Prod.mk.injEq] at hb
    rw [← hb.2, hb.1]
  rw [hv] at hm
  generalize dictOf (l.map fun a => (a, f a)) = d at h1 hm
  clear h2 hv e ha
  induction d with
  | nil => cases hm
  | cons p d ih =>
    rw [List.map_cons, List.nodup_cons] at h1
    rw [List.lookup_cons]
    rcases List.mem_cons.1 hm with rfl | hm
    · simp
    · have : a' ≠ p.1 := by
        rintro rfl
        exact h1.1 (List.mem_map.2 ⟨_, hm, rfl⟩)
      have hb : (a' == p.1) = false := by simpa using this
      rw [hb]
      exact ih h1.2 hm

private theorem dict_of_rows {A : Type} [DecidableEq τ] (returns : List (τ × Vec n)) (f : τ → A) :
    (∀ t ∈ returns.map Prod.fst, (dictOf (returns.map fun p => (p.1, f p.1))).lookup t = some (f t)) ∧
    (Dict.keys (dictOf (returns.map fun p => (p.1, f p.1)))).Nodup ∧
    (∀ t, t ∈ Dict.keys (dictOf (returns.map fun p => (p.1, f p.1))) ↔ t ∈ returns.map Prod.fst) := by
  have e : (returns.map fun p => (p.1, f p.1)) = (returns.map Prod.fst).map fun a => (a, f a) := by
    rw [List.map_map]; rfl
  rw [e]
  refine ⟨dictOf_lookup _ f, (dictOf_keys _).1, fun t => ?_⟩
  have := (dictOf_keys ((returns.map Prod.fst).map fun a => (a, f a))).2.1 t
  rw [show Dict.keys (dictOf ((returns.map Prod.fst).map fun a => (a, f a))) =
    (dictOf ((returns.map Prod.fst).map fun a => (a, f a))).map Prod.fst from rfl, this]
  simp

open Classical in
/-- C140. The prescient predictor has exactly the dates of the returns as its keys. A date whose quarter has at least two
rows gets the second moment matrix of ALL rows of its quarter (past and future) plus the unbiased sample covariance
divided by the number of rows, which is positive semidefinite; it is the sample covariance plus the outer product of the
mean. Two dates of the same quarter get the same matrix. A date that is alone in its quarter gets a matrix of `nan`s. -/
theorem C140_prescient [DecidableEq τ] (c : Calendar τ) (hc : ∀ t, 1 ≤ c.month t ∧ c.month t ≤ 12)
    (returns : List (τ × Vec n)) :
    (prescient c returns).keys.Nodup ∧
    (∀ t, t ∈ (prescient c returns).keys ↔ t ∈ returns.map Prod.fst) ∧
    (∀ t ∈ returns.map Prod.fst, ∀ rs, rs = ((returns.filter fun p =>
        SameQuarter (c.year p.1, c.month p.1) (c.year t, c.month t)).map Prod.snd) →
      (2 ≤ rs.length → ∃ P : Mat n, (prescient c returns).lookup t = some (some P) ∧
        P = secondMoment rs + (1 / (rs.length : ℝ)) • sampleCov rs ∧
        (∀ i j, P i j = sampleCov rs i j + rowMean rs i * rowMean rs j) ∧ P.PosSemidef) ∧
      (rs.length = 1 → (prescient c returns).lookup t = some none)) ∧
    (∀ s ∈ returns.map Prod.fst, ∀ t ∈ returns.map Prod.fst,
      SameQuarter (c.year s, c.month s) (c.year t, c.month t) →
      (prescient c returns).lookup s = (prescient c returns).lookup t) := by
  obtain ⟨hl, hn, hk⟩ := dict_of_rows returns (prescientAt c returns)
  refine ⟨hn, hk, ?_, ?_⟩
  · intro t ht rs hrs
    have hq := quarterRows_eq c hc returns t
    rw [← hrs] at hq
    have hlk : (prescient c returns).lookup t = _ := hl t ht
    rw [hlk, prescientAt, hq]
    constructor
    · intro h2
      rw [npCov_eq rs (by omega), npMean0_eq]
      refine ⟨_, rfl, prescient_eq rs h2, fun i j => rfl, ?_⟩
      exact (cov_posSemidef rs h2).add (outerR_posSemidef _)
    · intro h1
      rw [npCov, if_pos h1]
      rfl
  · intro s hs t ht hst
    have h1 : (prescient c returns).lookup s = _ := hl s hs
    have h2 : (prescient c returns).lookup t = _ := hl t ht
    rw [h1, h2, prescientAt, prescientAt]
    have : quarterRows c returns s = quarterRows c returns t := by
      have hy : c.year s = c.year t := hst.1
      have hm : c.quarter s = c.quarter t := ((quarter_filter c hc s t).2 hst).2
      unfold quarterRows
      rw [hy, hm]
    rw [this]

/-! ### C141: the likelihood -/

private theorem trace_second (rs : List (Vec n)) (S : Mat n) :
    (rs.map fun r => r ⬝ᵥ (S *ᵥ r)).sum = (S * (rs.map fun r => outerR r).sum).trace := by
  induction rs with
  | nil => simp
  | cons r rs ih =>
    rw [List.map_cons, List.sum_cons, ih, List.map_cons, List.sum_cons, Matrix.mul_add, Matrix.trace_add]
    congr 1
    have : outerR r = Matrix.vecMulVec r r := by ext i j; rfl
    rw [this, Matrix.mul_vecMulVec, Matrix.trace_vecMulVec, dotProduct_comm]

private theorem second_eq (rs : List (Vec n)) :
    secondMoment rs = (1 / (rs.length : ℝ)) • (rs.map fun r => outerR r).sum := by
  ext i j
  rw [Matrix.smul_apply, msum_apply, List.map_map, smul_eq_mul, secondMoment, Matrix.of_apply, one_div, inv_mul_eq_div]
  rfl

/-- the log-likelihood in terms of the second moment of the deviations -/
private theorem logLik_eq (mu : Vec n) (S : Mat n) (rs : List (Vec n)) (h : rs ≠ []) :
    gaussLogLik mu S rs = rs.length * (-(n / 2 * Real.log (2 * Real.pi)) - 1 / 2 * Real.log S.det
      - 1 / 2 * (S⁻¹ * secondMoment (rs.map fun r => r - mu)).trace) := by
  have hN : (rs.length : ℝ) ≠ 0 := by exact_mod_cast fun h0 => h (List.length_eq_zero_iff.1 h0)
  have h1 : gaussLogLik mu S rs = rs.length * (-(n / 2 * Real.log (2 * Real.pi)) - 1 / 2 * Real.log S.det)
      - 1 / 2 * (rs.map fun r => (r - mu) ⬝ᵥ (S⁻¹ *ᵥ (r - mu))).sum := by
    clear h hN
    unfold gaussLogLik
    induction rs with
    | nil => simp
    | cons r rs ih =>
      rw [List.map_cons, List.sum_cons, ih, List.map_cons, List.sum_cons, gaussLogDensity, List.length_cons]
      push_cast
      ring
  have h2 := trace_second (rs.map fun r => r - mu) S⁻¹
  rw [List.map_map] at h2
  have h3 : (rs.map fun r => (r - mu) ⬝ᵥ (S⁻¹ *ᵥ (r - mu))).sum =
      rs.length * (S⁻¹ * secondMoment (rs.map fun r => r - mu)).trace := by
    rw [second_eq, Matrix.mul_smul, Matrix.trace_smul, List.length_map, smul_eq_mul, ← mul_assoc, mul_one_div,
      div_self hN, one_mul, ← h2]
    rfl
  rw [h1, h3]
  ring

/-- the gap of the likelihood between a covariance and the second moment of the deviations -/
private theorem gap_eq (mu : Vec n) {S : Mat n} (rs : List (Vec n)) (h : rs ≠ [])
    (hM : (secondMoment (rs.map fun r => r - mu)).PosDef) :
    gaussLogLik mu (secondMoment (rs.map fun r => r - mu)) rs - gaussLogLik mu S rs =
      rs.length / 2 * ((S⁻¹ * secondMoment (rs.map fun r => r - mu)).trace - n -
        (Real.log (secondMoment (rs.map fun r => r - mu)).det - Real.log S.det)) := by
  rw [logLik_eq mu _ rs h, logLik_eq mu S rs h, Matrix.nonsing_inv_mul _ (isUnit_iff_ne_zero.mpr hM.det_pos.ne'),
    Matrix.trace_one, Fintype.card_fin]
  ring

private theorem mle (mu : Vec n) {S : Mat n} (hS : S.PosDef) (rs : List (Vec n)) (h : rs ≠ [])
    (hM : (secondMoment (rs.map fun r => r - mu)).PosDef) :
    gaussLogLik mu S rs ≤ gaussLogLik mu (secondMoment (rs.map fun r => r - mu)) rs ∧
    (gaussLogLik mu S rs = gaussLogLik mu (secondMoment (rs.map fun r => r - mu)) rs →
      S = secondMoment (rs.map fun r => r - mu)) := by
  have hN : (0 : ℝ) < rs.length := by exact_mod_cast List.length_pos_iff.2 h
  have hg := gap_eq mu (S := S) rs h hM
  have hgap := logdet_gap hS hM
  refine ⟨?_, fun he => ?_⟩
  · have := mul_nonneg (by positivity : (0:ℝ) ≤ rs.length / 2) hgap
    linarith
  · rw [he, sub_self] at hg
    have h0 : (S⁻¹ * secondMoment (rs.map fun r => r - mu)).trace - n -
        (Real.log (secondMoment (rs.map fun r => r - mu)).det - Real.log S.det) = 0 := by
      rcases mul_eq_zero.1 hg.symm with h | h
      · linarith
      · exact h
    have := eq_inv_of_log_det hS.inv hM (by
      rw [Matrix.det_nonsing_inv, Ring.inverse_eq_inv', Real.log_inv]; linarith)
    have hu := isUnit_iff_ne_zero.mpr hS.det_pos.ne'
    calc S = S * (S⁻¹ * secondMoment (rs.map fun r => r - mu)) := by rw [this, mul_one]
      _ = _ := by rw [← mul_assoc, Matrix.mul_nonsing_inv _ hu, one_mul]

private theorem sub_zero_map (rs : List (Vec n)) : (rs.map fun r => r - (0 : Vec n)) = rs := by
  simp

open Classical in
/-- C141. Let the rows of the quarter of a date have a positive definite second moment matrix `M`, and at least two rows.
Among ALL positive definite covariances held over the whole quarter, `M` and no other maximises the Gaussian log-likelihood
with mean zero of the returns of the quarter. The prescient predictor's matrix is positive definite, its log-likelihood is
smaller than that of `M` unless the sample covariance is zero, and smaller by at most `n N / (2 (N - 1))` in total: so
the sum of the regrets of any covariance held over the quarter, against the prescient one, is at least minus that. -/
theorem C141_prescient_likelihood [DecidableEq τ] (c : Calendar τ) (hc : ∀ t, 1 ≤ c.month t ∧ c.month t ≤ 12)
    (returns : List (τ × Vec n)) (t : τ) (ht : t ∈ returns.map Prod.fst) (rs : List (Vec n))
    (hrs : rs = (returns.filter fun p => SameQuarter (c.year p.1, c.month p.1) (c.year t, c.month t)).map Prod.snd)
    (h2 : 2 ≤ rs.length) (hM : (secondMoment rs).PosDef) :
    ∃ P : Mat n, (prescient c returns).lookup t = some (some P) ∧ P.PosDef ∧
      (∀ S : Mat n, S.PosDef → S ≠ secondMoment rs → gaussLogLik 0 S rs < gaussLogLik 0 (secondMoment rs) rs) ∧
      (sampleCov rs ≠ 0 → gaussLogLik 0 P rs < gaussLogLik 0 (secondMoment rs) rs) ∧
      (sampleCov rs = 0 → P = secondMoment rs) ∧
      ∀ S : Mat n, S.PosDef →
        -(n * rs.length / (2 * ((rs.length : ℝ) - 1))) ≤ gaussLogLik 0 P rs - gaussLogLik 0 S rs := by
  obtain ⟨P, hP, e, _, _⟩ := ((C140_prescient c hc returns).2.2.1 t ht rs hrs).1 h2
  have hNr : (2 : ℝ) ≤ rs.length := by exact_mod_cast h2
  have h0 : (0 : ℝ) < rs.length - 1 := by linarith
  have hC := cov_posSemidef rs h2
  have hd : (P - secondMoment rs).PosSemidef := by
    rw [e, add_sub_cancel_left]
    exact hC.smul (by positivity)
  have hPD : P.PosDef := by
    have := hM.add_posSemidef hd
    rwa [add_sub_cancel] at this
  have hne : rs ≠ [] := by rintro rfl; simp at h2
  have hml : ∀ S : Mat n, S.PosDef → gaussLogLik 0 S rs ≤ gaussLogLik 0 (secondMoment rs) rs ∧
      (gaussLogLik 0 S rs = gaussLogLik 0 (secondMoment rs) rs → S = secondMoment rs) := by
    intro S hS
    have := mle 0 hS rs hne (by rwa [sub_zero_map])
    rwa [sub_zero_map] at this
  have hstrict : ∀ S : Mat n, S.PosDef → S ≠ secondMoment rs →
      gaussLogLik 0 S rs < gaussLogLik 0 (secondMoment rs) rs := fun S hS hn =>
    lt_of_le_of_ne (hml S hS).1 fun h => hn ((hml S hS).2 h)
  refine ⟨P, hP, hPD, hstrict, fun hne0 => hstrict P hPD ?_, fun h => by rw [e, h, smul_zero, add_zero], ?_⟩
  · intro he
    rw [e] at he
    have : (1 / (rs.length : ℝ)) • sampleCov rs = 0 := by simpa using he
    rcases smul_eq_zero.1 this with h | h
    · have : (0 : ℝ) < 1 / rs.length := by positivity
      linarith
    · exact hne0 h
  · intro S hS
    have hg := gap_eq 0 (S := P) rs hne (by rwa [sub_zero_map])
    rw [sub_zero_map] at hg
    have huP := isUnit_iff_ne_zero.mpr hPD.det_pos.ne'
    have huM := isUnit_iff_ne_zero.mpr hM.det_pos.ne'
    have t1 : (P⁻¹ * secondMoment rs).trace ≤ n := by
      have := trace_mul_nonneg hPD.inv hd
      rw [Matrix.mul_sub, Matrix.nonsing_inv_mul _ huP, Matrix.trace_sub, Matrix.trace_one, Fintype.card_fin] at this
      linarith
    have t2 := logdet_gap hM hPD
    have t3 : ((secondMoment rs)⁻¹ * P).trace ≤ n + n / ((rs.length : ℝ) - 1) := by
      have hm := trace_mul_nonneg hM.inv (outerR_posSemidef (rowMean rs))
      rw [e, cov_expand rs h2, Matrix.mul_add, Matrix.trace_add, smul_smul, Matrix.mul_smul, Matrix.mul_sub,
        Matrix.nonsing_inv_mul _ huM, Matrix.trace_smul, Matrix.trace_sub, Matrix.trace_one, Fintype.card_fin, smul_eq_mul]
      have : (1 / (rs.length : ℝ)) * (rs.length / (rs.length - 1)) = 1 / ((rs.length : ℝ) - 1) := by
        field_simp
      rw [this, div_eq_mul_one_div (n : ℝ)]
      have hp : (0 : ℝ) < 1 / ((rs.length : ℝ) - 1) := by positivity
      nlinarith
    have h4 := (hml S hS).1
    have h5 : rs.length / 2 * ((P⁻¹ * secondMoment rs).trace - n -
        (Real.log (secondMoment rs).det - Real.log P.det)) ≤ rs.length / 2 * (n / ((rs.length : ℝ) - 1)) := by
      apply mul_le_mul_of_nonneg_left _ (by positivity)
      linarith
    have h6 : (n * rs.length / (2 * ((rs.length : ℝ) - 1)) : ℝ) = rs.length / 2 * (n / ((rs.length : ℝ) - 1)) := by
      field_simp
    rw [h6]
    linarith

/-! ### C142: the variant with means -/

private theorem second_dev (rs : List (Vec n)) (h : rs ≠ []) (mu : Vec n) :
    secondMoment (rs.map fun r => r - mu) =
      secondMoment (rs.map fun r => r - rowMean rs) + outerR (rowMean rs - mu) := by
  have hN : (rs.length : ℝ) ≠ 0 := by exact_mod_cast fun h0 => h (List.length_eq_zero_iff.1 h0)
  ext i j
  simp only [secondMoment, Matrix.of_apply, Matrix.add_apply, outerR, List.map_map, List.length_map, Pi.sub_apply]
  have e : ∀ m : Vec n, (rs.map ((fun r : Vec n => r i * r j) ∘ fun r => r - m)).sum =
      (rs.map fun r => (r i - m i) * (r j - m j)).sum := fun m => rfl
  rw [e, e, dev_sum, dev_sum]
  have hi : (rs.map fun r => r i).sum = rs.length * rowMean rs i := by rw [rowMean]; field_simp
  have hj : (rs.map fun r => r j).sum = rs.length * rowMean rs j := by rw [rowMean]; field_simp
  rw [hi, hj]
  field_simp
  ring

private theorem second_mean (rs : List (Vec n)) (h : 2 ≤ rs.length) :
    secondMoment (rs.map fun r => r - rowMean rs) = (((rs.length : ℝ) - 1) / rs.length) • sampleCov rs := by
  have hNr : (2 : ℝ) ≤ rs.length := by exact_mod_cast h
  have h0 : (rs.length : ℝ) - 1 ≠ 0 := by linarith
  ext i j
  simp only [secondMoment, Matrix.of_apply, Matrix.smul_apply, sampleCov, List.map_map, List.length_map, smul_eq_mul]
  have e : (rs.map ((fun r : Vec n => r i * r j) ∘ fun r => r - rowMean rs)).sum =
      (rs.map fun r => (r i - rowMean rs i) * (r j - rowMean rs j)).sum := rfl
  rw [e]
  field_simp

open Classical in
/-- C142. The variant with means predicts, for a date whose quarter has at least two rows, the mean and the unbiased
sample covariance `C` of the rows of the quarter. If `C` is positive definite, the mean with `(N - 1) / N C` has a larger
Gaussian log-likelihood of the quarter's returns than ALL other means and positive definite covariances; the prediction
is short of it by `n N / 2 (log (N / (N - 1)) - 1 / N)`, whatever the returns. -/
theorem C142_prescient_means [DecidableEq τ] (c : Calendar τ) (hc : ∀ t, 1 ≤ c.month t ∧ c.month t ≤ 12)
    (returns : List (τ × Vec n)) (t : τ) (ht : t ∈ returns.map Prod.fst) (rs : List (Vec n))
    (hrs : rs = (returns.filter fun p => SameQuarter (c.year p.1, c.month p.1) (c.year t, c.month t)).map Prod.snd)
    (h2 : 2 ≤ rs.length) :
    (prescientMeans c returns).1.lookup t = some (some (sampleCov rs)) ∧
    (prescientMeans c returns).2.lookup t = some (rowMean rs) ∧
    ((sampleCov rs).PosDef →
      (∀ mu : Vec n, ∀ S : Mat n, S.PosDef →
        (mu ≠ rowMean rs ∨ S ≠ (((rs.length : ℝ) - 1) / rs.length) • sampleCov rs) →
        gaussLogLik mu S rs < gaussLogLik (rowMean rs) ((((rs.length : ℝ) - 1) / rs.length) • sampleCov rs) rs) ∧
      gaussLogLik (rowMean rs) ((((rs.length : ℝ) - 1) / rs.length) • sampleCov rs) rs -
        gaussLogLik (rowMean rs) (sampleCov rs) rs =
          n * rs.length / 2 * (Real.log (rs.length / ((rs.length : ℝ) - 1)) - 1 / rs.length)) := by
  have hNr : (2 : ℝ) ≤ rs.length := by exact_mod_cast h2
  have h0 : (0 : ℝ) < rs.length - 1 := by linarith
  have hne : rs ≠ [] := by rintro rfl; simp at h2
  have hq := quarterRows_eq c hc returns t
  rw [← hrs] at hq
  have e := second_mean rs h2
  refine ⟨?_, ?_, fun hC => ?_⟩
  · have := (dict_of_rows returns fun t => npCov (quarterRows c returns t)).1 t ht
    rw [hq, npCov_eq rs (by omega)] at this
    exact this
  · have := (dict_of_rows returns fun t => npMean0 (quarterRows c returns t)).1 t ht
    rw [hq, npMean0_eq] at this
    exact this
  · have hM : (secondMoment (rs.map fun r => r - rowMean rs)).PosDef := by
      rw [e]; exact hC.smul (by positivity)
    constructor
    · intro mu S hS hdiff
      rw [← e] at hdiff ⊢
      have h1 := mle (rowMean rs) hS rs hne hM
      have h3 : gaussLogLik mu S rs = gaussLogLik (rowMean rs) S rs -
          rs.length / 2 * ((rowMean rs - mu) ⬝ᵥ (S⁻¹ *ᵥ (rowMean rs - mu))) := by
        rw [logLik_eq mu S rs hne, logLik_eq _ S rs hne, second_dev rs hne mu, Matrix.mul_add, Matrix.trace_add]
        have : outerR (rowMean rs - mu) = Matrix.vecMulVec (rowMean rs - mu) (rowMean rs - mu) := by ext i j; rfl
        rw [this, Matrix.mul_vecMulVec, Matrix.trace_vecMulVec, dotProduct_comm]
        ring
      by_cases hmu : mu = rowMean rs
      · subst hmu
        rcases hdiff with h | h
        · exact absurd rfl h
        · exact lt_of_le_of_ne h1.1 fun hh => h (h1.2 hh)
      · have hq : 0 < (rowMean rs - mu) ⬝ᵥ (S⁻¹ *ᵥ (rowMean rs - mu)) := by
          have := hS.inv.dotProduct_mulVec_pos (x := rowMean rs - mu) (sub_ne_zero.2 (Ne.symm hmu))
          rwa [star_trivial] at this
        have : (0 : ℝ) < rs.length / 2 := by positivity
        have := mul_pos this hq
        rw [h3]
        linarith [h1.1]
    · have hg := gap_eq (rowMean rs) (S := sampleCov rs) rs hne hM
      rw [e] at hg
      rw [hg, Matrix.mul_smul, Matrix.nonsing_inv_mul _ (isUnit_iff_ne_zero.mpr hC.det_pos.ne'), Matrix.trace_smul,
        Matrix.trace_one, Fintype.card_fin, Matrix.det_smul, Fintype.card_fin, smul_eq_mul,
        Real.log_mul (by positivity) hC.det_pos.ne', Real.log_pow,
        show (rs.length : ℝ) / (rs.length - 1) = (((rs.length : ℝ) - 1) / rs.length)⁻¹ by rw [inv_div], Real.log_inv]
      field_simp
      ring

/-! ### An example -/

namespace PrescientEx

/-- the first field is the month of the year 2020, the second the day -/
def cal : Calendar (ℕ × ℕ) := ⟨fun _ => 2020, fun t => (t.1 % 12 : ℕ) + 1⟩

theorem cal_month : ∀ t, 1 ≤ cal.month t ∧ cal.month t ≤ 12 := by
  intro t
  show (1 : ℤ) ≤ (t.1 % 12 : ℕ) + 1 ∧ ((t.1 % 12 : ℕ) : ℤ) + 1 ≤ 12
  omega

/-- two rows in February and March, one in April -/
def rows : List ((ℕ × ℕ) × Vec 1) := [((1, 28), fun _ => 1), ((2, 2), fun _ => 3), ((3, 1), fun _ => 5)]

open Classical in
theorem quarter_rows : (rows.filter fun p => SameQuarter (cal.year p.1, cal.month p.1)
    (cal.year (1, 28), cal.month (1, 28))).map Prod.snd = [(fun _ => 1 : Vec 1), fun _ => 3] := by
  rw [← quarterRows_eq cal cal_month]
  simp [quarterRows, rows, cal, Calendar.quarter, Calendar.indexQuarter]

/-- the quarter of the example has two rows, second moment 5, sample covariance 2 and the prescient value 6 -/
theorem moments : secondMoment [(fun _ => 1 : Vec 1), fun _ => 3] = !![5] ∧
    sampleCov [(fun _ => 1 : Vec 1), fun _ => 3] = !![2] := by
  constructor
  · ext i j; fin_cases i; fin_cases j; simp [secondMoment]; norm_num
  · ext i j; fin_cases i; fin_cases j; simp [sampleCov, rowMean]; norm_num

private theorem pd {a : ℝ} (h : 0 < a) : (!![a] : Mat 1).PosDef := by
  have : (!![a] : Mat 1) = a • 1 := by ext i j; fin_cases i; fin_cases j; simp
  rw [this]
  exact Matrix.PosDef.one.smul h

open Classical in
example : ∃ P : Mat 1, (prescient cal rows).lookup (1, 28) = some (some P) ∧ P 0 0 = 6 ∧
    gaussLogLik 0 P [(fun _ => 1 : Vec 1), fun _ => 3] < gaussLogLik 0 !![5] [(fun _ => 1 : Vec 1), fun _ => 3] := by
  obtain ⟨P, hP, _, _, h, _, _⟩ := C141_prescient_likelihood cal cal_month rows (1, 28) (by simp [rows]) _
    quarter_rows.symm (by simp) (by rw [moments.1]; exact pd (by norm_num))
  obtain ⟨P', hP', e, _⟩ := ((C140_prescient cal cal_month rows).2.2.1 (1, 28) (by simp [rows]) _
    quarter_rows.symm).1 (by simp)
  rw [hP, Option.some_inj, Option.some_inj] at hP'
  subst hP'
  rw [moments.1] at h
  refine ⟨P, hP, ?_, h ?_⟩
  · rw [e, moments.1, moments.2]
    simp; norm_num
  · rw [moments.2]
    intro h
    have := congrFun (congrFun h 0) 0
    simp at this

open Classical in
example : (prescientMeans cal rows).1.lookup (1, 28) = some (some !![2]) ∧ (!![2] : Mat 1).PosDef := by
  have := (C142_prescient_means cal cal_month rows (1, 28) (by simp [rows]) _ quarter_rows.symm (by simp)).1
  rw [moments.2] at this
  exact ⟨this, pd (by norm_num)⟩

end PrescientEx

end CovPred
