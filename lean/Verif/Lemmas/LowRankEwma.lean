import Verif.Model.LowRankEwma
import Verif.Lemmas.Eigen
import Verif.Lemmas.IewmaMain
import Verif.Lemmas.VarSeq
import Verif.Lemmas.Inv

/-
The low-rank recursion of `low_rank_ewma.py`.
-/
set_option linter.unusedSectionVars false

namespace CovPred
open Matrix

variable {τ : Type} [DecidableEq τ] {n r : ℕ}

/-- `F Fᵀ + row rowᵀ` -/
noncomputable def sumCov (F : Matrix (Fin n) (Fin r) ℝ) (row : Vec n) : Mat n :=
  F * Fᵀ + Matrix.of fun i j => row i * row j

theorem outer_posSemidef (row : Vec n) : (Matrix.of fun i j => row i * row j : Mat n).PosSemidef := by
  have : (Matrix.of fun i j => row i * row j : Mat n) = Matrix.vecMulVec row (star row) := by
    ext i j; simp [Matrix.vecMulVec_apply]
  rw [this]
  exact Matrix.posSemidef_vecMulVec_self_star row

theorem mul_transpose_posSemidef (F : Matrix (Fin n) (Fin r) ℝ) : (F * Fᵀ).PosSemidef := by
  have := Matrix.posSemidef_self_mul_conjTranspose F
  rwa [Matrix.conjTranspose_eq_transpose_of_trivial] at this

theorem sumCov_posSemidef (F : Matrix (Fin n) (Fin r) ℝ) (row : Vec n) : (sumCov F row).PosSemidef :=
  (mul_transpose_posSemidef F).add (outer_posSemidef row)

theorem sumCov_diag (F : Matrix (Fin n) (Fin r) ℝ) (row : Vec n) (i : Fin n) :
    sumCov F row i i = (∑ j, F i j ^ 2) + row i ^ 2 := by
  simp [sumCov, Matrix.mul_apply, pow_two]

theorem mul_transpose_diag (F : Matrix (Fin n) (Fin r) ℝ) (i : Fin n) : (F * Fᵀ) i i = ∑ j, F i j ^ 2 := by
  simp [Matrix.mul_apply, pow_two]

/-- One update: with `S = F Fᵀ + row rowᵀ`, the new low-rank part lies below `S`, what it loses on the diagonal is moved
to `d`, it is the best approximation of rank `r` in units of volatility, and it is exact if `S` has rank at most `r`. -/
theorem lowRankSum_spec {eigsh : Eigsh} (he : eigsh.Correct) (h1 : 1 ≤ r) (hr : r < n) (F : Matrix (Fin n) (Fin r) ℝ)
    (d : Vec n) (hd : ∀ i, 0 ≤ d i) (row : Vec n) (hpos : ∀ i, sumCov F row i i ≠ 0) :
    ∃ x, lowRankSum eigsh F d row = .ok x ∧
      (∀ i, x.d i = d i + (sumCov F row - x.F * x.Fᵀ) i i) ∧
      (sumCov F row - x.F * x.Fᵀ).PosSemidef ∧
      ((sumCov F row).rank ≤ r → x.F * x.Fᵀ = sumCov F row) ∧
      ∀ B : Mat n, B.rank ≤ r →
        frob (Matrix.of fun i j => (sumCov F row - x.F * x.Fᵀ) i j /
            (Real.sqrt (sumCov F row i i) * Real.sqrt (sumCov F row j j))) ≤
          frob (Matrix.of fun i j => (sumCov F row - B) i j /
            (Real.sqrt (sumCov F row i i) * Real.sqrt (sumCov F row j j))) := by
  have hps := sumCov_posSemidef F row
  have hp : ∀ i, 0 < sumCov F row i i := fun i => lt_of_le_of_ne hps.diag_nonneg (Ne.symm (hpos i))
  have hno : ¬ ∃ i, (∑ j, F i j ^ 2) + row i ^ 2 = 0 := by
    rintro ⟨i, hi⟩; rw [← sumCov_diag] at hi; exact hpos i hi
  unfold lowRankSum
  rw [if_neg (by omega), if_neg hno]
  simp only [← sumCov_diag]
  have hA : ((Matrix.of fun i j => 1 / Real.sqrt (sumCov F row i i) * F i j : Matrix (Fin n) (Fin r) ℝ) *
      (Matrix.of fun i j => 1 / Real.sqrt (sumCov F row i i) * F i j : Matrix (Fin n) (Fin r) ℝ)ᵀ +
      Matrix.of fun i j => (1 / Real.sqrt (sumCov F row i i) * row i) * (row j * (1 / Real.sqrt (sumCov F row j j)))) =
      corrOf (sumCov F row) := by
    ext i j
    simp only [corrOf, Matrix.add_apply, Matrix.of_apply, Matrix.mul_apply, Matrix.transpose_apply]
    have : sumCov F row i j = (∑ l, F i l * F j l) + row i * row j := by
      simp [sumCov, Matrix.mul_apply]
    rw [this, add_div, Finset.sum_div]
    congr 1
    · refine Finset.sum_congr rfl fun l _ => ?_
      rw [div_mul_eq_div_mul_one_div]; ring
    · rw [div_mul_eq_div_mul_one_div]; ring
  simp only [hA]
  have ht := he n (corrOf (sumCov F row)) r (corrOf_posSemidef hps) h1 hr
  generalize (eigsh n (corrOf (sumCov F row)) r).1 = lam at ht ⊢
  generalize (eigsh n (corrOf (sumCov F row)) r).2 = Q at ht ⊢
  have hlam := ht.lam_nonneg (corrOf_posSemidef hps)
  have hcl : (fun j => if lam j < 0 then 0 else lam j) = lam := by
    funext j; rw [if_neg (not_lt.mpr (hlam j))]
  have hcl' : ∀ j, (if lam j < 0 then 0 else lam j) = lam j := fun j => congrFun hcl j
  simp only [hcl', Matrix.of_apply]
  set S := sumCov F row with hS
  have hres := ht.resid_posSemidef (corrOf_posSemidef hps)
  set G : Mat n := Q * diagonal lam * Qᵀ with hG
  have hs : ∀ i, 0 < Real.sqrt (S i i) := fun i => Real.sqrt_pos.mpr (hp i)
  have hss : ∀ i, Real.sqrt (S i i) * Real.sqrt (S i i) = S i i := fun i => Real.mul_self_sqrt (hp i).le
  have hFF : (Matrix.of fun i j => 1 / (1 / Real.sqrt (S i i)) * (Q i j * Real.sqrt (lam j)) : Matrix (Fin n) (Fin r) ℝ) *
      (Matrix.of fun i j => 1 / (1 / Real.sqrt (S i i)) * (Q i j * Real.sqrt (lam j)) : Matrix (Fin n) (Fin r) ℝ)ᵀ =
      Matrix.of fun i j => Real.sqrt (S i i) * G i j * Real.sqrt (S j j) := by
    ext i j
    simp only [Matrix.of_apply, Matrix.mul_apply, Matrix.transpose_apply, one_div_one_div]
    rw [hG, diag_conj_apply, Finset.mul_sum, Finset.sum_mul]
    refine Finset.sum_congr rfl fun l _ => ?_
    have := Real.mul_self_sqrt (hlam l)
    linear_combination (Real.sqrt (S i i) * Q i l * Real.sqrt (S j j) * Q j l) * this
  have hFt : ∀ i, ∑ j, (Q i j * Real.sqrt (lam j)) ^ 2 = G i i := by
    intro i
    rw [hG, diag_conj_apply]
    refine Finset.sum_congr rfl fun l _ => ?_
    have := Real.mul_self_sqrt (hlam l)
    linear_combination (Q i l ^ 2) * this
  have hdiff : S - (Matrix.of fun i j => Real.sqrt (S i i) * G i j * Real.sqrt (S j j) : Mat n) =
      Matrix.of fun i j => Real.sqrt (S i i) * (corrOf S - G) i j * Real.sqrt (S j j) := by
    ext i j
    simp only [Matrix.sub_apply, Matrix.of_apply]
    rw [mul_sub, sub_mul, corrOf_scale hp]
  refine ⟨_, rfl, ?_, ?_, ?_, ?_⟩
  · intro i
    simp only [Matrix.of_apply]
    rw [hFF, hdiff, hFt]
    simp only [Matrix.of_apply, Matrix.sub_apply, corrOf_diag (hp i)]
    have hG1 : G i i ≤ 1 := by
      have := hres.diag_nonneg (i := i)
      rw [Matrix.sub_apply, corrOf_diag (hp i)] at this
      linarith
    have e : 1 / (1 / Real.sqrt (S i i)) * (1 + d i * (1 / Real.sqrt (S i i)) ^ 2 - G i i) * 1 / (1 / Real.sqrt (S i i)) =
        d i + Real.sqrt (S i i) * (1 - G i i) * Real.sqrt (S i i) := by
      have := (hs i).ne'
      field_simp
      ring
    rw [e, if_neg]
    rw [not_lt]
    have := mul_nonneg (mul_nonneg (hs i).le (sub_nonneg.mpr hG1)) (hs i).le
    linarith [hd i]
  · simp only []
    rw [hFF, hdiff]
    exact scale_posSemidef _ hres
  · intro hrank
    simp only []
    rw [hFF]
    have h0 := ht.resid_rank (corrOf_posSemidef hps) (by rw [corrOf_rank hp]; exact hrank)
    have hGS : G = corrOf S := (sub_eq_zero.mp h0).symm
    ext i j
    rw [Matrix.of_apply, hGS, corrOf_scale hp]
  · intro B hB
    simp only []
    rw [hFF, hdiff]
    have hleft : (Matrix.of fun i j => (Matrix.of fun i j => Real.sqrt (S i i) * (corrOf S - G) i j * Real.sqrt (S j j) : Mat n) i j /
        (Real.sqrt (S i i) * Real.sqrt (S j j)) : Mat n) = corrOf S - G := by
      ext i j
      simp only [Matrix.of_apply]
      have := (hs i).ne'
      have := (hs j).ne'
      field_simp
    rw [hleft]
    set B' : Mat n := diagonal (fun i => (Real.sqrt (S i i))⁻¹) * B * diagonal (fun i => (Real.sqrt (S i i))⁻¹) with hB'
    have hright : (Matrix.of fun i j => (S - B) i j / (Real.sqrt (S i i) * Real.sqrt (S j j)) : Mat n) = corrOf S - B' := by
      ext i j
      rw [hB', Matrix.sub_apply, Matrix.mul_diagonal, Matrix.diagonal_mul]
      simp only [corrOf, Matrix.of_apply, Matrix.sub_apply]
      rw [sub_div, div_eq_mul_inv (B i j), mul_inv]; ring
    rw [hright]
    apply ht.best (corrOf_posSemidef hps)
    rw [hB']
    exact (Matrix.rank_mul_le_left _ _).trans ((Matrix.rank_mul_le_right _ _).trans hB)

/-! ### the recursion -/

/-- the half-life weighted second moment of the rows, in terms of the decay factor -/
noncomputable def emaMat (b : ℝ) (y : ℕ → Vec n) (k : ℕ) : Mat n :=
  Matrix.of fun i j => emaAvg b (fun m => y m i * y m j) k

noncomputable def coefOld (b : ℝ) (k : ℕ) : ℝ := (b - b ^ (k + 1)) / (1 - b ^ (k + 1))
noncomputable def coefNew (b : ℝ) (k : ℕ) : ℝ := (1 - b) / (1 - b ^ (k + 1))

theorem coefOld_pos {b : ℝ} (h0 : 0 < b) (h1 : b < 1) (k : ℕ) : 0 < coefOld b (k + 1) := by
  refine div_pos ?_ (one_sub_pow_pos h0 h1 _)
  have : b ^ (k + 1 + 1) < b := by
    have := mul_lt_of_lt_one_right h0 (pow_lt_one₀ h0.le h1 (show k + 1 ≠ 0 by omega))
    rwa [pow_succ', ]
  linarith

theorem coefNew_pos {b : ℝ} (h0 : 0 < b) (h1 : b < 1) (k : ℕ) : 0 < coefNew b k :=
  div_pos (by linarith) (one_sub_pow_pos h0 h1 _)

theorem emaAvg_step {b : ℝ} (h0 : 0 < b) (h1 : b < 1) (x : ℕ → ℝ) (k : ℕ) :
    emaAvg b x (k + 1) = coefOld b (k + 1) * emaAvg b x k + coefNew b (k + 1) * x (k + 1) := by
  rw [← emaAvg_succ h0 h1]
  have := (one_sub_pow_pos h0 h1 (k + 1)).ne'
  unfold coefOld coefNew
  field_simp
  ring

theorem emaMat_step {b : ℝ} (h0 : 0 < b) (h1 : b < 1) (y : ℕ → Vec n) (k : ℕ) :
    emaMat b y (k + 1) = coefOld b (k + 1) • emaMat b y k +
      coefNew b (k + 1) • (Matrix.of fun i j => y (k + 1) i * y (k + 1) j : Mat n) := by
  ext i j
  simp only [emaMat, Matrix.of_apply, Matrix.add_apply, Matrix.smul_apply, smul_eq_mul]
  exact emaAvg_step h0 h1 _ k

theorem emaMat_mulVec (b : ℝ) (y : ℕ → Vec n) (k : ℕ) (v : Vec n) :
    emaMat b y k *ᵥ v = ∑ m ∈ Finset.range (k + 1),
      (b ^ (k - m) * (∑ j, y m j * v j) / ∑ l ∈ Finset.range (k + 1), b ^ (k - l)) • y m := by
  funext i
  simp only [Matrix.mulVec, dotProduct, emaMat, Matrix.of_apply, emaAvg, Finset.sum_apply, Pi.smul_apply, smul_eq_mul]
  simp only [Finset.sum_div, Finset.sum_mul, Finset.mul_sum]
  rw [Finset.sum_comm]
  refine Finset.sum_congr rfl fun m _ => Finset.sum_congr rfl fun j _ => ?_
  ring

theorem emaMat_rank (b : ℝ) (y : ℕ → Vec n) (k : ℕ) {W : Submodule ℝ (Vec n)} (hW : ∀ m ≤ k, y m ∈ W) :
    (emaMat b y k).rank ≤ Module.finrank ℝ W := by
  unfold Matrix.rank
  apply Submodule.finrank_mono
  rintro _ ⟨v, rfl⟩
  rw [Matrix.mulVecLin_apply, emaMat_mulVec]
  refine Submodule.sum_mem _ fun m hm => Submodule.smul_mem _ _ (hW m ?_)
  have := Finset.mem_range.mp hm
  omega

theorem emaMat_posSemidef {b : ℝ} (h0 : 0 < b) (h1 : b < 1) (y : ℕ → Vec n) (k : ℕ) : (emaMat b y k).PosSemidef := by
  induction k with
  | zero =>
    have : emaMat b y 0 = Matrix.of fun i j => y 0 i * y 0 j := by
      ext i j; simp [emaMat, emaAvg]
    rw [this]; exact outer_posSemidef _
  | succ k ih =>
    rw [emaMat_step h0 h1]
    exact (ih.smul (coefOld_pos h0 h1 k).le).add ((outer_posSemidef _).smul (coefNew_pos h0 h1 _).le)

/-- the states of the recursion -/
noncomputable def lrInit (r : ℕ) (v : Vec n) : LowRankDiag n r :=
  { F := Matrix.of fun i j => if j.val = 0 then v i else 0, d := fun _ => 0 }

noncomputable def lrSeq (eigsh : Eigsh) (r : ℕ) (b : ℝ) (y : ℕ → Vec n) : ℕ → Except Err (LowRankDiag n r)
  | 0 => .ok (lrInit r (y 0))
  | k + 1 =>
    match lrSeq eigsh r b y k with
    | .error e => .error e
    | .ok x => lowRankStep eigsh b (k + 1) x (y (k + 1))

/-- What holds after row `k`. -/
structure LRInv (b : ℝ) (y : ℕ → Vec n) (k : ℕ) (x : LowRankDiag n r) : Prop where
  d_nonneg : ∀ i, 0 ≤ x.d i
  diag : ∀ i, (x.F * x.Fᵀ) i i + x.d i = emaMat b y k i i
  le : (emaMat b y k - x.F * x.Fᵀ).PosSemidef
  exact : ∀ W : Submodule ℝ (Vec n), Module.finrank ℝ W ≤ r → (∀ m ≤ k, y m ∈ W) → x.F * x.Fᵀ = emaMat b y k

theorem LRInv.d_zero {b : ℝ} {y : ℕ → Vec n} {k : ℕ} {x : LowRankDiag n r} (h : LRInv b y k x)
    (he : x.F * x.Fᵀ = emaMat b y k) (i : Fin n) : x.d i = 0 := by
  have := h.diag i
  rw [he] at this
  linarith

theorem lrInit_mul (h1 : 1 ≤ r) (v : Vec n) :
    (lrInit r v).F * (lrInit r v).Fᵀ = Matrix.of fun i j => v i * v j := by
  ext i j
  simp only [lrInit, Matrix.mul_apply, Matrix.transpose_apply, Matrix.of_apply]
  rw [Finset.sum_eq_single (⟨0, h1⟩ : Fin r)]
  · simp
  · intro l _ hl
    rw [if_neg]
    · simp
    · intro h; exact hl (Fin.ext h)
  · simp

theorem lrInv_init (h1 : 1 ≤ r) (b : ℝ) (y : ℕ → Vec n) : LRInv b y 0 (lrInit r (y 0)) := by
  have h0 : emaMat b y 0 = Matrix.of fun i j => y 0 i * y 0 j := by
    ext i j; simp [emaMat, emaAvg]
  refine ⟨fun i => le_refl _, fun i => ?_, ?_, fun W _ _ => ?_⟩
  · rw [lrInit_mul h1, h0]; simp [lrInit]
  · rw [lrInit_mul h1, h0, sub_self]; exact Matrix.PosSemidef.zero
  · rw [lrInit_mul h1, h0]

theorem lowRankSum_error_iff {eigsh : Eigsh} {F : Matrix (Fin n) (Fin r) ℝ} {d row : Vec n} (hr : r < n) {e : Err}
    (h : lowRankSum eigsh F d row = .error e) : e = .other ∧ ∃ i, sumCov F row i i = 0 := by
  unfold lowRankSum at h
  rw [if_neg (by omega)] at h
  by_cases hz : ∃ i, (∑ j, F i j ^ 2) + row i ^ 2 = 0
  · rw [if_pos hz] at h
    obtain ⟨i, hi⟩ := hz
    refine ⟨by cases h; rfl, i, ?_⟩
    rw [sumCov_diag]; exact hi
  · rw [if_neg hz] at h
    cases h

theorem scaled_sumCov {b : ℝ} (h0 : 0 < b) (h1 : b < 1) (k : ℕ) (x : LowRankDiag n r) (row : Vec n) :
    sumCov (Matrix.of fun i j => x.F i j * Real.sqrt (coefOld b (k + 1))) (fun i => row i * Real.sqrt (coefNew b (k + 1))) =
      coefOld b (k + 1) • (x.F * x.Fᵀ) + coefNew b (k + 1) • (Matrix.of fun i j => row i * row j : Mat n) := by
  have ho := Real.mul_self_sqrt (coefOld_pos h0 h1 k).le
  have hn := Real.mul_self_sqrt (coefNew_pos h0 h1 (k + 1)).le
  ext i j
  simp only [sumCov, Matrix.add_apply, Matrix.smul_apply, smul_eq_mul, Matrix.mul_apply, Matrix.transpose_apply,
    Matrix.of_apply]
  rw [Finset.mul_sum]
  congr 1
  · refine Finset.sum_congr rfl fun l _ => ?_
    linear_combination (x.F i l * x.F j l) * ho
  · linear_combination (row i * row j) * hn

/-- One pass of the loop. -/
theorem lowRankStep_spec {eigsh : Eigsh} (he : eigsh.Correct) (h1 : 1 ≤ r) (hr : r < n) {b : ℝ} (h0 : 0 < b) (hb : b < 1)
    {y : ℕ → Vec n} {k : ℕ} {x : LowRankDiag n r} (hx : LRInv b y k x) :
    (∃ z, lowRankStep eigsh b (k + 1) x (y (k + 1)) = .ok z ∧ LRInv b y (k + 1) z) ∨
      (lowRankStep eigsh b (k + 1) x (y (k + 1)) = .error .other ∧ ∃ i, (x.F * x.Fᵀ) i i = 0 ∧ y (k + 1) i = 0) := by
  have ho := coefOld_pos h0 hb k
  have hn := coefNew_pos h0 hb (k + 1)
  have hS := scaled_sumCov h0 hb k x (y (k + 1))
  have hstep : lowRankStep eigsh b (k + 1) x (y (k + 1)) =
      lowRankSum eigsh (Matrix.of fun i j => x.F i j * Real.sqrt (coefOld b (k + 1))) (fun i => x.d i * coefOld b (k + 1))
        (fun i => y (k + 1) i * Real.sqrt (coefNew b (k + 1))) := rfl
  by_cases hz : ∃ i, sumCov (Matrix.of fun i j => x.F i j * Real.sqrt (coefOld b (k + 1)))
      (fun i => y (k + 1) i * Real.sqrt (coefNew b (k + 1))) i i = 0
  · right
    obtain ⟨i, hi⟩ := hz
    constructor
    · rw [hstep]
      unfold lowRankSum
      rw [if_neg (by omega), if_pos]
      exact ⟨i, (sumCov_diag _ _ i).symm.trans hi⟩
    · refine ⟨i, ?_⟩
      rw [hS] at hi
      simp only [Matrix.add_apply, Matrix.smul_apply, smul_eq_mul, Matrix.of_apply] at hi
      have e1 : 0 ≤ coefOld b (k + 1) * (x.F * x.Fᵀ) i i :=
        mul_nonneg ho.le (mul_transpose_posSemidef x.F).diag_nonneg
      have e2 : 0 ≤ coefNew b (k + 1) * (y (k + 1) i * y (k + 1) i) := mul_nonneg hn.le (mul_self_nonneg _)
      constructor
      · have : coefOld b (k + 1) * (x.F * x.Fᵀ) i i = 0 := by linarith
        exact (mul_eq_zero.mp this).resolve_left ho.ne'
      · have : coefNew b (k + 1) * (y (k + 1) i * y (k + 1) i) = 0 := by linarith
        exact mul_self_eq_zero.mp ((mul_eq_zero.mp this).resolve_left hn.ne')
  · left
    push Not at hz
    obtain ⟨z, hz1, hz2, hz3, hz4, _⟩ := lowRankSum_spec he h1 hr _ (fun i => x.d i * coefOld b (k + 1))
      (fun i => mul_nonneg (hx.d_nonneg i) ho.le) _ hz
    refine ⟨z, by rw [hstep]; exact hz1, ?_, ?_, ?_, ?_⟩
    · intro i
      rw [hz2 i]
      exact add_nonneg (mul_nonneg (hx.d_nonneg i) ho.le) hz3.diag_nonneg
    · intro i
      rw [hz2 i, hS, emaMat_step h0 hb]
      have := hx.diag i
      simp only [Matrix.sub_apply, Matrix.add_apply, Matrix.smul_apply, smul_eq_mul, Matrix.of_apply]
      linear_combination coefOld b (k + 1) * this
    · have e : emaMat b y (k + 1) - z.F * z.Fᵀ =
          coefOld b (k + 1) • (emaMat b y k - x.F * x.Fᵀ) +
            (sumCov (Matrix.of fun i j => x.F i j * Real.sqrt (coefOld b (k + 1)))
              (fun i => y (k + 1) i * Real.sqrt (coefNew b (k + 1))) - z.F * z.Fᵀ) := by
        rw [hS, emaMat_step h0 hb, smul_sub]; abel
      rw [e]
      exact (hx.le.smul ho.le).add hz3
    · intro W hW hmem
      have hprev := hx.exact W hW fun m hm => hmem m (by omega)
      have hSe : sumCov (Matrix.of fun i j => x.F i j * Real.sqrt (coefOld b (k + 1)))
          (fun i => y (k + 1) i * Real.sqrt (coefNew b (k + 1))) = emaMat b y (k + 1) := by
        rw [hS, emaMat_step h0 hb, hprev]
      rw [← hSe]
      apply hz4
      rw [hSe]
      exact (emaMat_rank b y (k + 1) hmem).trans hW

theorem lrSeq_inv {eigsh : Eigsh} (he : eigsh.Correct) (h1 : 1 ≤ r) (hr : r < n) {b : ℝ} (h0 : 0 < b) (hb : b < 1)
    {y : ℕ → Vec n} {k : ℕ} {x : LowRankDiag n r} (h : lrSeq eigsh r b y k = .ok x) : LRInv b y k x := by
  induction k generalizing x with
  | zero => cases h; exact lrInv_init h1 b y
  | succ k ih =>
    unfold lrSeq at h
    cases hk : lrSeq eigsh r b y k with
    | error e => rw [hk] at h; cases h
    | ok x' =>
      rw [hk] at h
      simp only at h
      rcases lowRankStep_spec he h1 hr h0 hb (ih hk) with ⟨z, hz, hi⟩ | ⟨he', _⟩
      · rw [hz] at h; cases h; exact hi
      · rw [he'] at h; cases h

/-- the recursion is defined as long as no row after the first has a zero entry -/
theorem lrSeq_defined {eigsh : Eigsh} (he : eigsh.Correct) (h1 : 1 ≤ r) (hr : r < n) {b : ℝ} (h0 : 0 < b) (hb : b < 1)
    {y : ℕ → Vec n} {k : ℕ} (hy : ∀ m, 1 ≤ m → m ≤ k → ∀ i, y m i ≠ 0) : ∃ x, lrSeq eigsh r b y k = .ok x := by
  induction k with
  | zero => exact ⟨_, rfl⟩
  | succ k ih =>
    obtain ⟨x, hx⟩ := ih fun m h hm => hy m h (by omega)
    unfold lrSeq
    rw [hx]
    simp only
    rcases lowRankStep_spec he h1 hr h0 hb (lrSeq_inv he h1 hr h0 hb hx) with ⟨z, hz, _⟩ | ⟨_, i, _, hi⟩
    · exact ⟨z, hz⟩
    · exact absurd hi (hy (k + 1) (by omega) (le_refl _) i)

/-- the only failure of the recursion -/
theorem lrSeq_error {eigsh : Eigsh} (he : eigsh.Correct) (h1 : 1 ≤ r) (hr : r < n) {b : ℝ} (h0 : 0 < b) (hb : b < 1)
    {y : ℕ → Vec n} {k : ℕ} {e : Err} (h : lrSeq eigsh r b y k = .error e) : e = .other := by
  induction k with
  | zero => cases h
  | succ k ih =>
    unfold lrSeq at h
    cases hk : lrSeq eigsh r b y k with
    | error e' => rw [hk] at h; cases h; exact ih hk
    | ok x =>
      rw [hk] at h
      simp only at h
      rcases lowRankStep_spec he h1 hr h0 hb (lrSeq_inv he h1 hr h0 hb hk) with ⟨z, hz, _⟩ | ⟨h', _⟩
      · rw [hz] at h; cases h
      · rw [h'] at h; cases h; rfl

/-! ### the generators -/

theorem realRow_fin (v : Vec n) : realRow (finRow v) = some v := by
  unfold realRow
  rw [if_pos]
  · simp [finRow, XR.toReal]
  · intro i; exact ⟨v i, by simp [finRow]⟩

theorem lowRankLoop_eq (eigsh : Eigsh) (b : ℝ) (mp : Int) (tm : ℕ → τ) (y : ℕ → Vec n) (m k : ℕ) (x : LowRankDiag n r)
    (h : lrSeq eigsh r b y k = .ok x) :
    lowRankLoop eigsh b mp (k + 1) x ((List.range' (k + 1) m).map fun t => (tm t, finRow (y t))) =
      genMap (fun j => (lrSeq eigsh r b y j).map fun x => (tm j, maskLowRank mp j x)) (List.range' (k + 1) m) := by
  induction m generalizing k x with
  | zero => rfl
  | succ m ih =>
    rw [List.range'_succ, List.map_cons]
    unfold lowRankLoop
    simp only [realRow_fin]
    have hs : lrSeq eigsh r b y (k + 1) = lowRankStep eigsh b (k + 1) x (y (k + 1)) := by
      conv_lhs => unfold lrSeq
      rw [h]
    cases hst : lowRankStep eigsh b (k + 1) x (y (k + 1)) with
    | error e =>
      simp only [genMap, hs, hst, Except.map]
    | ok z =>
      simp only [genMap, hs, hst, Except.map]
      rw [ih (k + 1) z (by rw [hs, hst])]
      rfl

theorem lowRankBeta_some {h : ℝ} (hh : h ≠ 0) (al : Option ℝ) : lowRankBeta (some h) al = .ok (betaOf h) := by
  simp only [lowRankBeta]
  rw [if_neg hh]
  simp [betaOf]

theorem generalLowRank_eq (eigsh : Eigsh) (h1 : 1 ≤ r) {h : ℝ} (hh : h ≠ 0) (mp : Int) {T : ℕ} (hT : 0 < T) (tm : ℕ → τ)
    (y : ℕ → Vec n) :
    generalLowRank eigsh r (finFrame T tm y) (some h) none mp =
      genMap (fun j => (lrSeq eigsh r (betaOf h) y j).map fun x => (tm j, maskLowRank mp j x)) (List.range T) := by
  obtain ⟨m, rfl⟩ : ∃ m, T = m + 1 := ⟨T - 1, by omega⟩
  unfold generalLowRank finFrame finRows
  rw [lowRankBeta_some hh, List.range_eq_range', List.range'_succ, List.map_cons]
  simp only [realRow_fin]
  rw [if_neg (by omega)]
  have := lowRankLoop_eq eigsh (betaOf h) mp tm y m 0 (lrInit r (y 0)) rfl
  simp only [Nat.zero_add] at this ⊢
  change _ = genMap _ (0 :: List.range' 1 m)
  rw [genMap_cons_ok (fun j => (lrSeq eigsh r (betaOf h) y j).map fun x => (tm j, maskLowRank mp j x)) (a := 0)
    (b := (tm 0, maskLowRank mp 0 (lrInit r (y 0)))) rfl, ← this]
  rfl

theorem genMap_append_ok {A B : Type} (f : A → Except Err B) (l l' : List A) {bs : List B} (h : genMap f l = (bs, none)) :
    genMap f (l ++ l') = (bs ++ (genMap f l').1, (genMap f l').2) := by
  induction l generalizing bs with
  | nil => cases h; rfl
  | cons a l ih =>
    cases ha : f a with
    | error e => simp only [genMap, ha] at h; cases h
    | ok b =>
      simp only [genMap, ha] at h
      obtain ⟨h1, h2⟩ := Prod.mk.injEq _ _ _ _ ▸ h
      have hl : genMap f l = ((genMap f l).1, none) := by rw [← h2]
      rw [List.cons_append, genMap_cons_ok f ha, ih hl, ← h1]
      rfl

theorem genMap_append_err {A B : Type} (f : A → Except Err B) (l l' : List A) {bs : List B} {e : Err}
    (h : genMap f l = (bs, some e)) : genMap f (l ++ l') = (bs, some e) := by
  induction l generalizing bs with
  | nil => cases h
  | cons a l ih =>
    cases ha : f a with
    | error e' => simp only [genMap, ha] at h; simp only [List.cons_append, genMap, ha]; exact h
    | ok b =>
      simp only [genMap, ha] at h
      obtain ⟨h1, h2⟩ := Prod.mk.injEq _ _ _ _ ▸ h
      have hl : genMap f l = ((genMap f l).1, some e) := by rw [← h2]
      rw [List.cons_append, genMap_cons_ok f ha, ih hl, ← h1]

/-- a generator over `0, ..., T-1` yields everything before the first failure -/
theorem genMap_range {B : Type} (f : ℕ → Except Err B) (g : ℕ → B) (hg : ∀ k b, f k = .ok b → b = g k) (T : ℕ) :
    ∃ m ≤ T, ∃ e : Option Err, (∀ k < m, f k = .ok (g k)) ∧ genMap f (List.range T) = ((List.range m).map g, e) ∧
      (e = none → m = T) ∧ ∀ err, e = some err → m < T ∧ f m = .error err := by
  induction T with
  | zero => exact ⟨0, le_refl _, none, by simp, rfl, by simp, by simp⟩
  | succ T ih =>
    obtain ⟨m, hm, e, h1, h2, h3, h4⟩ := ih
    rw [List.range_succ]
    cases e with
    | some err =>
      refine ⟨m, by omega, some err, h1, genMap_append_err f _ _ h2, by simp, fun err' h => ?_⟩
      exact ⟨by have := (h4 err' h).1; omega, (h4 err' h).2⟩
    | none =>
      obtain rfl := h3 rfl
      cases hT : f m with
      | error err =>
        refine ⟨m, by omega, some err, h1, ?_, by simp, fun err' h => ⟨by omega, by cases h; exact hT⟩⟩
        rw [genMap_append_ok f _ _ h2]
        simp [genMap, hT]
      | ok b =>
        refine ⟨m + 1, le_refl _, none, fun k hk => ?_, ?_, by simp, by simp⟩
        · rcases Nat.lt_succ_iff_lt_or_eq.mp hk with h | rfl
          · exact h1 k h
          · rw [hT, hg _ b hT]
        · rw [genMap_append_ok f _ _ h2, List.range_succ, List.map_append]
          simp [genMap, hT, hg _ b hT]

end CovPred

namespace CovPred
open Matrix XR

variable {τ : Type} [DecidableEq τ] {n r : ℕ}

/-- the value of the recursion where it is defined -/
noncomputable def lrVal (eigsh : Eigsh) (r : ℕ) (b : ℝ) (y : ℕ → Vec n) (k : ℕ) : LowRankDiag n r :=
  match lrSeq eigsh r b y k with
  | .ok x => x
  | .error _ => lrInit r (y 0)

theorem filterMap_mask (mp : Int) (tm : ℕ → τ) (X : ℕ → LowRankDiag n r) (m : ℕ) :
    ((List.range m).map fun k => (tm k, maskLowRank mp k (X k))).filterMap
      (fun p => p.2.map fun x => (p.1, x)) = (rowsFrom mp m).map fun k => (tm k, X k) := by
  unfold rowsFrom
  induction m with
  | zero => rfl
  | succ m ih =>
    rw [List.range_succ, List.map_append, List.filterMap_append, ih, List.filter_append, List.map_append]
    congr 1
    by_cases h : (m : Int) < mp - 1
    · have h' : ¬ (mp - 1 ≤ (m : Int)) := not_le.mpr h
      simp only [List.map_cons, List.map_nil, List.filterMap_cons, List.filterMap_nil, maskLowRank, if_pos h,
        Option.map_none, List.filter_cons, List.filter_nil, h', decide_false, Bool.false_eq_true, if_false]
    · have h' : mp - 1 ≤ (m : Int) := not_lt.mp h
      simp only [List.map_cons, List.map_nil, List.filterMap_cons, List.filterMap_nil, maskLowRank, if_neg h,
        Option.map_some, List.filter_cons, List.filter_nil, h', decide_true, if_true]

/-- `_ewma_low_rank` on finite data: all rows before the first failure, without the warm-up. -/
theorem ewmaLowRank_fin (eigsh : Eigsh) (h1 : 1 ≤ r) {h : ℝ} (hh : h ≠ 0) (mp : Int) {T : ℕ} (hT : 0 < T) (tm : ℕ → τ)
    (y : ℕ → Vec n) :
    ∃ m ≤ T, ∃ e : Option Err, (∀ k < m, lrSeq eigsh r (betaOf h) y k = .ok (lrVal eigsh r (betaOf h) y k)) ∧
      ewmaLowRank eigsh r (finFrame T tm y) h mp =
        ((rowsFrom mp m).map fun k => (tm k, lrVal eigsh r (betaOf h) y k), e) ∧
      (e = none → m = T) ∧ ∀ err, e = some err → m < T ∧ lrSeq eigsh r (betaOf h) y m = .error err := by
  have hval : ∀ k x, lrSeq eigsh r (betaOf h) y k = .ok x → lrVal eigsh r (betaOf h) y k = x := by
    intro k x hx; unfold lrVal; rw [hx]
  obtain ⟨m, hm, e, g1, g2, g3, g4⟩ := genMap_range
    (fun j => (lrSeq eigsh r (betaOf h) y j).map fun x => (tm j, maskLowRank mp j x))
    (fun j => (tm j, maskLowRank mp j (lrVal eigsh r (betaOf h) y j)))
    (by
      intro k b hb
      cases hk : lrSeq eigsh r (betaOf h) y k with
      | error e => rw [hk] at hb; cases hb
      | ok x => rw [hk] at hb; simp only [Except.map] at hb; cases hb; rw [hval k x hk]) T
  refine ⟨m, hm, e, ?_, ?_, g3, ?_⟩
  · intro k hk
    have := g1 k hk
    cases hk' : lrSeq eigsh r (betaOf h) y k with
    | error e => rw [hk'] at this; cases this
    | ok x => rw [hval k x hk']
  · unfold ewmaLowRank
    rw [generalLowRank_eq eigsh h1 hh mp hT, g2]
    simp only [filterMap_mask]
  · intro err he
    obtain ⟨g5, g6⟩ := g4 err he
    refine ⟨g5, ?_⟩
    cases hk' : lrSeq eigsh r (betaOf h) y m with
    | error e' => rw [hk'] at g6; simp only [Except.map] at g6; cases g6; rfl
    | ok x => rw [hk'] at g6; cases g6

theorem not_hasNaN {ι : Type} [Ix ι] (f : Frame τ ι XR) (h : ∀ p ∈ f, ∀ i, Scalar.isNaN (p.2 i) = false) :
    f.hasNaN = false := by
  unfold Frame.hasNaN
  rw [List.any_eq_false]
  intro p hp
  simp only [Bool.not_eq_true, Bool.not_eq_false']
  rw [Arr.all_iff]
  intro i
  rw [h p hp i]; rfl

/-- the adjusted returns, when every volatility that is used is non-zero -/
theorem adj_fin_nonan {ι : Type} [Ix ι] (mv : Int) {clp : Option ℝ} (hc : ∀ c ∈ clp, c ≠ 0) {T : ℕ}
    {tm : ℕ → τ} (hd : DistinctTimes T tm) (x s : ℕ → ι → ℝ) (hz : clp = none → ∀ t i, s t i = 0 → x t i = 0)
    (hs : ∀ t ∈ liveRows mv T x s, ∀ i, s t i ≠ 0) :
    clip (Frame.alignWith (· / ·) (finFrame T tm x) (finRows (rowsFrom mv T) tm s)) (clp.map fin) =
      finRows (liveRows mv T x s) tm fun t i => adjReal clp (x t i) (s t i) := by
  rw [← adj_fin mv hc hd x s hz, fillna0_eq_self]
  apply not_hasNaN
  intro p hp i
  rw [clip_eq hc, adj_rows mv clp hd] at hp
  unfold Frame.dropnaAll at hp
  obtain ⟨hp, hnan⟩ := List.mem_filter.mp hp
  obtain ⟨t, ht, rfl⟩ := List.mem_map.mp hp
  have hmv : mv - 1 ≤ (t : Int) := by
    by_contra hcon
    rw [if_neg hcon] at hnan
    simp only [Bool.not_eq_true', Bool.eq_false_iff] at hnan
    apply hnan
    rw [Arr.all_iff]; intro j; simp
  rw [if_pos hmv] at hnan ⊢
  rw [Arr.get_ofFn, isNaN_optClip]
  have hlive : t ∈ liveRows mv T x s := by
    rw [liveRows_mem]
    refine ⟨List.mem_range.mp ht, hmv, ?_⟩
    by_contra hcon
    push Not at hcon
    simp only [Bool.not_eq_true', Bool.eq_false_iff] at hnan
    apply hnan
    rw [Arr.all_iff]
    intro j
    rw [Arr.get_ofFn, isNaN_optClip, isNaN_div_fin]
    exact hcon j
  rw [Bool.eq_false_iff]
  intro h
  exact hs t hlive i ((isNaN_div_fin _ _).mp h).1

/-- what the final loop works with, on finite data -/
theorem lowRankPrep_fin [Nonempty (Fin n)] {a : RealArgs} (ha : a.Valid) {T : ℕ} {tm : ℕ → τ} (hd : DistinctTimes T tm)
    (x : ℕ → Vec n) (hl : live a T x ≠ []) (hv : ∀ t ∈ live a T x, ∀ i, vol a x t i ≠ 0) :
    lowRankPrep (finFrame T tm x) a = .ok
      (finRows (rowsFrom a.minPeriodsVola T) tm (vol a x), finFrame T tm (muOf a.mean a.mu1h x),
        finFrame (live a T x).length (fun j => tm ((live a T x).getD j 0)) (muOf a.mean a.mu2h (adjAt a T x)),
        finFrame (live a T x).length (fun j => tm ((live a T x).getD j 0)) (zAt a T x)) := by
  have hm1 : 0 < a.mu1h := orElse_pos ha.vola ha.mu1
  have hm2 : 0 < a.mu2h := orElse_pos ha.cov ha.mu2
  have hT : 0 < T := by
    rcases Nat.eq_zero_or_pos T with h | h
    · subst h; exact absurd rfl hl
    · exact h
  unfold lowRankPrep
  simp only [RealArgs.toArgs, truthy_getD]
  rw [show orElse a.muHalflife1 a.volaHalflife = a.mu1h from rfl,
    show orElse a.muHalflife2 a.covHalflife = a.mu2h from rfl]
  rw [center_fin hm1 a.mean hT hd]
  simp only [bind, Except.bind]
  rw [volatility_truthy, truthy_clipAt]
  rw [volatility_fin ha.vola _ a.clip_ne hT]
  simp only []
  have hz := fun h => vol_zero_ret ha x h
  have hadj := adj_fin_nonan a.minPeriodsVola a.clip_ne hd (cRet a x) (vol a x) hz hv
  rw [show (fun t i => x t i - muOf a.mean a.mu1h x t i) = cRet a x from rfl]
  rw [show (fun t i => √(varSeq (betaOf a.volaHalflife) a.minPeriodsVola a.clip
      (fun k => (x k i - muOf a.mean a.mu1h x k i) ^ 2) t))
    = vol a x from by funext t i; unfold vol volSq; rw [decayOf_eq]; rfl]
  rw [clip_truthy, truthy_clipAt, hadj]
  rw [show liveRows a.minPeriodsVola T (cRet a x) (vol a x) = live a T x from rfl, finRows_reindex]
  have hlen : 0 < (live a T x).length := List.length_pos_of_ne_nil hl
  have hSlt : ∀ k ∈ live a T x, k < T := fun k hk => (liveRows_mem.mp hk).1
  have hd' := distinct_reindex hd hSlt (liveRows_nodup _ _ _ _)
  rw [center_fin hm2 a.mean hlen hd']
  simp only []
  rfl

/-- the result for the `j`-th informative row -/
noncomputable def lrItemAt (eigsh : Eigsh) (r : ℕ) (a : RealArgs) (T : ℕ) (tm : ℕ → τ) (x : ℕ → Vec n) (j : ℕ) :
    LowRankItem τ n r where
  time := tm ((live a T x).getD j 0)
  mean := finRow (meanAt a T x j)
  covariance := scaleLowRank (finRow (vol a x ((live a T x).getD j 0)))
    (lrVal eigsh r (betaOf a.covHalflife) (zAt a T x) j)
  volatility := finRow (vol a x ((live a T x).getD j 0))

theorem lowRankIteratedEwma_fin [Nonempty (Fin n)] (eigsh : Eigsh) (h1 : 1 ≤ r) {a : RealArgs} (ha : a.Valid) {T : ℕ}
    {tm : ℕ → τ} (hd : DistinctTimes T tm) (x : ℕ → Vec n) (hl : live a T x ≠ [])
    (hv : ∀ t ∈ live a T x, ∀ i, vol a x t i ≠ 0) :
    ∃ m ≤ (live a T x).length, ∃ e : Option Err,
      (∀ k < m, lrSeq eigsh r (betaOf a.covHalflife) (zAt a T x) k =
        .ok (lrVal eigsh r (betaOf a.covHalflife) (zAt a T x) k)) ∧
      lowRankIteratedEwma eigsh r (finFrame T tm x) a = ((rowsFrom a.minPeriodsCov m).map (lrItemAt eigsh r a T tm x), e) ∧
      (e = none → m = (live a T x).length) ∧
      ∀ err, e = some err → m < (live a T x).length ∧
        lrSeq eigsh r (betaOf a.covHalflife) (zAt a T x) m = .error err := by
  have hlen : 0 < (live a T x).length := List.length_pos_of_ne_nil hl
  have hSlt : ∀ k ∈ live a T x, k < T := fun k hk => (liveRows_mem.mp hk).1
  have hd' := distinct_reindex hd hSlt (liveRows_nodup _ _ _ _)
  obtain ⟨m, hm, e, g1, g2, g3, g4⟩ := ewmaLowRank_fin eigsh h1 ha.cov.ne' a.minPeriodsCov hlen
    (fun j => tm ((live a T x).getD j 0)) (zAt a T x)
  refine ⟨m, hm, e, g1, ?_, g3, g4⟩
  unfold lowRankIteratedEwma
  rw [lowRankPrep_fin ha hd x hl hv]
  simp only [g2]
  have hitem : ∀ j ∈ rowsFrom a.minPeriodsCov m,
      lowRankItem a.mean (finRows (rowsFrom a.minPeriodsVola T) tm (vol a x)) (finFrame T tm (muOf a.mean a.mu1h x))
        (finFrame (live a T x).length (fun j => tm ((live a T x).getD j 0)) (muOf a.mean a.mu2h (adjAt a T x)))
        (tm ((live a T x).getD j 0)) (lrVal eigsh r (betaOf a.covHalflife) (zAt a T x) j) =
      .ok (lrItemAt eigsh r a T tm x j) := by
    intro j hj
    have hj' : j < (live a T x).length := lt_of_lt_of_le (rowsFrom_lt hj) hm
    have hmem := liveRows_getD_mem hj'
    obtain ⟨hlt, hge, _⟩ := liveRows_mem.mp hmem
    have hv : locE (finRows (rowsFrom a.minPeriodsVola T) tm (vol a x)) (tm ((live a T x).getD j 0)) =
        .ok (finRow (vol a x ((live a T x).getD j 0))) := by
      unfold locE
      rw [loc_finRows hd _ (fun k hk => rowsFrom_lt hk) hlt, if_pos (mem_rowsFrom.mpr ⟨hlt, hge⟩)]
    have h1 : locE (finFrame T tm (muOf a.mean a.mu1h x)) (tm ((live a T x).getD j 0)) =
        .ok (finRow (muOf a.mean a.mu1h x ((live a T x).getD j 0))) := by
      unfold locE finFrame
      rw [loc_finRows hd _ (fun k hk => List.mem_range.mp hk) hlt, if_pos (List.mem_range.mpr hlt)]
    have h2 : locE (finFrame (live a T x).length (fun j => tm ((live a T x).getD j 0))
          (muOf a.mean a.mu2h (adjAt a T x))) (tm ((live a T x).getD j 0)) =
        .ok (finRow (muOf a.mean a.mu2h (adjAt a T x) j)) := by
      unfold locE finFrame
      rw [loc_finRows (t := j) hd' _ (fun k hk => List.mem_range.mp hk) hj', if_pos (List.mem_range.mpr hj')]
    unfold lowRankItem lrItemAt
    rw [hv, h1, h2]
    have hsm : scaleMean (finRow (vol a x ((live a T x).getD j 0)))
        (finRow (muOf a.mean a.mu1h x ((live a T x).getD j 0))) (finRow (muOf a.mean a.mu2h (adjAt a T x) j)) =
        finRow fun i => muOf a.mean a.mu1h x ((live a T x).getD j 0) i +
          vol a x ((live a T x).getD j 0) i * muOf a.mean a.mu2h (adjAt a T x) j i := by
      ext i
      simp [scaleMean, finRow, fin_mul, fin_add]
    simp only [bind, Except.bind, pure, Except.pure, hsm]
    by_cases hmean : a.mean = true
    · have h3 : meanAt a T x j = fun i => muOf a.mean a.mu1h x ((live a T x).getD j 0) i +
          vol a x ((live a T x).getD j 0) i * muOf a.mean a.mu2h (adjAt a T x) j i := by
        funext i; simp [meanAt, hmean]
      rw [h3, if_pos hmean]
    · have h3 : meanAt a T x j = fun _ => 0 := by
        funext i; simp [meanAt, hmean]
      rw [h3, if_neg hmean]
      rfl
  have hgen : ∀ l : List ℕ, (∀ j ∈ l, j ∈ rowsFrom a.minPeriodsCov m) →
      genMap (fun p : τ × LowRankDiag n r => lowRankItem a.mean (finRows (rowsFrom a.minPeriodsVola T) tm (vol a x))
        (finFrame T tm (muOf a.mean a.mu1h x))
        (finFrame (live a T x).length (fun j => tm ((live a T x).getD j 0)) (muOf a.mean a.mu2h (adjAt a T x))) p.1 p.2)
        (l.map fun k => (tm ((live a T x).getD k 0), lrVal eigsh r (betaOf a.covHalflife) (zAt a T x) k)) =
      (l.map (lrItemAt eigsh r a T tm x), none) := by
    intro l
    induction l with
    | nil => intro _; rfl
    | cons k l ih =>
      intro hk
      rw [List.map_cons]
      simp only [genMap, hitem k (hk k List.mem_cons_self), ih fun j hj => hk j (List.mem_cons_of_mem _ hj)]
      rfl
  rw [hgen _ fun j hj => hj]

end CovPred
