import Verif.Lemmas.Rounded5

/-
The last stage of `iterated_ewma` with rounding: from second moments to a covariance.
-/
set_option linter.unusedSectionVars false
namespace CovPred

variable {τ ι : Type} [DecidableEq τ] [Ix ι] {F : FloatOps} {u η K A L B e : ℝ}

/-- constants of the reciprocal of a root, of the correlation and of the covariance, for second moments with constants `K`, `A` and at least `m ^ 2` on the
diagonal, and volatilities with constants `L`, `B` -/
noncomputable def recK (m K A : ℝ) : ℝ := divK m 0 1 (sqrtK m K A)
noncomputable def corrK1 (m K A : ℝ) : ℝ := mulK (recK m K A) (1 / m) K A
noncomputable def corrK (m K A : ℝ) : ℝ := mulK (corrK1 m K A) (1 / m * A) (recK m K A) (1 / m)
noncomputable def scaleK1 (m K A L B : ℝ) : ℝ := mulK L B (corrK m K A) (1 / m * A * (1 / m))
noncomputable def scaleK (m K A L B : ℝ) : ℝ := mulK (scaleK1 m K A L B) (B * (1 / m * A * (1 / m))) L B

/-- conditions on the unit roundoff and the largest number for the last stage -/
def ScaleOk (m K A L B e big : ℝ) : Prop :=
  (K * e ≤ m ^ 2 / 2 ∧ sqrtK m K A * e ≤ m / 2) ∧ (A + 1 + sqrtK m K A ≤ big ∧ 1 / m + recK m K A ≤ big ∧ 1 / m * A + corrK1 m K A ≤ big ∧
    1 / m * A * (1 / m) + corrK m K A ≤ big ∧ B * (1 / m * A * (1 / m)) + scaleK1 m K A L B ≤ big ∧
    B * (1 / m * A * (1 / m)) * B + scaleK m K A L B ≤ big)

theorem scale_nonneg {m : ℝ} (hm : 0 < m) (hK : 0 ≤ K) (hA : 0 ≤ A) (hL : 0 ≤ L) (hB : 0 ≤ B) :
    0 ≤ sqrtK m K A ∧ 0 ≤ recK m K A ∧ 0 ≤ corrK1 m K A ∧ 0 ≤ corrK m K A ∧ 0 ≤ scaleK1 m K A L B ∧ 0 ≤ scaleK m K A L B := by
  have h1 := sqrtK_nonneg hm hK hA
  have h2 : 0 ≤ recK m K A := divK_nonneg hm le_rfl zero_le_one h1
  have h3 : 0 ≤ corrK1 m K A := mulK_nonneg h2 (by positivity) hK hA
  have h4 : 0 ≤ corrK m K A := mulK_nonneg h3 (by positivity) h2 (by positivity)
  have h5 : 0 ≤ scaleK1 m K A L B := mulK_nonneg hL hB h4 (by positivity)
  exact ⟨h1, h2, h3, h4, h5, mulK_nonneg h5 (by positivity) hL hB⟩

theorem scale_near [Nonempty ι] (hF : F.Accurate u η) (he : u + η = e) (he1 : e ≤ 1) {m : ℝ} (hm : 0 < m) (hK : 0 ≤ K) (hL : 0 ≤ L)
    (hok : ScaleOk m K A L B e F.big) {v' v : ι → ℝ} {C' C : ι × ι → ℝ} (hv : ∀ i, Near L B e (v' i) (v i)) (hC : ∀ p, Near K A e (C' p) (C p))
    (hd : ∀ i, m ^ 2 ≤ C (i, i)) :
    ∃ S : ι × ι → ℝ, scaleCov (rfRow F v') (rfRow F C') = rfRow F S ∧
      ∀ p, Near (scaleK m K A L B) (B * (1 / m * A * (1 / m)) * B) e (S p)
        (v p.1 * v p.2 * (C p / (Real.sqrt (C (p.1, p.1)) * Real.sqrt (C (p.2, p.2))))) := by
  obtain ⟨⟨hs1, hs2⟩, b1, b2, b3, b4, b5, b6⟩ := hok
  have hu := hF.u_nonneg
  have hη := hF.η_nonneg
  have he0 : 0 ≤ e := by linarith
  obtain ⟨i0⟩ := ‹Nonempty ι›
  have hA : 0 ≤ A := (abs_nonneg _).trans (hC (i0, i0)).2
  have hB : 0 ≤ B := (abs_nonneg _).trans (hv i0).2
  obtain ⟨k1, k2, k3, k4, k5, k6⟩ := scale_nonneg hm hK hA hL hB
  have hdp : ∀ i, 0 < C' (i, i) := fun i => lt_of_lt_of_le (by positivity) ((hC (i, i)).lower (hd i) hs1)
  have n1 : ∀ i, Near (sqrtK m K A) (A + 1) e (F.sqrt (C' (i, i))) (Real.sqrt (C (i, i))) := fun i =>
    Near.sqrt_of hu hη he he1 (hF.sqrt _ (hdp i).le) (hC (i, i)) hK hm (hd i) hs1
  have hms : ∀ i, m ≤ Real.sqrt (C (i, i)) := fun i => Real.le_sqrt_of_sq_le (hd i)
  have hsp : ∀ i, 0 < F.sqrt (C' (i, i)) := fun i => lt_of_lt_of_le (by positivity) ((n1 i).lower (hms i) hs2)
  have n2 : ∀ i, Near (recK m K A) (1 / m) e (F.div 1 (F.sqrt (C' (i, i)))) (1 / Real.sqrt (C (i, i))) := fun i =>
    Near.div_of hu hη he he1 (hF.div _ _ (hsp i).ne') (near_self (A := 1) he0 (by simp)) (n1 i) le_rfl hm (hms i) hs2
  set r : ι → ℝ := fun i => F.div 1 (F.sqrt (C' (i, i))) with hr
  have n3 : ∀ p : ι × ι, Near (corrK1 m K A) (1 / m * A) e (F.mul (r p.1) (C' p)) (1 / Real.sqrt (C (p.1, p.1)) * C p) := fun p =>
    Near.mul_of hu hη he he1 (hF.mul _ _) (n2 p.1) (hC p) k2 hK
  have n4 : ∀ p : ι × ι, Near (corrK m K A) (1 / m * A * (1 / m)) e (F.mul (F.mul (r p.1) (C' p)) (r p.2))
      (1 / Real.sqrt (C (p.1, p.1)) * C p * (1 / Real.sqrt (C (p.2, p.2)))) := fun p =>
    Near.mul_of hu hη he he1 (hF.mul _ _) (n3 p) (n2 p.2) k3 k2
  have n5 : ∀ p : ι × ι, Near (scaleK1 m K A L B) (B * (1 / m * A * (1 / m))) e (F.mul (v' p.1) (F.mul (F.mul (r p.1) (C' p)) (r p.2)))
      (v p.1 * (1 / Real.sqrt (C (p.1, p.1)) * C p * (1 / Real.sqrt (C (p.2, p.2))))) := fun p =>
    Near.mul_of hu hη he he1 (hF.mul _ _) (hv p.1) (n4 p) hL k4
  have n6 : ∀ p : ι × ι, Near (scaleK m K A L B) (B * (1 / m * A * (1 / m)) * B) e
      (F.mul (F.mul (v' p.1) (F.mul (F.mul (r p.1) (C' p)) (r p.2))) (v' p.2))
      (v p.1 * (1 / Real.sqrt (C (p.1, p.1)) * C p * (1 / Real.sqrt (C (p.2, p.2)))) * v p.2) := fun p =>
    Near.mul_of hu hη he he1 (hF.mul _ _) (n5 p) (hv p.2) k5 hL
  refine ⟨fun p => F.mul (F.mul (v' p.1) (F.mul (F.mul (r p.1) (C' p)) (r p.2))) (v' p.2), ?_, fun p => ?_⟩
  · unfold scaleCov toCorrelation rfRow
    ext p
    simp only [Arr.get_ofFn]
    have hrec : ∀ i, (if Scalar.isZero (⟨.fin (C' (i, i))⟩ : RF F) = true then (Scalar.nan : RF F) else 1 / Scalar.sqrt ⟨.fin (C' (i, i))⟩)
        = ⟨.fin (r i)⟩ := fun i => by
      rw [if_neg (by show ¬ (XR.isZero (.fin (C' (i, i))) = true); simp [XR.isZero, (hdp i).ne'])]
      have h1 : Scalar.sqrt (⟨.fin (C' (i, i))⟩ : RF F) = ⟨.fin (F.sqrt (C' (i, i)))⟩ := by
        show RF.sqrt _ = _
        simp only [RF.sqrt]
        rw [if_neg (by linarith [hdp i])]
        exact out_fin (((n1 i).abs_bound k1 he1).trans b1)
      rw [h1, rf_one, rf_div (hsp i).ne']
      exact out_fin (((n2 i).abs_bound k2 he1).trans b2)
    rw [hrec, hrec, rf_mul, out_fin (((n3 p).abs_bound k3 he1).trans b3), rf_mul, out_fin (((n4 p).abs_bound k4 he1).trans b4), rf_mul,
      out_fin (((n5 p).abs_bound k5 he1).trans b5), rf_mul, out_fin (((n6 p).abs_bound k6 he1).trans b6)]
  · have e1 : v p.1 * v p.2 * (C p / (Real.sqrt (C (p.1, p.1)) * Real.sqrt (C (p.2, p.2))))
        = v p.1 * (1 / Real.sqrt (C (p.1, p.1)) * C p * (1 / Real.sqrt (C (p.2, p.2)))) * v p.2 := by
      have h1 : Real.sqrt (C (p.1, p.1)) ≠ 0 := by have := hms p.1; intro h; linarith
      have h2 : Real.sqrt (C (p.2, p.2)) ≠ 0 := by have := hms p.2; intro h; linarith
      field_simp
    rw [e1]
    exact n6 p

/-- constant of the predicted mean -/
noncomputable def meanK1 (K2 A2 L B : ℝ) : ℝ := mulK L B K2 A2
noncomputable def meanK (K1 A1 K2 A2 L B : ℝ) : ℝ := addK K1 A1 (meanK1 K2 A2 L B) (B * A2)

def MeanOk (K1 A1 K2 A2 L B big : ℝ) : Prop := B * A2 + meanK1 K2 A2 L B ≤ big ∧ A1 + B * A2 + meanK K1 A1 K2 A2 L B ≤ big

theorem scaleMean_near [Nonempty ι] {K1 A1 K2 A2 : ℝ} (hF : F.Accurate u η) (he : u + η = e) (he1 : e ≤ 1) (hK1 : 0 ≤ K1) (hK2 : 0 ≤ K2) (hL : 0 ≤ L)
    (hok : MeanOk K1 A1 K2 A2 L B F.big) {v' v m1' m1 m2' m2 : ι → ℝ} (hv : ∀ i, Near L B e (v' i) (v i))
    (h1 : ∀ i, Near K1 A1 e (m1' i) (m1 i)) (h2 : ∀ i, Near K2 A2 e (m2' i) (m2 i)) :
    ∃ z : ι → ℝ, scaleMean (rfRow F v') (rfRow F m1') (rfRow F m2') = rfRow F z ∧
      ∀ i, Near (meanK K1 A1 K2 A2 L B) (A1 + B * A2) e (z i) (m1 i + v i * m2 i) := by
  have hu := hF.u_nonneg
  have hη := hF.η_nonneg
  obtain ⟨i0⟩ := ‹Nonempty ι›
  have hB : 0 ≤ B := (abs_nonneg _).trans (hv i0).2
  have hA1 : 0 ≤ A1 := (abs_nonneg _).trans (h1 i0).2
  have hA2 : 0 ≤ A2 := (abs_nonneg _).trans (h2 i0).2
  have k1 : 0 ≤ meanK1 K2 A2 L B := mulK_nonneg hL hB hK2 hA2
  have k2 : 0 ≤ meanK K1 A1 K2 A2 L B := addK_nonneg hK1 hA1 k1 (by positivity)
  have n1 : ∀ i, Near (meanK1 K2 A2 L B) (B * A2) e (F.mul (v' i) (m2' i)) (v i * m2 i) := fun i =>
    Near.mul_of hu hη he he1 (hF.mul _ _) (hv i) (h2 i) hL hK2
  have n2 : ∀ i, Near (meanK K1 A1 K2 A2 L B) (A1 + B * A2) e (F.add (m1' i) (F.mul (v' i) (m2' i))) (m1 i + v i * m2 i) := fun i =>
    Near.add_of hu hη he he1 (hF.add _ _) (h1 i) (n1 i) hK1 k1
  refine ⟨_, ?_, n2⟩
  unfold scaleMean rfRow
  ext i
  simp only [Arr.get_ofFn]
  rw [rf_mul, out_fin (((n1 i).abs_bound k1 he1).trans hok.1), rf_add, out_fin (((n2 i).abs_bound k2 he1).trans hok.2)]

/-! ### small enough, large enough -/

/-- a condition that holds for small unit roundoffs and large largest numbers -/
def Good (P : ℝ → ℝ → Prop) : Prop := ∃ u0 > 0, ∃ B : ℝ, ∀ e ≤ u0, ∀ b ≥ B, P e b

theorem Good.and {P Q : ℝ → ℝ → Prop} (hP : Good P) (hQ : Good Q) : Good fun e b => P e b ∧ Q e b := by
  obtain ⟨u1, h1, B1, k1⟩ := hP
  obtain ⟨u2, h2, B2, k2⟩ := hQ
  exact ⟨min u1 u2, lt_min h1 h2, max B1 B2, fun e he b hb =>
    ⟨k1 e (he.trans (min_le_left _ _)) b ((le_max_left _ _).trans hb), k2 e (he.trans (min_le_right _ _)) b ((le_max_right _ _).trans hb)⟩⟩

theorem good_big (c : ℝ) : Good fun _ b => c ≤ b := ⟨1, one_pos, c, fun _ _ _ h => h⟩
theorem good_le {c : ℝ} (hc : 0 < c) : Good fun e _ => e ≤ c := ⟨c, hc, 0, fun _ h _ _ => h⟩
theorem good_mul {K c : ℝ} (hK : 0 ≤ K) (hc : 0 < c) : Good fun e _ => K * e ≤ c := by
  refine ⟨c / (K + 1), by positivity, 0, fun e he _ _ => ?_⟩
  rcases le_total e 0 with h | h
  · exact (mul_nonpos_of_nonneg_of_nonpos hK h).trans hc.le
  · rw [le_div_iff₀ (by positivity)] at he
    nlinarith

theorem good_scale {m : ℝ} (hm : 0 < m) (hK : 0 ≤ K) (hA : 0 ≤ A) (L B : ℝ) : Good (ScaleOk m K A L B) := by
  unfold ScaleOk
  exact ((good_mul hK (by positivity)).and (good_mul (sqrtK_nonneg hm hK hA) (by positivity))).and
    ((good_big _).and ((good_big _).and ((good_big _).and ((good_big _).and ((good_big _).and (good_big _))))))

theorem good_mean (K1 A1 K2 A2 L B : ℝ) : Good fun _ b => MeanOk K1 A1 K2 A2 L B b := by
  unfold MeanOk
  exact (good_big _).and (good_big _)

theorem neededAccuracy_pos {h : ℝ} (hh : 0 < h) : 0 < neededAccuracy h := by
  unfold neededAccuracy
  rw [← betaOf_eq]
  have := betaOf_pos h
  have := betaOf_lt_one hh
  have h1 : 0 < 1 - betaOf h := by linarith
  positivity

end CovPred
