import Verif.Lemmas.Rounded2

/-
The EWMA recursion with rounding, for numbers and for the model.
-/
set_option linter.unusedSectionVars false
namespace CovPred

/-- the EWMA recursion with the operations of `F` -/
noncomputable def roundSeq (F : FloatOps) (b : ℝ) (y : ℕ → ℝ) : ℕ → ℝ
  | 0 => y 0
  | n + 1 => F.add (roundSeq F b y n)
      (F.div (F.mul (F.sub 1 b) (F.sub (y (n + 1)) (roundSeq F b y n))) (F.sub 1 (F.npow b (n + 1 + 1))))

/-- the divisor with rounding -/
theorem divisor_error {F : FloatOps} {u η : ℝ} (hF : F.Accurate u η) {b : ℝ} (h0 : 0 < b) (h1 : b < 1) (he : u + η ≤ 1) (n : ℕ) :
    |F.sub 1 (F.npow b (n + 1)) - (1 - b ^ (n + 1))| ≤ 3 * (u + η) ∧ |F.npow b (n + 1)| ≤ 2 ∧
      |F.sub 1 (F.npow b (n + 1))| ≤ 4 := by
  have hu := hF.u_nonneg
  have hη := hF.η_nonneg
  have hp0 : 0 < b ^ (n + 1) := pow_pos h0 _
  have hp1 : b ^ (n + 1) ≤ 1 := pow_le_one₀ h0.le h1.le
  have h2 := hF.npow b (n + 1)
  unfold Rounds at h2
  rw [abs_of_pos hp0] at h2
  have h2' : |F.npow b (n + 1) - b ^ (n + 1)| ≤ u + η := by nlinarith
  have h3 : |F.npow b (n + 1)| ≤ 2 := by
    have := abs_sub_abs_le_abs_sub (F.npow b (n + 1)) (b ^ (n + 1))
    rw [abs_of_pos hp0] at this; linarith
  have h4 := hF.sub 1 (F.npow b (n + 1))
  unfold Rounds at h4
  have h5 : |1 - F.npow b (n + 1)| ≤ 2 := by
    rw [abs_le] at h2' ⊢; constructor <;> linarith [h2'.1, h2'.2]
  have h6 : u * |1 - F.npow b (n + 1)| ≤ u * 2 := mul_le_mul_of_nonneg_left h5 hu
  refine ⟨?_, h3, ?_⟩
  · have e : F.sub 1 (F.npow b (n + 1)) - (1 - b ^ (n + 1))
        = (F.sub 1 (F.npow b (n + 1)) - (1 - F.npow b (n + 1))) - (F.npow b (n + 1) - b ^ (n + 1)) := by ring
    rw [e]
    have : |(F.sub 1 (F.npow b (n + 1)) - (1 - F.npow b (n + 1))) - (F.npow b (n + 1) - b ^ (n + 1))|
        ≤ |F.sub 1 (F.npow b (n + 1)) - (1 - F.npow b (n + 1))| + |F.npow b (n + 1) - b ^ (n + 1)| := abs_sub _ _
    have h7 : |F.sub 1 (F.npow b (n + 1)) - (1 - F.npow b (n + 1))| ≤ 2 * u + η := by linarith
    linarith
  · have := abs_sub_abs_le_abs_sub (F.sub 1 (F.npow b (n + 1))) (1 - F.npow b (n + 1)); linarith

theorem oneSub_error {F : FloatOps} {u η : ℝ} (hF : F.Accurate u η) {b : ℝ} (h0 : 0 < b) (h1 : b < 1) :
    |F.sub 1 b - (1 - b)| ≤ u + η := by
  have h := hF.sub 1 b
  unfold Rounds at h
  rw [abs_of_pos (show 0 < 1 - b by linarith)] at h
  have := hF.u_nonneg
  nlinarith

/-- Rounding errors do not accumulate: the recursion stays close to the exact average with the same decay factor, for ever. -/
theorem roundSeq_error {F : FloatOps} {u η : ℝ} (hF : F.Accurate u η) {b : ℝ} (h0 : 0 < b) (h1 : b < 1)
    (he : u + η ≤ (1 - b) ^ 2 / 104) {y : ℕ → ℝ} {M : ℝ} (n : ℕ) (hy : ∀ k ≤ n, |y k| ≤ M) :
    |roundSeq F b y n - emaAvg b y n| ≤ (104 * ((u + η) * M) + 16 * η) / (1 - b) ^ 2 := by
  have hu := hF.u_nonneg
  have hη := hF.η_nonneg
  have hM : 0 ≤ M := (abs_nonneg _).trans (hy 0 (by omega))
  set a := 1 - b with ha
  have hap : 0 < a := by linarith
  have ha1 : a ≤ 1 := by linarith
  have haa : a ^ 2 ≤ a := by nlinarith
  induction n with
  | zero =>
    rw [emaAvg_zero, roundSeq, sub_self, abs_zero]
    positivity
  | succ n ih =>
    have hi := ih fun k hk => hy k (by omega)
    set B := (104 * ((u + η) * M) + 16 * η) / a ^ 2 with hB
    have hB0 : 0 ≤ B := (abs_nonneg _).trans hi
    set e := roundSeq F b y n with hedef
    obtain ⟨g1, g2, g3, g4⟩ := gain_bounds h0 h1 (n + 1)
    obtain ⟨d1, -, -⟩ := divisor_error hF h0 h1 (by nlinarith) (n + 1)
    have hst := (step_error (u := u) (η := η) (a := a) (d0 := 1 - b ^ (n + 1 + 1)) (A := F.sub 1 b)
      (D := F.sub 1 (F.npow b (n + 1 + 1))) (N := F.sub (y (n + 1)) e) (Q := F.mul (F.sub 1 b) (F.sub (y (n + 1)) e))
      (R := F.div (F.mul (F.sub 1 b) (F.sub (y (n + 1)) e)) (F.sub 1 (F.npow b (n + 1 + 1))))
      (E := roundSeq F b y (n + 1)) (e := e) (z := y (n + 1) - e) hu hη hap g1 g2 (by nlinarith) (oneSub_error hF h0 h1) d1
      (hF.sub _ _) (hF.mul _ _) (hF.div _ _ (by
        have := (abs_le.1 d1).1
        intro hz
        rw [hz] at this
        nlinarith)) (hF.add _ _)).1
    set g := a / (1 - b ^ (n + 1 + 1)) with hg
    have heM : |e| ≤ M + B := by
      have h2 : |emaAvg b y n| ≤ M := emaAvg_abs_le h0 n fun k hk => hy k (by omega)
      have := abs_sub_abs_le_abs_sub e (emaAvg b y n); linarith
    have hz : |y (n + 1) - e| ≤ 2 * M + B := by
      have h2 : |y (n + 1) - e| ≤ |y (n + 1)| + |e| := abs_sub _ _
      linarith [hy (n + 1) le_rfl]
    rw [← emaAvg_succ h0 h1]
    have e1 : emaAvg b y n + (1 - b) * (y (n + 1) - emaAvg b y n) / (1 - b ^ (n + 1 + 1))
        = emaAvg b y n + g * (y (n + 1) - emaAvg b y n) := by rw [hg, ha]; ring
    rw [e1]
    have e2 : roundSeq F b y (n + 1) - (emaAvg b y n + g * (y (n + 1) - emaAvg b y n))
        = (roundSeq F b y (n + 1) - (e + g * (y (n + 1) - e))) + (1 - g) * (e - emaAvg b y n) := by ring
    rw [e2]
    have h3 := abs_add_le (roundSeq F b y (n + 1) - (e + g * (y (n + 1) - e))) ((1 - g) * (e - emaAvg b y n))
    have h4 : |(1 - g) * (e - emaAvg b y n)| ≤ (1 - a) * B := by
      rw [abs_mul, abs_of_nonneg (by linarith)]
      exact mul_le_mul (by linarith) hi (abs_nonneg _) (by linarith)
    set w := (u + η) / a with hw
    have hwa : w * a = u + η := div_mul_cancel₀ _ hap.ne'
    have hw0 : 0 ≤ w := by positivity
    have hwa2 : w ≤ a / 104 := by
      rw [hw, div_le_iff₀ hap]; nlinarith
    set H := η / a with hH
    have hHa : H * a = η := div_mul_cancel₀ _ hap.ne'
    have hBa : a * B = 104 * w * M + 16 * H := by
      rw [hB, hw, hH]; field_simp
    have h5 : 25 * w * |y (n + 1) - e| ≤ 25 * w * (2 * M + B) := mul_le_mul_of_nonneg_left hz (by positivity)
    have h6 : w * |e| ≤ w * (M + B) := mul_le_mul_of_nonneg_left heM hw0
    have h7 : w * B ≤ a / 104 * B := mul_le_mul_of_nonneg_right hwa2 hB0
    have hwM : 0 ≤ w * M := by positivity
    nlinarith

section model
variable {F : FloatOps}

theorem out_fin {r : ℝ} (h : |r| ≤ F.big) : RF.out F r = ⟨.fin r⟩ := by unfold RF.out; rw [if_pos h]

theorem rf_add (a b : ℝ) : (⟨.fin a⟩ + ⟨.fin b⟩ : RF F) = RF.out F (F.add a b) := rfl
theorem rf_sub (a b : ℝ) : (⟨.fin a⟩ - ⟨.fin b⟩ : RF F) = RF.out F (F.sub a b) := rfl
theorem rf_mul (a b : ℝ) : (⟨.fin a⟩ * ⟨.fin b⟩ : RF F) = RF.out F (F.mul a b) := rfl
theorem rf_div {a b : ℝ} (h : b ≠ 0) : (⟨.fin a⟩ / ⟨.fin b⟩ : RF F) = RF.out F (F.div a b) := by
  show RF.div _ _ = _
  simp [RF.div, h]
theorem rf_npow (a : ℝ) (n : ℕ) : Scalar.npow (⟨.fin a⟩ : RF F) n = RF.out F (F.npow a n) := rfl
theorem rf_one : (1 : RF F) = ⟨.fin 1⟩ := rfl

/-- no overflow: the state of the model is the recursion -/
theorem ewSeq_round {κ : Type} [Ix κ] {u η : ℝ} (hF : F.Accurate u η) {b : ℝ} (h0 : 0 < b) (h1 : b < 1)
    (he : u + η ≤ (1 - b) ^ 2 / 104) (minP : Int) {M : ℝ} (hbig : 24 * (M + 1) ≤ F.big) {T : ℕ} {y : ℕ → κ → ℝ}
    (hy : ∀ k, k < T → ∀ i, |y k i| ≤ M) (n : ℕ) (hn : n < T) :
    ewSeq ⟨.fin b⟩ minP none (fun k => rfRow F (y k)) n = rfRow F fun i => roundSeq F b (fun k => y k i) n := by
  induction n with
  | zero => rfl
  | succ n ih =>
    simp only [ewSeq, ewmaUpdate, Scalar.truthy]
    rw [ih (by omega)]
    ext i
    simp only [rfRow, Arr.get_ofFn]
    have hu := hF.u_nonneg
    have hη := hF.η_nonneg
    set a := 1 - b with ha
    have hap : 0 < a := by linarith
    have ha1 : a ≤ 1 := by linarith
    have hM : 0 ≤ M := (abs_nonneg _).trans (hy 0 (by omega) i)
    have haa : a ^ 2 ≤ a := by nlinarith
    have he1 : u + η ≤ 1 / 104 := by nlinarith
    have hr := roundSeq_error hF h0 h1 he n (y := fun k => y k i) fun k hk => hy k (by omega) i
    set e := roundSeq F b (fun k => y k i) n with hedef
    have hB : (104 * ((u + η) * M) + 16 * η) / a ^ 2 ≤ M + 1 := by
      rw [div_le_iff₀ (by positivity)]
      nlinarith [mul_le_mul_of_nonneg_right he hM]
    have h2 : |emaAvg b (fun k => y k i) n| ≤ M := emaAvg_abs_le h0 n fun k hk => hy k (by omega) i
    have heM : |e| ≤ 2 * M + 1 := by
      have := abs_sub_abs_le_abs_sub e (emaAvg b (fun k => y k i) n); linarith
    have hz : |y (n + 1) i - e| ≤ 3 * M + 1 := by
      have h3 : |y (n + 1) i - e| ≤ |y (n + 1) i| + |e| := abs_sub _ _
      linarith [hy (n + 1) hn i]
    obtain ⟨g1, g2, g3, g4⟩ := gain_bounds h0 h1 (n + 1)
    obtain ⟨d1, d2, d3⟩ := divisor_error hF h0 h1 (by linarith) (n + 1)
    have hA := oneSub_error hF h0 h1
    have hA1 : |F.sub 1 b| ≤ 2 := by
      have := abs_sub_abs_le_abs_sub (F.sub 1 b) (1 - b)
      rw [abs_of_pos hap] at this
      linarith
    have hDne : F.sub 1 (F.npow b (n + 1 + 1)) ≠ 0 := by
      have := (abs_le.1 d1).1
      intro hz
      rw [hz] at this
      nlinarith
    obtain ⟨-, -, s3, s4, s5⟩ := step_error (u := u) (η := η) (a := a) (d0 := 1 - b ^ (n + 1 + 1)) (A := F.sub 1 b)
      (D := F.sub 1 (F.npow b (n + 1 + 1))) (N := F.sub (y (n + 1) i) e) (Q := F.mul (F.sub 1 b) (F.sub (y (n + 1) i) e))
      (R := F.div (F.mul (F.sub 1 b) (F.sub (y (n + 1) i) e)) (F.sub 1 (F.npow b (n + 1 + 1))))
      (E := roundSeq F b (fun k => y k i) (n + 1)) (e := e) (z := y (n + 1) i - e) hu hη hap g1 g2 (by nlinarith) hA d1
      (hF.sub _ _) (hF.mul _ _) (hF.div _ _ hDne) (hF.add _ _)
    have hHa : η / a ≤ 1 / 6 := by rw [div_le_iff₀ hap]; nlinarith
    have hr' := roundSeq_error hF h0 h1 he (n + 1) (y := fun k => y k i) fun k hk => hy k (by omega) i
    have hE : |roundSeq F b (fun k => y k i) (n + 1)| ≤ 2 * M + 1 := by
      have h2 : |emaAvg b (fun k => y k i) (n + 1)| ≤ M := emaAvg_abs_le h0 (n + 1) fun k hk => hy k (by omega) i
      have := abs_sub_abs_le_abs_sub (roundSeq F b (fun k => y k i) (n + 1)) (emaAvg b (fun k => y k i) (n + 1)); linarith
    rw [rf_one, rf_sub, rf_sub, rf_npow, out_fin (r := F.sub 1 b) (by linarith), out_fin (r := F.sub (y (n + 1) i) e) (by linarith),
      out_fin (r := F.npow b (n + 1 + 1)) (by linarith), rf_mul, rf_sub,
      out_fin (r := F.mul (F.sub 1 b) (F.sub (y (n + 1) i) e)) (by linarith),
      out_fin (r := F.sub 1 (F.npow b (n + 1 + 1))) (by linarith), rf_div hDne,
      out_fin (r := F.div (F.mul (F.sub 1 b) (F.sub (y (n + 1) i) e)) (F.sub 1 (F.npow b (n + 1 + 1)))) (by linarith), rf_add]
    exact out_fin (by show |roundSeq F b (fun k => y k i) (n + 1)| ≤ _; linarith)

theorem rf_all_isNaN {κ : Type} [Ix κ] [Nonempty κ] (x : κ → ℝ) : (rfRow F x).all Scalar.isNaN = false := by
  obtain ⟨i⟩ := ‹Nonempty κ›
  rw [Bool.eq_false_iff]
  intro h
  have := (Arr.all_iff _ _).mp h i
  simp only [rfRow, Arr.get_ofFn] at this
  cases this

theorem rf_all_mulNan {κ : Type} [Ix κ] (x : κ → ℝ) : ((rfRow F x).map (· * Scalar.nan)).all Scalar.isNaN = true := by
  rw [Arr.all_iff]
  intro i
  simp only [rfRow, Arr.get_map, Arr.get_ofFn]
  rfl

theorem rf_filter_mask {τ κ : Type} [Ix κ] [Nonempty κ] (minP : Int) (tm : ℕ → τ) (x : ℕ → κ → ℝ) (l : List ℕ) :
    ((l.map fun k => (tm k, maskWarmup minP k (rfRow F (x k)))).filter fun p => !(p.2.all Scalar.isNaN)) =
      rfRows F (l.filter fun t => minP - 1 ≤ (t : Int)) tm x := by
  induction l with
  | nil => rfl
  | cons k l ih =>
    rw [List.map_cons, List.filter_cons, List.filter_cons, ih]
    unfold maskWarmup
    by_cases h : (k : Int) < minP - 1
    · simp [h, rf_all_mulNan, not_le.mpr h]
    · simp [h, rf_all_isNaN, not_lt.mp h, rfRows]

theorem betaOf_eq (h : ℝ) : betaOf h = (2 : ℝ) ^ (-1 / h) := by
  have := betaOf_pow h 1
  rw [pow_one] at this
  rw [this]; norm_num

/-- the decay factor the model computes -/
theorem decay_round {u η h : ℝ} (hF : F.Accurate u η) (hh : 0 < h) (hacc : u + η ≤ neededAccuracy h) (hbig : 24 * (1 + 1 / h) ≤ F.big) :
    ∃ b : ℝ, decay (some (⟨.fin h⟩ : RF F)) none = .ok ⟨.fin b⟩ ∧ |b - betaOf h| ≤ 18 * (u + η) * (1 + 1 / h) ∧
      0 < b ∧ b < 1 ∧ (1 - betaOf h) / 2 ≤ 1 - b ∧ u + η ≤ (1 - b) ^ 2 / 104 := by
  have hu := hF.u_nonneg
  have hη := hF.η_nonneg
  set β := betaOf h with hβ
  have hβ0 : 0 < β := betaOf_pos h
  have hβ1 : β < 1 := betaOf_lt_one hh
  set q := 1 + 1 / h with hq
  have hq1 : 1 < q := by rw [hq]; have : 0 < 1 / h := by positivity
                         linarith
  have hacc' : (u + η) * (416 * q) ≤ β * (1 - β) ^ 2 := by
    unfold neededAccuracy at hacc
    rw [← betaOf_eq, ← hβ, ← hq, le_div_iff₀ (by positivity)] at hacc
    exact hacc
  have hε0 : 0 ≤ u + η := by positivity
  have hc1 : β * (1 - β) ^ 2 ≤ β := mul_le_of_le_one_right hβ0.le (by nlinarith)
  have hc2 : β * (1 - β) ^ 2 ≤ (1 - β) ^ 2 := by nlinarith [sq_nonneg (1 - β)]
  have hc3 : (1 - β) ^ 2 ≤ 1 - β := by nlinarith
  have hεq : u + η ≤ (u + η) * q := by nlinarith
  set L := F.log 2
  set V := F.div (-L) h
  set X := F.exp V
  set Y := F.sub 1 X
  set b := F.sub 1 Y
  obtain ⟨e1, e2, e3, e4, e5, e6⟩ := decay_error (u := u) (η := η) (h := h) (L := L) (V := V) (X := X) (Y := Y) (b := b) hu hη hh
    (by nlinarith) (hF.log 2 (by norm_num)) (hF.div _ _ hh.ne') (hF.exp V) (hF.sub 1 X) (hF.sub 1 Y)
  rw [← hβ] at e1
  have hbb := abs_le.1 e1
  have hL2 : (1 - β) / 2 ≤ 1 - b := by nlinarith
  refine ⟨b, ?_, e1, by nlinarith, by nlinarith, hL2, ?_⟩
  · have hbig1 : 1 / h = q - 1 := by rw [hq]; ring
    have ht : Scalar.truthy (some (⟨.fin h⟩ : RF F)) = some ⟨.fin h⟩ := by
      simp only [Scalar.truthy]
      rw [if_neg]
      show ¬ (XR.isZero (.fin h) = true)
      simp [XR.isZero, hh.ne']
    unfold decay
    rw [ht]
    have a1 : Scalar.log (Scalar.lit 2 : RF F) = ⟨.fin L⟩ := by
      show RF.log ⟨.fin ((2 : ℕ) : ℝ)⟩ = _
      simp only [RF.log, Nat.cast_ofNat]
      rw [if_pos (by norm_num)]
      exact out_fin (by linarith)
    have a2 : (-(⟨.fin L⟩ : RF F)) = ⟨.fin (-L)⟩ := rfl
    simp only [a1, a2]
    rw [rf_div hh.ne', out_fin (r := V) (by rw [hbig1] at e3; linarith)]
    have a3 : Scalar.exp (⟨.fin V⟩ : RF F) = RF.out F X := rfl
    rw [a3, out_fin (r := X) (by linarith), rf_one, rf_sub, out_fin (r := Y) (by linarith), rf_sub, out_fin (r := b) (by linarith)]
  · have : (1 - β) ^ 2 / 4 ≤ (1 - b) ^ 2 := by nlinarith
    linarith

end model
end CovPred
