import Verif.Model.ExpUtils
import Verif.Spec.ExpUtils
import Verif.Lemmas.LinAlg
import Mathlib.LinearAlgebra.Matrix.Notation
import Mathlib.Tactic.NormNum
import Mathlib.Tactic.FinCases
import Mathlib.Tactic.FieldSimp
import Mathlib.Tactic.Positivity

/-
`add_to_diagonal`, `turnover`, and the log-likelihoods of `experiment_utils.py`.
-/
set_option linter.unusedSectionVars false
namespace CovPred
open Matrix

variable {τ : Type} [LinearOrder τ] {n : ℕ}

/-! ### add_to_diagonal -/

/-- **C71.** The keys stay, the off-diagonal entries stay, and every variance is multiplied by `1 + lamda`. -/
theorem C71_entries (sigmas : Dict τ (Mat n)) (lamda : ℝ) :
    List.Forall₂ (fun p q : τ × Mat n => q.1 = p.1 ∧ (∀ i j, i ≠ j → q.2 i j = p.2 i j) ∧
      ∀ i, q.2 i i = (1 + lamda) * p.2 i i) sigmas (addToDiagonal sigmas lamda) := by
  unfold addToDiagonal
  induction sigmas with
  | nil => exact List.Forall₂.nil
  | cons p sigmas ih =>
    refine List.Forall₂.cons ⟨rfl, ?_, ?_⟩ ih
    · intro i j hij
      simp [Matrix.diagonal_apply_ne _ hij]
    · intro i
      simp only [Matrix.add_apply, Matrix.smul_apply, Matrix.diagonal_apply_eq, smul_eq_mul]
      ring

/-- **C71.** The argument is changed in place, so a second call compounds: the two calls together multiply the variances
by `(1 + l1) (1 + l2)`. -/
theorem C71_twice (sigmas : Dict τ (Mat n)) (l1 l2 : ℝ) :
    addToDiagonal (addToDiagonal sigmas l1) l2 = addToDiagonal sigmas ((1 + l1) * (1 + l2) - 1) := by
  unfold addToDiagonal
  rw [List.map_map]
  apply List.map_congr_left
  intro p _
  simp only [Function.comp]
  congr 1
  ext i j
  by_cases hij : i = j
  · subst hij
    simp only [Matrix.add_apply, Matrix.smul_apply, Matrix.diagonal_apply_eq, smul_eq_mul]
    ring
  · simp [Matrix.diagonal_apply_ne _ hij]

/-- **C71.** With a positive `lamda` every positive semidefinite matrix with positive variances becomes positive
definite. -/
theorem C71_posDef (sigmas : Dict τ (Mat n)) {lamda : ℝ} (hl : 0 < lamda)
    (h : ∀ p ∈ sigmas, p.2.PosSemidef ∧ ∀ i, 0 < p.2 i i) : ∀ q ∈ addToDiagonal sigmas lamda, q.2.PosDef := by
  intro q hq
  unfold addToDiagonal at hq
  rw [List.mem_map] at hq
  obtain ⟨p, hp, rfl⟩ := hq
  obtain ⟨hpsd, hpos⟩ := h p hp
  have : (lamda • diagonal (fun i => p.2 i i) : Mat n) = diagonal fun i => lamda * p.2 i i := by
    ext i j
    by_cases hij : i = j
    · subst hij; simp
    · simp [Matrix.diagonal_apply_ne _ hij]
  simp only [this]
  exact Matrix.PosDef.posSemidef_add hpsd (Matrix.PosDef.diagonal fun i => mul_pos hl (hpos i))

/-- The singular matrix of ones becomes positive definite. -/
example : ∀ q ∈ addToDiagonal [((0 : ℕ), (!![1, 1; 1, 1] : Mat 2))] (1 / 10), q.2.PosDef := by
  apply C71_posDef _ (by norm_num)
  intro p hp
  rw [List.mem_singleton] at hp
  subst hp
  constructor
  · have : (!![1, 1; 1, 1] : Mat 2) = (!![1, 1] : Matrix (Fin 1) (Fin 2) ℝ)ᴴ * (!![1, 1] : Matrix (Fin 1) (Fin 2) ℝ) := by
      ext i j
      fin_cases i <;> fin_cases j <;> simp [Matrix.mul_apply]
    show (!![1, 1; 1, 1] : Mat 2).PosSemidef
    rw [this]
    exact Matrix.posSemidef_conjTranspose_mul_self _
  · intro i
    fin_cases i <;> simp

/-! ### turnover -/

private theorem zipWith_tail_range {A B : Type} (f : A → A → B) (w : ℕ → A) (T : ℕ) :
    List.zipWith f ((List.range (T + 1)).map w) ((List.range (T + 1)).map w).tail
      = (List.range T).map fun t => f (w t) (w (t + 1)) := by
  apply List.ext_getElem
  · simp
  · intro k h1 h2
    simp [List.getElem_tail]

/-- **C72.** The turnover of `T + 1` rows of weights is `100 * 252` times the mean over the `T` trades of the traded
amount relative to the position before. -/
theorem C72_turnover (T : ℕ) (w : ℕ → Vec n) :
    turnover ((List.range (T + 1)).map w)
      = 100 * 252 * ((∑ t ∈ Finset.range T, (∑ i, |w (t + 1) i - w t i|) / ∑ i, |w t i|) / T) := by
  unfold turnover
  dsimp only
  rw [zipWith_tail_range, List.length_map, List.length_range]
  have : ((List.range T).map fun t => (∑ i, |w (t + 1) i - w t i|) / ∑ i, |w t i|).sum
      = ∑ t ∈ Finset.range T, (∑ i, |w (t + 1) i - w t i|) / ∑ i, |w t i| := by
    induction T with
    | zero => rfl
    | succ T ih => rw [List.range_succ, List.map_append, List.sum_append, ih, Finset.sum_range_succ]; simp
  rw [this]
  ring

/-- **C72.** It is never negative, and zero exactly if the weights never change (for non-zero weights). -/
theorem C72_zero_iff (T : ℕ) (hT : 0 < T) (w : ℕ → Vec n) (hw : ∀ t, t < T → w t ≠ 0) :
    0 ≤ turnover ((List.range (T + 1)).map w) ∧
      (turnover ((List.range (T + 1)).map w) = 0 ↔ ∀ t, t ≤ T → w t = w 0) := by
  have hpos : ∀ t, t < T → 0 < ∑ i, |w t i| := by
    intro t ht
    obtain ⟨i, hi⟩ := Function.ne_iff.1 (hw t ht)
    exact Finset.sum_pos' (fun _ _ => abs_nonneg _) ⟨i, Finset.mem_univ i, abs_pos.2 hi⟩
  have hnn : ∀ t ∈ Finset.range T, 0 ≤ (∑ i, |w (t + 1) i - w t i|) / ∑ i, |w t i| := fun t _ =>
    div_nonneg (Finset.sum_nonneg fun _ _ => abs_nonneg _) (Finset.sum_nonneg fun _ _ => abs_nonneg _)
  have hT0 : (0 : ℝ) < T := by exact_mod_cast hT
  rw [C72_turnover]
  constructor
  · have := Finset.sum_nonneg hnn
    positivity
  · constructor
    · intro h
      have h0 : ∑ t ∈ Finset.range T, (∑ i, |w (t + 1) i - w t i|) / ∑ i, |w t i| = 0 := by
        have : (100 * 252 : ℝ) ≠ 0 := by norm_num
        rcases mul_eq_zero.1 h with h | h
        · exact absurd h this
        · rcases div_eq_zero_iff.1 h with h | h
          · exact h
          · exact absurd h hT0.ne'
      rw [Finset.sum_eq_zero_iff_of_nonneg hnn] at h0
      intro t
      induction t with
      | zero => intro _; rfl
      | succ t ih =>
        intro ht
        rw [← ih (by omega)]
        have h1 := h0 t (Finset.mem_range.2 (by omega))
        rcases div_eq_zero_iff.1 h1 with h | h
        · rw [Finset.sum_eq_zero_iff_of_nonneg fun _ _ => abs_nonneg _] at h
          funext i
          have := abs_eq_zero.1 (h i (Finset.mem_univ i))
          linarith
        · exact absurd h (hpos t (by omega)).ne'
    · intro h
      have : ∀ t ∈ Finset.range T, (∑ i, |w (t + 1) i - w t i|) / ∑ i, |w t i| = 0 := by
        intro t ht
        have ht' := Finset.mem_range.1 ht
        rw [h t (by omega), h (t + 1) (by omega)]
        simp
      rw [Finset.sum_eq_zero this]
      simp

/-- **C72.** It does not depend on the leverage: multiplying all weights by the same non-zero number changes nothing. -/
theorem C72_scale (T : ℕ) (w : ℕ → Vec n) {c : ℝ} (hc : c ≠ 0) :
    turnover ((List.range (T + 1)).map fun t => c • w t) = turnover ((List.range (T + 1)).map w) := by
  rw [C72_turnover, C72_turnover]
  congr 2
  apply Finset.sum_congr rfl
  intro t _
  have h1 : ∑ i, |(c • w (t + 1)) i - (c • w t) i| = |c| * ∑ i, |w (t + 1) i - w t i| := by
    rw [Finset.mul_sum]
    apply Finset.sum_congr rfl
    intro i _
    simp only [Pi.smul_apply, smul_eq_mul]
    rw [← mul_sub, abs_mul]
  have h2 : ∑ i, |(c • w t) i| = |c| * ∑ i, |w t i| := by
    rw [Finset.mul_sum]
    apply Finset.sum_congr rfl
    intro i _
    rw [Pi.smul_apply, smul_eq_mul, abs_mul]
  rw [h1, h2, mul_div_mul_left _ _ (abs_pos.2 hc).ne']

/-- **C72.** Long-only fully invested weights turn over at most twice per day. -/
theorem C72_long_only_bound (T : ℕ) (hT : 0 < T) (w : ℕ → Vec n) (hw : ∀ t, t ≤ T → Simplex (w t)) :
    turnover ((List.range (T + 1)).map w) ≤ 100 * 252 * 2 := by
  rw [C72_turnover]
  have hT0 : (0 : ℝ) < T := by exact_mod_cast hT
  have habs : ∀ t, t ≤ T → ∑ i, |w t i| = 1 := by
    intro t ht
    rw [← (hw t ht).sum_one]
    exact Finset.sum_congr rfl fun i _ => abs_of_nonneg ((hw t ht).nonneg i)
  have hb : ∑ t ∈ Finset.range T, (∑ i, |w (t + 1) i - w t i|) / ∑ i, |w t i| ≤ ∑ _t ∈ Finset.range T, (2 : ℝ) := by
    apply Finset.sum_le_sum
    intro t ht
    have ht' := Finset.mem_range.1 ht
    rw [habs t (by omega), div_one]
    calc ∑ i, |w (t + 1) i - w t i| ≤ ∑ i, (|w (t + 1) i| + |w t i|) := Finset.sum_le_sum fun i _ => abs_sub _ _
      _ = 2 := by rw [Finset.sum_add_distrib, habs t (by omega), habs (t + 1) (by omega)]; norm_num
  rw [Finset.sum_const, Finset.card_range, nsmul_eq_mul] at hb
  have : (∑ t ∈ Finset.range T, (∑ i, |w (t + 1) i - w t i|) / ∑ i, |w t i|) / T ≤ 2 := by
    rw [div_le_iff₀ hT0]; linarith
  nlinarith

/-- Half of a two-asset portfolio is traded once and never again. -/
example : turnover ((List.range 3).map fun t => if t = 0 then (![1, 0] : Vec 2) else ![1 / 2, 1 / 2]) = 12600 := by
  rw [C72_turnover]
  norm_num [Finset.sum_range_succ, Fin.sum_univ_two, abs_of_pos, abs_of_neg]

/-! ### log-likelihoods -/

private theorem single_eq {S : Mat n} (hS : S.PosDef) (r m : Vec n) :
    singleLogLikelihood r S m = .ok (gaussLogDensity m S r) := by
  unfold singleLogLikelihood inv?
  rw [if_neg hS.det_pos.ne']
  show Except.ok _ = _
  congr 1
  unfold gaussLogDensity
  rw [← Matrix.dotProduct_mulVec]
  ring

/-- **C73.** `_single_log_likelihood` is the log-density of the normal distribution. -/
theorem C73_single {S : Mat n} (hS : S.PosDef) (r m : Vec n) :
    singleLogLikelihood r S m = .ok (gaussLogDensity m S r) := single_eq hS r m

/-- the log-density in other units -/
theorem gaussLogDensity_scale {S : Mat n} (hS : S.PosDef) (r m : Vec n) {s : ℝ} (hs : 0 < s) :
    gaussLogDensity (s • m) ((s ^ 2) • S) (s • r) = gaussLogDensity m S r - n * Real.log s := by
  unfold gaussLogDensity
  have hs2 : (s ^ 2) ≠ 0 := (pow_pos hs 2).ne'
  have hdet : ((s ^ 2) • S).det = (s ^ 2) ^ n * S.det := by rw [Matrix.det_smul, Fintype.card_fin]
  have hunit : IsUnit S.det := hS.det_pos.ne'.isUnit
  have hinv : ((s ^ 2) • S)⁻¹ = (s ^ 2)⁻¹ • S⁻¹ := by
    apply Matrix.inv_eq_right_inv
    rw [Matrix.smul_mul, Matrix.mul_smul, smul_smul, mul_inv_cancel₀ hs2, one_smul, Matrix.mul_nonsing_inv _ hunit]
  rw [hdet, hinv, Real.log_mul (pow_pos (pow_pos hs 2) n).ne' hS.det_pos.ne', Real.log_pow, Real.log_pow, ← smul_sub,
    Matrix.smul_mulVec, Matrix.mulVec_smul, dotProduct_smul, dotProduct_smul, smul_dotProduct]
  simp only [smul_eq_mul]
  have : (s ^ 2)⁻¹ * (s * (s * ((r - m) ⬝ᵥ S⁻¹ *ᵥ (r - m)))) = (r - m) ⬝ᵥ S⁻¹ *ᵥ (r - m) := by
    field_simp
  rw [this]
  push_cast
  ring

theorem mapM_except_ok {A B : Type} (f : A → Except Err B) (g : A → B) (l : List A) (h : ∀ a ∈ l, f a = .ok (g a)) :
    l.mapM f = .ok (l.map g) := by
  induction l with
  | nil => rfl
  | cons a l ih =>
    rw [List.mapM_cons, h a List.mem_cons_self, ih fun b hb => h b (List.mem_cons_of_mem _ hb)]; rfl

/-- **C73.** `log_likelihood` gives, row by row, the log-density of the normal distribution of that row, minus
`n log(scale)`: the likelihood in other units is not the likelihood. -/
theorem C73_log_likelihood (T : ℕ) (r m : ℕ → Vec n) (S : ℕ → Mat n) (hS : ∀ t, t < T → (S t).PosDef) {scale : ℝ}
    (hs : 0 < scale) :
    logLikelihood ((List.range T).map fun t => (r t, S t)) (some ((List.range T).map m)) scale
      = .ok ((List.range T).map fun t => gaussLogDensity (m t) (S t) (r t) - n * Real.log scale) := by
  unfold logLikelihood
  dsimp only
  rw [Option.getD_some, List.zip_map', mapM_except_ok (g := fun p => gaussLogDensity p.2 p.1.2 p.1.1 - n * Real.log scale)]
  · rw [List.map_map]; rfl
  · intro p hp
    rw [List.mem_map] at hp
    obtain ⟨t, ht, rfl⟩ := hp
    have hpd := hS t (List.mem_range.1 ht)
    have hpd' : ((scale ^ 2) • S t).PosDef := hpd.smul (pow_pos hs 2)
    have := single_eq hpd' (scale • r t) (scale • m t)
    rw [gaussLogDensity_scale hpd _ _ hs] at this
    exact this

/-- **C73.** Without means the means are zero. -/
theorem C73_no_means (T : ℕ) (r : ℕ → Vec n) (S : ℕ → Mat n) (scale : ℝ) :
    logLikelihood ((List.range T).map fun t => (r t, S t)) none scale
      = logLikelihood ((List.range T).map fun t => (r t, S t)) (some ((List.range T).map fun _ => 0)) scale := by
  unfold logLikelihood
  dsimp only
  rw [Option.getD_none, Option.getD_some, List.map_map]
  rfl

/-- **C73.** A singular covariance in any row makes the whole call fail. -/
theorem C73_singular {scale : ℝ} {t : ℕ} (T : ℕ) (r m : ℕ → Vec n) (S : ℕ → Mat n) (ht : t < T) (hS : (S t).det = 0) :
    logLikelihood ((List.range T).map fun t => (r t, S t)) (some ((List.range T).map m)) scale
      = .error .linAlgError := by
  unfold logLikelihood
  dsimp only
  rw [Option.getD_some, List.zip_map']
  have key : ∀ (g : (Vec n × Mat n) × Vec n → ℝ) (l : List ((Vec n × Mat n) × Vec n)) (x : (Vec n × Mat n) × Vec n), x ∈ l →
      ((scale ^ 2) • x.1.2).det = 0 →
      (l.mapM fun p => (do
        let Sinv ← inv? ((scale ^ 2) • p.1.2)
        pure (-(n : ℝ) / 2 * Real.log (2 * Real.pi) - 1 / 2 * Real.log ((scale ^ 2) • p.1.2).det
          - 1 / 2 * ((scale • p.1.1 - scale • p.2) ᵥ* Sinv ⬝ᵥ (scale • p.1.1 - scale • p.2))) : Except Err ℝ))
        = .error .linAlgError := by
    intro g l x hx hdet
    induction l with
    | nil => cases hx
    | cons a l ih =>
      rw [List.mapM_cons]
      by_cases ha : ((scale ^ 2) • a.1.2).det = 0
      · unfold inv?
        rw [if_pos ha]; rfl
      · rcases List.mem_cons.1 hx with rfl | hx
        · exact absurd hdet ha
        · rw [ih hx]
          unfold inv?
          rw [if_neg ha]; rfl
  apply key (fun _ => 0) _ ((r t, S t), m t)
  · rw [List.mem_map]; exact ⟨t, List.mem_range.2 ht, rfl⟩
  · show ((scale ^ 2) • S t).det = 0
    rw [Matrix.det_smul, hS, mul_zero]

/-- **C73.** `log_likelihood_sequential` fills its array with the same values as `log_likelihood` and fails in the same
cases, but it returns nothing. -/
theorem C73_sequential (rows : List (Vec n × Mat n)) (means : Option (List (Vec n))) (scale : ℝ) :
    (logLikelihoodSequential rows means scale).map Prod.fst = logLikelihood rows means scale ∧
      ∀ ll res, logLikelihoodSequential rows means scale = .ok (ll, res) → res = none := by
  unfold logLikelihoodSequential
  cases logLikelihood rows means scale with
  | error e => exact ⟨rfl, fun _ _ h => by cases h⟩
  | ok ll =>
    refine ⟨rfl, ?_⟩
    intro ll' res h
    have : (ll, (none : Option (List ℝ))) = (ll', res) := Except.ok.inj h
    exact (Prod.mk.inj this).2.symm

/-- The hypotheses are met by a two-asset example. -/
example : logLikelihood ((List.range 2).map fun _ => ((![1, 2] : Vec 2), (!![2, 0; 0, 3] : Mat 2)))
    (some ((List.range 2).map fun _ => 0)) 10
      = .ok ((List.range 2).map fun _ => gaussLogDensity 0 (!![2, 0; 0, 3] : Mat 2) ![1, 2] - (2 : ℕ) * Real.log 10) := by
  apply C73_log_likelihood 2 (fun _ => ![1, 2]) (fun _ => 0) (fun _ => !![2, 0; 0, 3]) _ (by norm_num)
  intro _ _
  have : (!![2, 0; 0, 3] : Mat 2) = diagonal ![2, 3] := by
    ext i j; fin_cases i <;> fin_cases j <;> rfl
  rw [this]
  apply Matrix.PosDef.diagonal
  intro i; fin_cases i <;> simp

end CovPred
