import Verif.Lemmas.ReturnCombination

/-
Lemmas about the lasso combination of return predictions.
-/
namespace CovPred
open Matrix
set_option linter.unusedSectionVars false

variable {τ : Type} [LinearOrder τ] {K : ℕ}

/-- the lasso problem for row `t` -/
noncomputable def lassoWindow (solver : LassoSolver K) (y : ℕ → ℝ) (x : ℕ → Vec K) (memory : ℕ) (alpha : ℝ) (t : ℕ) : Except Err (Vec K) :=
  solver ((List.range memory).map fun s => y (t - memory + s)) ((List.range memory).map fun s => x (t - memory + s)) alpha

theorem lassoRow_eq (solver : LassoSolver K) {T : ℕ} {tm : ℕ → τ} (htm : Increasing T tm) {p q : ℕ} (hpq : p + q ≤ T) (y : ℕ → ℝ)
    (x : ℕ → Vec K) {memory : ℕ} (hm : 1 ≤ memory) (alpha : ℝ) {t : ℕ} (h1 : memory ≤ t) (h2 : t < q) :
    lassoRow solver alpha (rowDict T tm y) (blockDict p q tm x) memory ((List.range' p q).map tm) t =
      (lassoWindow solver y x memory alpha (p + t)).map fun w => (tm (p + t), w) := by
  unfold lassoRow
  rw [times_get p q tm (by omega), times_get p q tm (by omega), times_get p q tm h2]
  simp only [bind, Except.bind]
  rw [← blockDict_zero, locRange_block htm (by omega : 0 + T ≤ T) y (by omega) (by omega) (by omega) (by omega),
    locRange_block htm hpq x (by omega) (by omega) (by omega) (by omega)]
  have e1 := block_values (p + (t - memory)) (p + (t - 1) + 1 - (p + (t - memory))) tm x id
  have e2 := block_values (p + (t - memory)) (p + (t - 1) + 1 - (p + (t - memory))) tm y id
  change (blockDict _ _ tm x).map Prod.snd = _ at e1
  change (blockDict _ _ tm y).map Prod.snd = _ at e2
  rw [e1, e2]
  have e3 : p + (t - 1) + 1 - (p + (t - memory)) = memory := by omega
  have e4 : p + (t - memory) = p + t - memory := by omega
  rw [e3, e4, if_neg (by simp), if_neg (by simp)]
  unfold lassoWindow
  simp only [id]
  cases solver ((List.range memory).map fun s => y (p + t - memory + s)) ((List.range memory).map fun s => x (p + t - memory + s)) alpha with
  | error e => rfl
  | ok w => rfl

theorem lassoHat_eq {T : ℕ} {tm : ℕ → τ} (htm : Increasing T tm) {p q : ℕ} (hpq : p + q ≤ T) (x : ℕ → Vec K) {t : ℕ}
    (h1 : p ≤ t) (h2 : t < p + q) (w : Vec K) : lassoHat (blockDict p q tm x) (tm t, w) = .ok (tm t, x t ⬝ᵥ w) := by
  unfold lassoHat
  rw [(getItem_ok_iff _ _ _).2 (lookup_block htm hpq x h1 h2)]
  rfl

/-- the loop over the rows, and the predictions -/
theorem lassoLoop_ok_iff (solver : LassoSolver K) {T : ℕ} {tm : ℕ → τ} (htm : Increasing T tm) {p q : ℕ} (hpq : p + q ≤ T) (y : ℕ → ℝ)
    (x : ℕ → Vec K) {memory : ℕ} (hm : 1 ≤ memory) (alpha : ℝ) (hats : Dict τ ℝ) (ws : Dict τ (Vec K)) :
    (do
      let ws ← (List.range' memory (q - memory)).mapM
        (lassoRow solver alpha (rowDict T tm y) (blockDict p q tm x) memory ((List.range' p q).map tm))
      let hats ← ws.mapM (lassoHat (blockDict p q tm x))
      pure (hats, ws) : Except Err _) = .ok (hats, ws) ↔
      ∃ w : ℕ → Vec K,
        (∀ t ∈ List.range' (p + memory) (q - memory), lassoWindow solver y x memory alpha t = .ok (w t)) ∧
        hats = blockDict (p + memory) (q - memory) tm (fun t => x t ⬝ᵥ w t) ∧
        ws = blockDict (p + memory) (q - memory) tm w := by
  have hrows : ∀ ws, (List.range' memory (q - memory)).mapM
      (lassoRow solver alpha (rowDict T tm y) (blockDict p q tm x) memory ((List.range' p q).map tm)) = .ok ws ↔
      ∃ w : ℕ → Vec K, (∀ t ∈ List.range' (p + memory) (q - memory), lassoWindow solver y x memory alpha t = .ok (w t)) ∧
        ws = (List.range' (p + memory) (q - memory)).map fun t => (tm t, w t) := by
    intro ws
    constructor
    · intro h
      rw [mapM_ok_iff_forall₂] at h
      have hok : ∀ t ∈ List.range' (p + memory) (q - memory), ∃ v : Vec K, lassoWindow solver y x memory alpha t = .ok v := by
        intro t ht
        rw [List.mem_range'_1] at ht
        obtain ⟨r, _, hr⟩ := forall₂_mem_left h (x := t - p) (by rw [List.mem_range'_1]; omega)
        rw [lassoRow_eq solver htm hpq y x hm alpha (by omega) (by omega), show p + (t - p) = t by omega] at hr
        cases hf : lassoWindow solver y x memory alpha t with
        | error e => rw [hf] at hr; cases hr
        | ok v => exact ⟨v, rfl⟩
      choose! w hw using hok
      refine ⟨w, hw, ?_⟩
      have e2 := mapM_ok_of (lassoRow solver alpha (rowDict T tm y) (blockDict p q tm x) memory ((List.range' p q).map tm))
        (fun t => (tm (p + t), w (p + t))) (List.range' memory (q - memory)) (fun t ht => by
          rw [List.mem_range'_1] at ht
          rw [lassoRow_eq solver htm hpq y x hm alpha (by omega) (by omega), hw (p + t) (by rw [List.mem_range'_1]; omega)]
          rfl)
      rw [(mapM_ok_iff_forall₂ _ _ _).2 h] at e2
      rw [Except.ok.inj e2, ← range'_shift, List.map_map]
      rfl
    · rintro ⟨w, hw, rfl⟩
      rw [← range'_shift, List.map_map]
      apply mapM_ok_of
      intro t ht
      rw [List.mem_range'_1] at ht
      rw [lassoRow_eq solver htm hpq y x hm alpha (by omega) (by omega), hw (p + t) (by rw [List.mem_range'_1]; omega)]
      rfl
  have hhats : ∀ w : ℕ → Vec K, ((List.range' (p + memory) (q - memory)).map fun t => (tm t, w t)).mapM (lassoHat (blockDict p q tm x))
      = .ok (blockDict (p + memory) (q - memory) tm fun t => x t ⬝ᵥ w t) := by
    intro w
    have := mapM_ok_of (fun t => lassoHat (blockDict p q tm x) (tm t, w t)) (fun t => (tm t, x t ⬝ᵥ w t))
      (List.range' (p + memory) (q - memory)) (fun t ht => by
        rw [List.mem_range'_1] at ht
        exact lassoHat_eq htm hpq x (by omega) (by omega) (w t))
    unfold blockDict at this ⊢
    rw [← this, List.mapM_map]
    rfl
  rw [bind_ok_iff]
  constructor
  · rintro ⟨ws', h1, h2⟩
    rw [bind_ok_iff] at h2
    obtain ⟨hats', h3, h4⟩ := h2
    cases h4
    obtain ⟨w, hw, rfl⟩ := (hrows _).1 h1
    rw [hhats w] at h3
    exact ⟨w, hw, (Except.ok.inj h3).symm, rfl⟩
  · rintro ⟨w, hw, rfl, rfl⟩
    refine ⟨_, (hrows _).2 ⟨w, hw, rfl⟩, ?_⟩
    rw [hhats w]
    rfl

theorem oldFit_ok_iff (solver : LassoSolver K) {T : ℕ} {tm : ℕ → τ} (htm : Increasing T tm) {p q : ℕ} (hpq : p + q ≤ T) (y : ℕ → ℝ)
    (x : ℕ → Vec K) {memory : ℕ} (hm : 1 ≤ memory) (alpha : ℝ) (hats : Dict τ ℝ) (ws : Dict τ (Vec K)) :
    oldFit solver memory alpha (rowDict T tm y) (blockDict p q tm x) = .ok (hats, ws) ↔
      ∃ w : ℕ → Vec K,
        (∀ t ∈ List.range' (p + memory) (q - memory), lassoWindow solver y x memory alpha t = .ok (w t)) ∧
        hats = blockDict (p + memory) (q - memory) tm (fun t => x t ⬝ᵥ w t) ∧
        ws = blockDict (p + memory) (q - memory) tm w := by
  have htimes : (blockDict p q tm x).map Prod.fst = (List.range' p q).map tm := by unfold blockDict; rw [List.map_map]; rfl
  rw [← lassoLoop_ok_iff solver htm hpq y x hm alpha hats ws]
  unfold oldFit
  dsimp only
  rw [if_neg, htimes, List.length_map, List.length_range']
  push Not
  intro t ht
  rw [htimes] at ht
  obtain ⟨s, hs, rfl⟩ := List.mem_map.1 ht
  rw [List.mem_range'_1] at hs
  unfold rowDict
  rw [List.map_map]
  exact List.mem_map.2 ⟨s, List.mem_range.2 (by omega), rfl⟩

theorem ewmaReturnCombination_ok_iff (solver : LassoSolver K) {T : ℕ} {tm : ℕ → τ} (htm : Increasing T tm) (y : ℕ → ℝ)
    (x : ℕ → Vec K) {memory : ℕ} (hm : 1 ≤ memory) (alpha : ℝ) (hats : Dict τ ℝ) (ws : Dict τ (Vec K)) :
    ewmaReturnCombination solver (rowDict T tm y) (rowDict T tm x) alpha memory = .ok (hats, ws) ↔
      ∃ w : ℕ → Vec K,
        (∀ t ∈ List.range' memory (T - memory), lassoWindow solver y x memory alpha t = .ok (w t)) ∧
        hats = blockDict memory (T - memory) tm (fun t => x t ⬝ᵥ w t) ∧
        ws = blockDict memory (T - memory) tm w := by
  have := lassoLoop_ok_iff solver htm (by omega : 0 + T ≤ T) y x hm alpha hats ws
  rw [zero_add] at this
  rw [← this]
  unfold ewmaReturnCombination
  dsimp only
  have htimes : (rowDict T tm y).map Prod.fst = (List.range' 0 T).map tm := by
    unfold rowDict; rw [List.map_map, List.range_eq_range']; rfl
  rw [htimes, List.length_map, List.length_range', blockDict_zero]

/-! ### The optimality conditions of the lasso -/

/-- the loss at another point -/
theorem lasso_expand (N : ℕ) (y : ℕ → ℝ) (X : ℕ → Vec K) (alpha : ℝ) (w v : Vec K) :
    lassoLoss N y X alpha v = lassoLoss N y X alpha w + ∑ s ∈ Finset.range N, (X s ⬝ᵥ (v - w)) ^ 2
      + ∑ k, (alpha * (|v k| - |w k|) - (2 * ∑ s ∈ Finset.range N, X s k * (y s - X s ⬝ᵥ w)) * (v k - w k)) := by
  have e1 : ∑ s ∈ Finset.range N, (y s - X s ⬝ᵥ v) ^ 2 = ∑ s ∈ Finset.range N, (y s - X s ⬝ᵥ w) ^ 2
      + ∑ s ∈ Finset.range N, (X s ⬝ᵥ (v - w)) ^ 2 - 2 * ∑ s ∈ Finset.range N, (y s - X s ⬝ᵥ w) * (X s ⬝ᵥ (v - w)) := by
    rw [Finset.mul_sum, ← Finset.sum_add_distrib, ← Finset.sum_sub_distrib]
    refine Finset.sum_congr rfl fun s _ => ?_
    rw [dotProduct_sub]
    ring
  have e2 : ∑ s ∈ Finset.range N, (y s - X s ⬝ᵥ w) * (X s ⬝ᵥ (v - w))
      = ∑ k, (∑ s ∈ Finset.range N, X s k * (y s - X s ⬝ᵥ w)) * (v k - w k) := by
    simp only [Finset.sum_mul]
    rw [Finset.sum_comm]
    refine Finset.sum_congr rfl fun s _ => ?_
    have e0 : X s ⬝ᵥ (v - w) = ∑ k, X s k * (v k - w k) := rfl
    rw [e0, Finset.mul_sum]
    refine Finset.sum_congr rfl fun k _ => ?_
    ring
  unfold lassoLoss
  rw [e1, e2, Finset.sum_sub_distrib, ← Finset.mul_sum, Finset.sum_sub_distrib]
  simp only [mul_assoc]
  rw [← Finset.mul_sum]
  ring

theorem nonneg_of_small {a C δ : ℝ} (hδ : 0 < δ) (h : ∀ e, 0 < e → e ≤ δ → 0 ≤ e ^ 2 * C + e * a) : 0 ≤ a := by
  by_contra ha
  push Not at ha
  rcases le_or_gt C 0 with hC | hC
  · have := h δ hδ le_rfl
    nlinarith [sq_nonneg δ, mul_pos hδ (neg_pos.2 ha)]
  · have hpos : 0 < min δ (-a / (2 * C)) := lt_min hδ (by apply div_pos <;> linarith)
    have h1 := h _ hpos (min_le_left _ _)
    have h2 : min δ (-a / (2 * C)) * C ≤ -a / 2 := by
      calc min δ (-a / (2 * C)) * C ≤ (-a / (2 * C)) * C := mul_le_mul_of_nonneg_right (min_le_right _ _) hC.le
        _ = -a / 2 := by field_simp
    have h3 : 0 ≤ min δ (-a / (2 * C)) * C + a := by
      by_contra hc
      push Not at hc
      have : min δ (-a / (2 * C)) * (min δ (-a / (2 * C)) * C + a) < 0 := mul_neg_of_pos_of_neg hpos hc
      nlinarith
    linarith

/-- moving one weight -/
theorem lasso_move (N : ℕ) (y : ℕ → ℝ) (X : ℕ → Vec K) (alpha : ℝ) (w : Vec K) (k : Fin K) (e : ℝ) :
    lassoLoss N y X alpha (w + Pi.single k e) = lassoLoss N y X alpha w + e ^ 2 * ∑ s ∈ Finset.range N, X s k ^ 2
      + alpha * (|w k + e| - |w k|) - (2 * ∑ s ∈ Finset.range N, X s k * (y s - X s ⬝ᵥ w)) * e := by
  rw [lasso_expand N y X alpha w]
  have e1 : ∑ s ∈ Finset.range N, (X s ⬝ᵥ (w + Pi.single k e - w)) ^ 2 = e ^ 2 * ∑ s ∈ Finset.range N, X s k ^ 2 := by
    rw [Finset.mul_sum]
    refine Finset.sum_congr rfl fun s _ => ?_
    rw [add_sub_cancel_left, dotProduct_single]
    ring
  rw [e1, add_sub_assoc]
  congr 1
  rw [Finset.sum_eq_single k]
  · simp
  · intro j _ hj
    simp [Pi.single_eq_of_ne hj]
  · simp

end CovPred
