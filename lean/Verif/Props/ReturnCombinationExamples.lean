import Verif.Props.ReturnCombination4

/-
Concrete cases that meet the hypotheses of C113-C121.
-/
namespace CovPred
open Matrix

private theorem incN (T : ℕ) : Increasing T (fun t : ℕ => t) := fun _ _ h _ => h

/-- C113: two rows, one predictor; the regression goes through and the weight is not zero -/
example : ∃ w : Vec 1, getWeights ((List.range 2).map fun s : ℕ => (s : ℝ)) ((List.range 2).map fun _ => (fun _ => 1 : Vec 1)) (fun _ => 1) 1 500
    = .ok w ∧ w ≠ 0 := by
  have hs := C113_singular 2 (fun s : ℕ => (s : ℝ)) (fun _ => (fun _ => 1 : Vec 1)) (d := fun _ => 1) (fun _ => zero_le_one) (alpha := 1)
    zero_le_one 500
  cases h : getWeights ((List.range 2).map fun s : ℕ => (s : ℝ)) ((List.range 2).map fun _ => (fun _ => 1 : Vec 1)) (fun _ => 1) 1 500 with
  | error e =>
    exfalso
    have := hs.1 e h
    subst this
    obtain ⟨v, hv, _, h2⟩ := hs.2.1 h
    refine hv (funext fun k => ?_)
    simpa using h2 k
  | ok w =>
    refine ⟨w, rfl, ?_⟩
    rintro rfl
    have hopt := C113_optimal (fun _ => zero_le_one) zero_le_one h
    -- a small positive weight is better than none
    have hb : 0 < recencyWeight 500 2 0 ∧ 0 < recencyWeight 500 2 1 :=
      ⟨recencyWeight_pos 500 (by norm_num), recencyWeight_pos 500 (by norm_num)⟩
    have hsum := (C113_recency (hf := 500) (by norm_num) 2).2.2.1
    rw [Finset.sum_range_succ, Finset.sum_range_one] at hsum
    have := (hopt fun _ => recencyWeight 500 2 1 / 3).1
    unfold ridgeLoss at this
    simp only [Finset.sum_range_succ, Finset.sum_range_zero, dotProduct] at this
    simp at this
    push_cast at hsum
    nlinarith

/-- C113: a predictor that is always zero is singular -/
example : getWeights [1, 2] [(fun _ => 0 : Vec 1), fun _ => 0] (fun _ => 0) 1 500 = .error .linAlgError :=
  (C113_singular 2 (fun s => (s : ℝ) + 1) (fun _ => (fun _ => 0 : Vec 1)) (d := fun _ => 0) (fun _ => le_rfl) (alpha := 1)
    zero_le_one 500).2.2 ⟨fun _ => 1, by intro h; simpa using congrFun h 0, by simp, by simp⟩ |> fun h => by
      rw [← h]; norm_num [List.range_succ]

/-- C114, C115, C120: four rows of returns, three of predictions, memory 2 -/
example : ∃ r, combinatorFit (n := 1) (K := 1) (rowDict 4 (fun t : ℕ => t) fun s _ => (s : ℝ))
    (List.ofFn fun _ : Fin 1 => blockDict 1 3 (fun t : ℕ => t) fun s _ => (s : ℝ)) 2 1 = .ok r :=
  C114_positive_alpha (by norm_num) (incN 4) (by norm_num) _ (fun _ s _ => (s : ℝ)) (by norm_num) one_pos fun i k => ⟨1, by norm_num, by norm_num, by norm_num⟩

example : ∃ r, tuneAlpha (n := 1) (K := 1) (rowDict 4 (fun t : ℕ => t) fun s _ => (s : ℝ))
    (List.ofFn fun _ : Fin 1 => blockDict 1 3 (fun t : ℕ => t) fun s _ => (s : ℝ)) [1, 2] 2 = .ok r := by
  have key : ∀ a : ℝ, 0 < a → ∃ r, tuneOne (n := 1) (K := 1) (rowDict 4 (fun t : ℕ => t) fun s _ => (s : ℝ))
      (List.ofFn fun _ : Fin 1 => blockDict 1 3 (fun t : ℕ => t) fun s _ => (s : ℝ)) 2 a = .ok r := by
    intro a ha
    obtain ⟨⟨hats, ws⟩, h⟩ := C114_positive_alpha (n := 1) (K := 1) (by norm_num) (incN 4) (p := 1) (q := 3) (by norm_num) (fun s _ => (s : ℝ))
      (fun _ s _ => (s : ℝ)) (memory := 2) (by norm_num) ha fun i k => ⟨1, by norm_num, by norm_num, by norm_num⟩
    obtain ⟨w, _, hh, _⟩ := (combinatorFit_ok_iff (by norm_num) (incN 4) (by norm_num) _ _ (by norm_num) a hats ws).1 h
    unfold tuneOne
    rw [h]
    have hr : restrict (rowDict 4 (fun t : ℕ => t) fun s _ => (s : ℝ)) (hats.map Prod.fst)
        = .ok ((List.range' 3 1).map fun t => (t, fun _ : Fin 1 => (t : ℝ))) := by
      rw [hh, List.map_map]
      exact (restrict_ok_iff _ (List.range' 3 1) (fun t : ℕ => t) _).2
        ⟨fun t _ => (t : ℝ), fun t ht => by
          rw [List.mem_range'_1] at ht
          exact lookup_rows (incN 4) (fun s _ => (s : ℝ)) (by omega), rfl⟩
    change ∃ r, ((restrict _ _ : Except Err _) >>= _) = _
    rw [hr]
    exact ⟨_, rfl⟩
  obtain ⟨r1, h1⟩ := key 1 one_pos
  obtain ⟨r2, h2⟩ := key 2 two_pos
  unfold tuneAlpha
  rw [List.mapM_cons, h1, List.mapM_cons, h2]
  exact ⟨_, rfl⟩

/-- C117: a missing, a negative and a positive prediction -/
example : ∃ r : NRow (3 + 3), (featureEngineer [((0 : ℕ), (fun k => if k = 0 then none else if k = 1 then some (-2) else some 3 : NRow 3))])[0]? = some (0, r) ∧
    r 0 = none ∧ r 3 = none ∧ r 1 = some (0 : ℝ) ∧ r 4 = some (-2 : ℝ) ∧ r 2 = some (3 : ℝ) ∧ r 5 = some (0 : ℝ) := by
  obtain ⟨r, hr, hk⟩ := (C117_split [((0 : ℕ), (fun k => if k = 0 then none else if k = 1 then some (-2) else some 3 : NRow 3))]).2 0 _ _ rfl
  refine ⟨r, hr, (hk 0).1 rfl |>.1, (hk 0).1 rfl |>.2, ?_, ?_, ?_, ?_⟩
  · exact ((hk 1).2 (-2) rfl).1.trans (by norm_num)
  · exact ((hk 1).2 (-2) rfl).2.trans (by norm_num)
  · exact ((hk 2).2 3 rfl).1.trans (by norm_num)
  · exact ((hk 2).2 3 rfl).2.trans (by norm_num)

/-- C118: the columns of `ewma_predictors` meet the hypothesis of `C118_chain` -/
example : ∀ i : Fin 1, ∀ k : Fin 2, ∃ cols, ewmaPredictors (rowDict 4 (fun t : ℕ => t) fun s => (s : ℝ) + i) (List.ofFn ![5, 10]) = .ok cols ∧
    ((![5, 10] : Fin 2 → ℝ) k, blockDict 1 3 (fun t : ℕ => t) fun t => halflifeAverage ((![5, 10] : Fin 2 → ℝ) k) (fun s => (s : ℝ) + i) (t - 1)) ∈ cols := by
  intro i k
  obtain ⟨cols, h, hin, _⟩ := (C118_ewma 4 (fun t : ℕ => t) (fun s => (s : ℝ) + i) (List.ofFn ![5, 10])).2 (by
    intro h hh
    rw [List.mem_ofFn] at hh
    obtain ⟨j, rfl⟩ := hh
    fin_cases j <;> norm_num)
  exact ⟨cols, h, hin _ (List.mem_ofFn.2 ⟨k, rfl⟩)⟩

open Classical in
/-- an exact solver of the lasso problem -/
private noncomputable def exactLasso (K : ℕ) : LassoSolver K := fun y X alpha =>
  if h : ∃ w : Vec K, ∀ v, lassoLoss y.length (fun s => y.getD s 0) (fun s => X.getD s 0) alpha w
      ≤ lassoLoss y.length (fun s => y.getD s 0) (fun s => X.getD s 0) alpha v then .ok h.choose else .error .other

private theorem lasso_congr {K : ℕ} {N : ℕ} {y y' : ℕ → ℝ} {X X' : ℕ → Vec K} (hy : ∀ s < N, y s = y' s) (hX : ∀ s < N, X s = X' s)
    (alpha : ℝ) : lassoLoss N y X alpha = lassoLoss N y' X' alpha := by
  funext w
  unfold lassoLoss
  congr 1
  refine Finset.sum_congr rfl fun s hs => ?_
  rw [Finset.mem_range] at hs
  rw [hy s hs, hX s hs]

private theorem exactLasso_loss {K : ℕ} (N : ℕ) (y : ℕ → ℝ) (X : ℕ → Vec K) (alpha : ℝ) :
    lassoLoss ((List.range N).map y).length (fun s => ((List.range N).map y).getD s 0) (fun s => ((List.range N).map X).getD s 0) alpha
      = lassoLoss N y X alpha := by
  rw [List.length_map, List.length_range]
  apply lasso_congr
  · intro s hs
    simp [List.getD, hs]
  · intro s hs
    simp [List.getD, hs]

/-- C119: there is an exact solver, and with it `fit` goes through for every `alpha > 0` -/
example (K : ℕ) : LassoExact (exactLasso K) ∧ ∀ (T : ℕ) (y : ℕ → ℝ) (x : ℕ → Vec K) (memory : ℕ), 1 ≤ memory → ∀ alpha, 0 < alpha →
    ∃ r, oldFit (exactLasso K) memory alpha (rowDict T (fun t : ℕ => t) y) (rowDict T (fun t : ℕ => t) x) = .ok r := by
  constructor
  · intro N y X alpha w h
    unfold exactLasso at h
    rw [exactLasso_loss] at h
    split at h
    · rename_i hex
      rw [← Except.ok.inj h]
      exact hex.choose_spec
    · cases h
  · intro T y x memory hm alpha ha
    rw [(C119_variants (exactLasso K) (incN T) y x hm alpha).2]
    intro t _ _
    unfold exactLasso
    rw [exactLasso_loss, dif_pos (C119_exists _ _ _ ha)]
    exact ⟨_, rfl⟩

/-- C121: the third row for the returns 0, 1, 2, ... -/
example : ∃ d : Dict ℕ (Vec 1), constructRho (rowDict 3 (fun t : ℕ => t) fun s _ => (s : ℝ)) 2 = .ok d ∧
    d.lookup 2 = some fun _ => 2 * (1 / Real.sqrt 2) := by
  refine ⟨_, (C121_rho 3 (fun t : ℕ => t) (fun s _ => (s : ℝ)) 2).2 (by norm_num), ?_⟩
  rw [lookup_rows (incN 3) _ (t := 2) (by norm_num)]
  congr 1
  funext i
  rw [if_neg (by norm_num), C121_two_rows]
  norm_num

end CovPred
