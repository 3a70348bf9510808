import Verif.Props.ReturnCombination
import Verif.Lemmas.FromEwmas

/-
C117, C118: the predictors (return_combination.py).
-/
namespace CovPred
open Matrix
set_option linter.unusedSectionVars false

variable {τ : Type} [LinearOrder τ] {n K : ℕ}

/-! ### C117: `feature_engineer` -/

/-- **C117.** The rows keep their labels and their order; every prediction `v` becomes `max v 0` in the first half of the
columns and `min v 0` in the second half, and a missing one is missing in both. -/
theorem C117_split (rows : List (τ × NRow K)) :
    (featureEngineer rows).map Prod.fst = rows.map Prod.fst ∧
    ∀ (t : ℕ) (l : τ) (x : NRow K), rows[t]? = some (l, x) → ∃ r : NRow (K + K), (featureEngineer rows)[t]? = some (l, r) ∧ ∀ k,
      (x k = none → r (Fin.castAdd K k) = none ∧ r (Fin.natAdd K k) = none) ∧
      ∀ v, x k = some v → r (Fin.castAdd K k) = some (max v 0) ∧ r (Fin.natAdd K k) = some (min v 0) := by
  unfold featureEngineer
  refine ⟨by rw [List.map_map]; rfl, fun t l x h => ⟨_, by rw [List.getElem?_map, h]; rfl, fun k => ?_⟩⟩
  dsimp only
  rw [Fin.append_left, Fin.append_right]
  refine ⟨fun hk => by rw [hk]; exact ⟨rfl, rfl⟩, fun v hv => ?_⟩
  rw [hv]
  unfold dropNegative dropPositive
  dsimp only
  rcases lt_trichotomy v 0 with h | h | h
  · rw [if_pos h, if_neg (by linarith), max_eq_right h.le, min_eq_left h.le]
    exact ⟨rfl, rfl⟩
  · subst h
    simp
  · rw [if_neg (by linarith), if_pos h, max_eq_left h.le, min_eq_right h.le]
    exact ⟨rfl, rfl⟩

/-- **C117.** Nothing is lost: the two halves sum to the prediction, they have opposite signs, and at most one is nonzero; so
the combination `a * v` is the combination with both weights `a`. -/
theorem C117_lossless (rows : List (τ × NRow K)) {t : ℕ} {l : τ} {x : NRow K} (h : rows[t]? = some (l, x)) {k : Fin K} {v : ℝ}
    (hv : x k = some v) : ∃ (r : NRow (K + K)) (pos neg : ℝ), (featureEngineer rows)[t]? = some (l, r) ∧
      r (Fin.castAdd K k) = some pos ∧ r (Fin.natAdd K k) = some neg ∧
      pos + neg = v ∧ 0 ≤ pos ∧ neg ≤ 0 ∧ pos * neg = 0 ∧ ∀ a : ℝ, pos * a + neg * a = v * a := by
  obtain ⟨r, hr, hk⟩ := (C117_split rows).2 t l x h
  obtain ⟨h1, h2⟩ := (hk k).2 v hv
  refine ⟨r, _, _, hr, h1, h2, max_add_min v 0 |>.trans (add_zero v), le_max_right _ _, min_le_right _ _, ?_, fun a => ?_⟩
  · rcases le_total v 0 with h | h
    · rw [max_eq_right h, zero_mul]
    · rw [min_eq_right h, mul_zero]
  · rw [← add_mul, max_add_min, add_zero]

/-! ### C118: lagged and averaged returns -/

private theorem dictOf_fun {L A : Type} [DecidableEq L] (l : List L) (f : L → A) :
    (∀ a ∈ l, (dictOf (l.map fun a => (a, f a))).lookup a = some (f a)) ∧
    ((dictOf (l.map fun a => (a, f a))).map Prod.fst).Nodup ∧
    (∀ a, a ∈ (dictOf (l.map fun a => (a, f a))).map Prod.fst ↔ a ∈ l) := by
  obtain ⟨h1, h2, _⟩ := dictOf_keys (l.map fun a => (a, f a))
  have e : (l.map fun a => (a, f a)).map Prod.fst = l := by rw [List.map_map]; exact List.map_id l
  rw [e] at h2
  refine ⟨fun a ha => ?_, h1, h2⟩
  obtain ⟨⟨a', v⟩, hm, rfl⟩ := List.mem_map.1 ((h2 a).2 ha)
  have hv : v = f a' := by
    obtain ⟨pre, post, hl, _⟩ := dictOf_last _ _ _ hm
    have : (a', v) ∈ l.map fun a => (a, f a) := by rw [hl]; simp
    obtain ⟨b, _, hb⟩ := List.mem_map.1 this
    rw [Prod.mk.injEq] at hb
    rw [← hb.2, hb.1]
  rw [hv] at hm
  generalize dictOf (l.map fun a => (a, f a)) = d at h1 hm
  clear h2 hv e ha
  induction d with
  | nil => cases hm
  | cons p d ih =>
    rw [List.map_cons, List.nodup_cons] at h1
    rw [List.lookup_cons]
    rcases List.mem_cons.1 hm with rfl | h
    · simp
    · have : p.1 ≠ a' := fun e => h1.1 (by rw [e]; exact List.mem_map.2 ⟨_, h, rfl⟩)
      rw [beq_false_of_ne this.symm]
      exact ih h1.2 h

private theorem zip_maps_range {A B : Type} (l : List ℕ) (f : ℕ → A) (g : ℕ → B) :
    List.zip (l.map f) (l.map g) = l.map fun t => (f t, g t) := by
  rw [List.zip_map]
  induction l with
  | nil => rfl
  | cons a l ih => simp_all

/-- **C118.** `daily_predictors`: one column per different lag; on row `t` the column `lag` has the return of row `t - lag`,
and a missing value if there is no such row (or its return is missing). -/
theorem C118_daily (T : ℕ) (tm : ℕ → τ) (x : ℕ → Option ℝ) (lags : List Int) :
    (∀ lag ∈ lags, (dailyPredictors (rowDict T tm x) lags).lookup lag =
      some (rowDict T tm fun t => if lag ≤ t ∧ (t : Int) - lag < T then x ((t : Int) - lag).toNat else none)) ∧
    ((dailyPredictors (rowDict T tm x) lags).map Prod.fst).Nodup ∧
    ∀ lag, lag ∈ (dailyPredictors (rowDict T tm x) lags).map Prod.fst ↔ lag ∈ lags := by
  have e : dailyPredictors (rowDict T tm x) lags = dictOf (lags.map fun lag : Int => (lag,
      rowDict T tm fun t => if lag ≤ t ∧ (t : Int) - lag < T then x ((t : Int) - lag).toNat else none)) := by
    unfold dailyPredictors
    congr 1
    refine List.map_congr_left fun lag _ => ?_
    congr 1
    unfold rowDict shiftSeries
    rw [List.map_map, List.map_map, List.length_map, List.length_range, zip_maps_range]
    refine List.map_congr_left fun t _ => ?_
    simp only [Function.comp]
    congr 1
    by_cases h : (t : Int) < lag
    · rw [if_pos h, if_neg (by omega)]
    · rw [if_neg h]
      by_cases h2 : (t : Int) - lag < T
      · rw [if_pos ⟨by omega, h2⟩, List.getElem?_map, List.getElem?_range (by omega)]
        simp [Function.comp_def]
      · rw [if_neg (by omega), List.getElem?_eq_none (by simp; omega)]
        rfl
  rw [e]
  exact dictOf_fun lags _

/-- **C118.** For lags of at least one row the predictor of row `t` only depends on the returns before row `t`. -/
theorem C118_daily_causal {T T' : ℕ} {tm : ℕ → τ} (htm : Increasing T tm) (htm' : Increasing T' tm) (x x' : ℕ → Option ℝ)
    {lags : List Int} {lag : Int} (hl : lag ∈ lags) (h1 : 1 ≤ lag) {t : ℕ} (ht : t < T) (ht' : t < T') (hx : ∀ s < t, x s = x' s) :
    ∃ c c' : List (τ × Option ℝ), (dailyPredictors (rowDict T tm x) lags).lookup lag = some c ∧
      (dailyPredictors (rowDict T' tm x') lags).lookup lag = some c' ∧ ∃ v, c.lookup (tm t) = some v ∧ c'.lookup (tm t) = some v := by
  refine ⟨_, _, (C118_daily T tm x lags).1 lag hl, (C118_daily T' tm x' lags).1 lag hl, _, lookup_rows htm _ ht, ?_⟩
  rw [lookup_rows htm' _ ht']
  congr 1
  by_cases h : lag ≤ t
  · rw [if_pos ⟨h, by omega⟩, if_pos ⟨h, by omega⟩, hx _ (by omega)]
  · rw [if_neg (by omega), if_neg (by omega)]

/-- **C118.** `ewma_predictors`: `ValueError` if a half-life is not positive; otherwise one column per different half-life, with
the rows from the second one on; on row `t` it has the average of the returns before row `t`, where the weights halve every
half-life back in time. -/
theorem C118_ewma (T : ℕ) (tm : ℕ → τ) (x : ℕ → ℝ) (halflives : List ℝ) :
    ((∃ h ∈ halflives, h ≤ 0) → ewmaPredictors (rowDict T tm x) halflives = .error .valueError) ∧
    ((∀ h ∈ halflives, 0 < h) → ∃ cols : Dict ℝ (List (τ × ℝ)), ewmaPredictors (rowDict T tm x) halflives = .ok cols ∧
      (∀ h ∈ halflives, (h, blockDict 1 (T - 1) tm fun t => halflifeAverage h x (t - 1)) ∈ cols) ∧
      (cols.map Prod.fst).Nodup ∧ ∀ h, h ∈ cols.map Prod.fst ↔ h ∈ halflives) := by
  classical
  unfold ewmaPredictors
  refine ⟨fun h => if_pos h, fun hp => ?_⟩
  rw [if_neg (by push Not; exact hp)]
  have e : (halflives.map fun h => (h, List.zip ((rowDict T tm x).map Prod.fst).tail (pandasEwm h ((rowDict T tm x).map Prod.snd)).dropLast))
      = halflives.map fun h => (h, blockDict 1 (T - 1) tm fun t => halflifeAverage h x (t - 1)) := by
    refine List.map_congr_left fun h _ => ?_
    congr 1
    unfold rowDict blockDict
    rw [List.map_map, List.map_map]
    have e2 : (Prod.snd ∘ fun s => (tm s, x s)) = x := rfl
    have e1 : (Prod.fst ∘ fun s => (tm s, x s)) = tm := rfl
    rw [e1, e2, pandasEwm_spec]
    cases T with
    | zero => rfl
    | succ T =>
      rw [Nat.add_sub_cancel]
      have a1 : ((List.range (T + 1)).map tm).tail = (List.range T).map fun s => tm (1 + s) := by
        rw [List.range_succ_eq_map, List.map_cons, List.tail_cons, List.map_map]
        refine List.map_congr_left fun s _ => ?_
        simp [Nat.add_comm]
      have a2 : ((List.range (T + 1)).map (halflifeAverage h x)).dropLast = (List.range T).map (halflifeAverage h x) := by
        rw [List.range_succ, List.map_append, List.map_cons, List.map_nil, List.dropLast_concat]
      rw [a1, a2, zip_maps_range, List.range'_eq_map_range, List.map_map]
      refine List.map_congr_left fun s _ => ?_
      simp only [Function.comp, Nat.add_sub_cancel_left]
  rw [e]
  obtain ⟨h1, h2, h3⟩ := dictOf_fun halflives fun h => blockDict 1 (T - 1) tm fun t => halflifeAverage h x (t - 1)
  refine ⟨_, rfl, fun h hh => ?_, h2, h3⟩
  have := h1 h hh
  generalize dictOf (halflives.map fun h => (h, blockDict 1 (T - 1) tm fun t => halflifeAverage h x (t - 1))) = d at this
  generalize (blockDict 1 (T - 1) tm fun t => halflifeAverage h x (t - 1)) = r at this
  induction d with
  | nil => cases this
  | cons p d ih =>
    rw [List.lookup_cons] at this
    by_cases hp : h = p.1
    · subst hp
      simp only [BEq.rfl] at this
      rw [← Option.some.inj this]
      exact List.mem_cons_self
    · rw [beq_false_of_ne hp] at this
      exact List.mem_cons_of_mem _ (ih this)

/-- **C118.** The whole chain: predictors made by `ewma_predictors` from the returns of each asset, combined by `fit`. The
predicted return of row `t` only depends on the returns before row `t`: two histories that agree there get the same
prediction, however they continue. -/
theorem C118_chain (hn : 0 < n) {T T' : ℕ} {tm : ℕ → τ} (htm : Increasing T tm) (htm' : Increasing T' tm) (y y' : ℕ → Vec n)
    (h : Fin K → ℝ) (x x' : Fin n → ℕ → Vec K) (hT : 1 ≤ T) (hT' : 1 ≤ T')
    (hx : ∀ i k, ∃ cols, ewmaPredictors (rowDict T tm fun s => y s i) (List.ofFn h) = .ok cols ∧
      (h k, blockDict 1 (T - 1) tm fun t => x i t k) ∈ cols)
    (hx' : ∀ i k, ∃ cols, ewmaPredictors (rowDict T' tm fun s => y' s i) (List.ofFn h) = .ok cols ∧
      (h k, blockDict 1 (T' - 1) tm fun t => x' i t k) ∈ cols)
    {memory : ℕ} (hm : 1 ≤ memory) {alpha : ℝ} {hats hats' : Dict τ (Vec n)} {ws ws' : Dict τ (Fin n → Vec K)}
    (hfit : combinatorFit (rowDict T tm y) (List.ofFn fun i => blockDict 1 (T - 1) tm (x i)) memory alpha = .ok (hats, ws))
    (hfit' : combinatorFit (rowDict T' tm y') (List.ofFn fun i => blockDict 1 (T' - 1) tm (x' i)) memory alpha = .ok (hats', ws'))
    {t : ℕ} (ht : t < T) (ht' : t < T') (hy : ∀ s < t, y s = y' s) {r r' : Vec n} (hr : (tm t, r) ∈ hats) (hr' : (tm t, r') ∈ hats') :
    r = r' := by
  have col : ∀ {T : ℕ}, Increasing T tm → 1 ≤ T → ∀ (y : ℕ → Vec n) (x : Fin n → ℕ → Vec K),
      (∀ i k, ∃ cols, ewmaPredictors (rowDict T tm fun s => y s i) (List.ofFn h) = .ok cols ∧
        (h k, blockDict 1 (T - 1) tm fun t => x i t k) ∈ cols) →
      ∀ i k s, 1 ≤ s → s < T → x i s k = halflifeAverage (h k) (fun u => y u i) (s - 1) := by
    intro T hT h1 y x hx i k s hs hsT
    obtain ⟨cols, hc, hmem⟩ := hx i k
    have hpos : ∀ v ∈ List.ofFn h, 0 < v := by
      by_contra hcon
      push Not at hcon
      rw [(C118_ewma T tm (fun s => y s i) (List.ofFn h)).1 hcon] at hc
      cases hc
    obtain ⟨cols', hc', hin, hnd, _⟩ := (C118_ewma T tm (fun s => y s i) (List.ofFn h)).2 hpos
    rw [hc] at hc'
    cases hc'
    have hin := hin (h k) (List.mem_ofFn.2 ⟨k, rfl⟩)
    have : (blockDict 1 (T - 1) tm fun t => x i t k) = blockDict 1 (T - 1) tm fun t => halflifeAverage (h k) (fun u => y u i) (t - 1) := by
      have := List.inj_on_of_nodup_map hnd hmem hin rfl
      exact congrArg Prod.snd this
    have := congrArg (fun d => List.lookup (tm s) d) this
    beta_reduce at this
    rw [lookup_block hT (by omega) _ hs (by omega), lookup_block hT (by omega) _ hs (by omega)] at this
    exact Option.some.inj this
  have hxx : ∀ i, ∀ s, 1 ≤ s → s ≤ t → x i s = x' i s := by
    intro i s h1 h2
    funext k
    rw [col htm hT y x hx i k s h1 (by omega), col htm' hT' y' x' hx' i k s h1 (by omega)]
    unfold halflifeAverage
    congr 1
    refine Finset.sum_congr rfl fun u hu => ?_
    rw [Finset.mem_range] at hu
    dsimp only
    rw [hy u (by omega)]
  -- row 0 has no predictors; changing it changes nothing
  have fix : ∀ (T : ℕ) (x : Fin n → ℕ → Vec K), (List.ofFn fun i => blockDict 1 (T - 1) tm (x i)) =
      List.ofFn fun i => blockDict 1 (T - 1) tm fun s => if s = 0 then 0 else x i s := by
    intro T x
    congr 1
    funext i
    unfold blockDict
    refine List.map_congr_left fun s hs => ?_
    rw [List.mem_range'_1] at hs
    dsimp only
    rw [if_neg (by omega)]
  rw [fix T x] at hfit
  rw [fix T' x'] at hfit'
  refine C115_no_lookahead hn htm htm' (by omega) (by omega) y y' _ _ hm hfit hfit' ht ht' hy (fun i s hs => ?_) hr hr'
  split
  · rfl
  · exact hxx i s (by omega) hs

end CovPred
