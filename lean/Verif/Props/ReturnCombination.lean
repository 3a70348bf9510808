import Verif.Lemmas.ReturnCombination
import Verif.Props.FactorModel

/-
C113-C116: `ReturnCombinator` (return_combination.py).
-/
namespace CovPred
open Matrix
set_option linter.unusedSectionVars false

variable {τ : Type} [LinearOrder τ] {n K : ℕ}

/-! ### C113: one regression -/

/-- **C113.** The weights of the rows: positive, they sum to the number of rows, a row `hf` rows older weighs half as much,
and no row weighs more than a more recent one. -/
theorem C113_recency {hf : ℝ} (hhf : 0 < hf) (N : ℕ) :
    decayWeights hf N = (List.range N).map (recencyWeight hf N) ∧
    (∀ s < N, 0 < recencyWeight hf N s) ∧ ∑ s ∈ Finset.range N, recencyWeight hf N s = N ∧
    (∀ s h : ℕ, (h : ℝ) = hf → s + h < N → recencyWeight hf N s = recencyWeight hf N (s + h) / 2) ∧
    ∀ s t, s ≤ t → t < N → recencyWeight hf N s ≤ recencyWeight hf N t := by
  refine ⟨decayWeights_eq hf N, fun s hs => recencyWeight_pos hf hs, ?_, ?_, ?_⟩
  · rcases Nat.eq_zero_or_pos N with rfl | hN
    · simp
    have hpos : 0 < ∑ u ∈ Finset.range N, (2 : ℝ) ^ (-(u : ℝ) / hf) :=
      Finset.sum_pos (fun u _ => Real.rpow_pos_of_pos (by norm_num) _) ⟨0, by simp; omega⟩
    unfold recencyWeight
    rw [← Finset.sum_div, ← Finset.mul_sum]
    rw [Finset.sum_range_reflect (fun u : ℕ => (2 : ℝ) ^ (-(u : ℝ) / hf)) N]
    rw [mul_div_assoc, div_self hpos.ne', mul_one]
  · intro s h hh hs
    unfold recencyWeight
    have e : (2 : ℝ) ^ (-((N - 1 - s : ℕ) : ℝ) / hf) = (2 : ℝ) ^ (-((N - 1 - (s + h) : ℕ) : ℝ) / hf) / 2 := by
      have : -((N - 1 - s : ℕ) : ℝ) / hf = -((N - 1 - (s + h) : ℕ) : ℝ) / hf - 1 := by
        have hc : ((N - 1 - s : ℕ) : ℝ) = ((N - 1 - (s + h) : ℕ) : ℝ) + hf := by
          rw [← hh]
          exact_mod_cast (by omega : N - 1 - s = N - 1 - (s + h) + h)
        rw [hc]
        field_simp
        ring
      rw [this, Real.rpow_sub (by norm_num), Real.rpow_one]
    rw [e]
    ring
  · intro s t hst ht
    unfold recencyWeight
    have hpos : 0 ≤ ∑ u ∈ Finset.range N, (2 : ℝ) ^ (-(u : ℝ) / hf) :=
      Finset.sum_nonneg fun u _ => (Real.rpow_pos_of_pos (by norm_num) _).le
    refine div_le_div_of_nonneg_right (mul_le_mul_of_nonneg_left ?_ (Nat.cast_nonneg _)) hpos
    apply Real.rpow_le_rpow_of_exponent_le (by norm_num)
    refine div_le_div_of_nonneg_right (neg_le_neg ?_) hhf.le
    exact_mod_cast (by omega : N - 1 - t ≤ N - 1 - s)

private theorem nonneg_parts {N : ℕ} {b : ℕ → ℝ} (hb : ∀ s < N, 0 < b s) (X : ℕ → Vec K) {alpha : ℝ} (ha : 0 ≤ alpha) {d : Vec K}
    (hd : ∀ k, 0 ≤ d k) (v : Vec K) :
    0 ≤ ∑ s ∈ Finset.range N, b s * (X s ⬝ᵥ v) ^ 2 + alpha * ∑ k, d k * v k ^ 2 ∧
    (∑ s ∈ Finset.range N, b s * (X s ⬝ᵥ v) ^ 2 + alpha * ∑ k, d k * v k ^ 2 = 0 ↔
      (∀ s < N, X s ⬝ᵥ v = 0) ∧ ∀ k, alpha * d k * v k = 0) := by
  have h1 : ∀ s ∈ Finset.range N, 0 ≤ b s * (X s ⬝ᵥ v) ^ 2 := fun s hs =>
    mul_nonneg (hb s (Finset.mem_range.1 hs)).le (sq_nonneg _)
  have h2 : ∀ k ∈ Finset.univ, 0 ≤ alpha * (d k * v k ^ 2) := fun k _ => mul_nonneg ha (mul_nonneg (hd k) (sq_nonneg _))
  rw [Finset.mul_sum]
  have s1 := Finset.sum_nonneg h1
  have s2 := Finset.sum_nonneg h2
  refine ⟨add_nonneg s1 s2, ?_⟩
  rw [add_eq_zero_iff_of_nonneg s1 s2, Finset.sum_eq_zero_iff_of_nonneg h1, Finset.sum_eq_zero_iff_of_nonneg h2]
  constructor
  · rintro ⟨e1, e2⟩
    refine ⟨fun s hs => ?_, fun k => ?_⟩
    · rcases mul_eq_zero.1 (e1 s (Finset.mem_range.2 hs)) with h | h
      · exact absurd h (hb s hs).ne'
      · exact pow_eq_zero_iff (two_ne_zero) |>.1 h
    · have := e2 k (Finset.mem_univ k)
      rcases mul_eq_zero.1 this with h | h
      · rw [h]; ring
      · rcases mul_eq_zero.1 h with h | h
        · rw [h]; ring
        · rw [pow_eq_zero_iff (two_ne_zero) |>.1 h]; ring
  · rintro ⟨e1, e2⟩
    refine ⟨fun s hs => by rw [e1 s (Finset.mem_range.1 hs)]; ring, fun k _ => ?_⟩
    have := e2 k
    calc alpha * (d k * v k ^ 2) = (alpha * d k * v k) * v k := by ring
      _ = 0 := by rw [this, zero_mul]

private theorem det_zero_iff {N : ℕ} {b : ℕ → ℝ} (hb : ∀ s < N, 0 < b s) (X : ℕ → Vec K) {alpha : ℝ} (ha : 0 ≤ alpha) {d : Vec K}
    (hd : ∀ k, 0 ≤ d k) :
    (ridgeMat N b X alpha d).det = 0 ↔ ∃ v, v ≠ 0 ∧ (∀ s < N, X s ⬝ᵥ v = 0) ∧ ∀ k, alpha * d k * v k = 0 := by
  rw [← Matrix.exists_mulVec_eq_zero_iff]
  refine exists_congr fun v => and_congr_right fun _ => ?_
  constructor
  · intro h
    apply (nonneg_parts hb X ha hd v).2.1
    rw [← ridge_quad, h, dotProduct_zero]
  · rintro ⟨h1, h2⟩
    funext k
    rw [ridgeMat_mulVec, h2 k, Pi.zero_apply, add_zero]
    exact Finset.sum_eq_zero fun s hs => by rw [h1 s (Finset.mem_range.1 hs)]; ring

/-- **C113.** The weights are the one and only minimiser of the weighted, penalised squared error. -/
theorem C113_optimal {N : ℕ} {y : ℕ → ℝ} {X : ℕ → Vec K} {d : Vec K} (hd : ∀ k, 0 ≤ d k) {alpha : ℝ} (ha : 0 ≤ alpha) {hf : ℝ}
    {w : Vec K} (h : getWeights ((List.range N).map y) ((List.range N).map X) d alpha hf = .ok w) :
    ∀ v, ridgeLoss N (recencyWeight hf N) y X alpha d w ≤ ridgeLoss N (recencyWeight hf N) y X alpha d v ∧
      (ridgeLoss N (recencyWeight hf N) y X alpha d v ≤ ridgeLoss N (recencyWeight hf N) y X alpha d w → v = w) := by
  intro v
  rw [getWeights_eq] at h
  split at h
  · cases h
  rename_i hdet
  have hb : ∀ s < N, 0 < recencyWeight hf N s := fun s hs => recencyWeight_pos hf hs
  have hw := Except.ok.inj h
  have hsys : ridgeMat N (recencyWeight hf N) X alpha d *ᵥ w = ridgeVec N (recencyWeight hf N) y X := by
    rw [← hw, Matrix.mulVec_mulVec, Matrix.mul_nonsing_inv _ (isUnit_iff_ne_zero.2 hdet), Matrix.one_mulVec]
  rw [ridge_expand N _ y X alpha d w v hsys]
  obtain ⟨h1, h2⟩ := nonneg_parts hb X ha hd (v - w)
  refine ⟨by linarith, fun hle => ?_⟩
  have h0 := h2.1 (le_antisymm (by linarith) h1)
  by_contra hne
  exact hdet ((det_zero_iff hb X ha hd).2 ⟨v - w, sub_ne_zero.2 hne, h0.1, h0.2⟩)

/-- **C113.** The regression fails exactly if some combination of the predictors vanishes on all rows and is not
penalised; it raises `LinAlgError`. -/
theorem C113_singular (N : ℕ) (y : ℕ → ℝ) (X : ℕ → Vec K) {d : Vec K} (hd : ∀ k, 0 ≤ d k) {alpha : ℝ} (ha : 0 ≤ alpha) (hf : ℝ) :
    (∀ e, getWeights ((List.range N).map y) ((List.range N).map X) d alpha hf = .error e → e = .linAlgError) ∧
    (getWeights ((List.range N).map y) ((List.range N).map X) d alpha hf = .error .linAlgError ↔
      ∃ v, v ≠ 0 ∧ (∀ s < N, X s ⬝ᵥ v = 0) ∧ ∀ k, alpha * d k * v k = 0) := by
  rw [getWeights_eq, ← det_zero_iff (fun s hs => recencyWeight_pos hf hs) X ha hd]
  constructor
  · intro e h
    split at h
    · exact (Except.error.inj h).symm
    · cases h
  · split <;> simp_all

/-- **C113.** The number of returns must be the number of rows of predictions. -/
theorem C113_lengths (y : List ℝ) (X : List (Vec K)) (h : y.length ≠ X.length) (d : Vec K) (alpha hf : ℝ) :
    getWeights y X d alpha hf = .error .valueError := by
  unfold getWeights
  dsimp only
  rw [if_pos h]

/-! ### C114: `fit` -/

theorem penalty_nonneg (x : ℕ → Vec K) (p t : ℕ) (k : Fin K) : 0 ≤ penalty x p t k := by
  unfold penalty decayAverage
  apply div_nonneg
  · exact Finset.sum_nonneg fun u _ => mul_nonneg (by positivity) (sq_nonneg _)
  · exact Finset.sum_nonneg fun u _ => by positivity

theorem penalty_pos_iff (x : ℕ → Vec K) (p t : ℕ) (h : p < t) (k : Fin K) : 0 < penalty x p t k ↔ ∃ u, p ≤ u ∧ u < t ∧ x u k ≠ 0 := by
  have hden : 0 < ∑ u ∈ Finset.range (t - 1 - p + 1), (250 / 251 : ℝ) ^ (t - 1 - p - u) :=
    Finset.sum_pos (fun u _ => by positivity) ⟨0, by simp⟩
  unfold penalty decayAverage
  rw [div_pos_iff_of_pos_right hden]
  constructor
  · intro h0
    obtain ⟨u, hu, hpos⟩ := Finset.exists_lt_of_sum_lt (s := Finset.range (t - 1 - p + 1)) (f := fun _ => (0 : ℝ))
      (g := fun u => (250 / 251 : ℝ) ^ (t - 1 - p - u) * x (p + u) k ^ 2) (by simpa using h0)
    rw [Finset.mem_range] at hu
    refine ⟨p + u, by omega, by omega, fun hz => ?_⟩
    rw [hz] at hpos
    norm_num at hpos
  · rintro ⟨u, h1, h2, h3⟩
    refine Finset.sum_pos' (fun v _ => mul_nonneg (by positivity) (sq_nonneg _)) ⟨u - p, ?_, ?_⟩
    · rw [Finset.mem_range]; omega
    · dsimp only
      rw [show p + (u - p) = u by omega]
      have : 0 < x u k ^ 2 := by positivity
      positivity

/-- **C114.** What `fit` returns, for predictions on consecutive rows `p, ..., p + q - 1` of the returns: one prediction per
row from `p + memory` on, in order; on row `t` the predicted return of asset `i` is the combination of its predictors of
that row with weights that solve the ridge regression over the `memory` rows before `t`. -/
theorem C114_fit (hn : 0 < n) {T : ℕ} {tm : ℕ → τ} (htm : Increasing T tm) {p q : ℕ} (hpq : p + q ≤ T) (y : ℕ → Vec n)
    (x : Fin n → ℕ → Vec K) {memory : ℕ} (hm : 1 ≤ memory) {alpha : ℝ} (ha : 0 ≤ alpha) {hats : Dict τ (Vec n)}
    {ws : Dict τ (Fin n → Vec K)}
    (h : combinatorFit (rowDict T tm y) (List.ofFn fun i => blockDict p q tm (x i)) memory alpha = .ok (hats, ws)) :
    ∃ w : ℕ → Fin n → Vec K,
      ws = blockDict (p + memory) (q - memory) tm w ∧
      hats = blockDict (p + memory) (q - memory) tm (fun t i => x i t ⬝ᵥ w t i) ∧
      ∀ t, p + memory ≤ t → t < p + q → ∀ i, IsRidge (fun s => y s i) (x i) p memory alpha t (w t i) ∧
        ∀ v, IsRidge (fun s => y s i) (x i) p memory alpha t v → v = w t i := by
  obtain ⟨w, hw, rfl, rfl⟩ := (combinatorFit_ok_iff hn htm hpq y x hm alpha hats ws).1 h
  refine ⟨w, rfl, rfl, fun t h1 h2 i => ?_⟩
  have hwt := hw t (by rw [List.mem_range'_1]; omega) i
  have hopt := C113_optimal (fun k => penalty_nonneg (x i) p t k) ha hwt
  exact ⟨fun v => (hopt v).1, fun v hv => (hopt v).2 (hv (w t i))⟩

/-- **C114.** `fit` goes through exactly if on no row a combination of the predictors of an asset vanishes on the whole
window without being penalised. -/
theorem C114_success (hn : 0 < n) {T : ℕ} {tm : ℕ → τ} (htm : Increasing T tm) {p q : ℕ} (hpq : p + q ≤ T) (y : ℕ → Vec n)
    (x : Fin n → ℕ → Vec K) {memory : ℕ} (hm : 1 ≤ memory) {alpha : ℝ} (ha : 0 ≤ alpha) :
    (∃ r, combinatorFit (rowDict T tm y) (List.ofFn fun i => blockDict p q tm (x i)) memory alpha = .ok r) ↔
      ∀ t, p + memory ≤ t → t < p + q → ∀ i, ∀ v : Vec K,
        (∀ s, t - memory ≤ s → s < t → x i s ⬝ᵥ v = 0) → (∀ k, alpha * penalty (x i) p t k * v k = 0) → v = 0 := by
  have key : ∀ t i, p + memory ≤ t → ((∃ w, windowWeights (fun s => y s i) (x i) p memory alpha t = .ok w) ↔
      ∀ v : Vec K, (∀ s, t - memory ≤ s → s < t → x i s ⬝ᵥ v = 0) → (∀ k, alpha * penalty (x i) p t k * v k = 0) → v = 0) := by
    intro t i ht
    have hs := (C113_singular memory (fun s => y (t - memory + s) i) (fun s => x i (t - memory + s))
      (fun k => penalty_nonneg (x i) p t k) ha 500)
    constructor
    · rintro ⟨w, hw⟩ v h1 h2
      by_contra hne
      have := hs.2.2 ⟨v, hne, fun s hs => h1 _ (by omega) (by omega), h2⟩
      unfold windowWeights at hw
      rw [this] at hw
      cases hw
    · intro hv
      cases hw : windowWeights (fun s => y s i) (x i) p memory alpha t with
      | ok w => exact ⟨w, rfl⟩
      | error e =>
        exfalso
        have he := hs.1 e hw
        subst he
        obtain ⟨v, hne, h1, h2⟩ := hs.2.1 hw
        refine hne (hv v (fun s h3 h4 => ?_) h2)
        have := h1 (s - (t - memory)) (by omega)
        rwa [show t - memory + (s - (t - memory)) = s by omega] at this
  constructor
  · rintro ⟨⟨hats, ws⟩, h⟩ t h1 h2 i
    obtain ⟨w, hw, _⟩ := (combinatorFit_ok_iff hn htm hpq y x hm alpha hats ws).1 h
    exact (key t i h1).1 ⟨_, hw t (by rw [List.mem_range'_1]; omega) i⟩
  · intro h
    have : ∀ t i, ∃ w, p + memory ≤ t → t < p + q → windowWeights (fun s => y s i) (x i) p memory alpha t = .ok w := by
      intro t i
      by_cases ht : p + memory ≤ t ∧ t < p + q
      · obtain ⟨w, hw⟩ := (key t i ht.1).2 (h t ht.1 ht.2 i)
        exact ⟨w, fun _ _ => hw⟩
      · exact ⟨0, fun h1 h2 => absurd ⟨h1, h2⟩ ht⟩
    choose w hw using this
    exact ⟨_, (combinatorFit_ok_iff hn htm hpq y x hm alpha _ _).2
      ⟨w, fun t ht i => by rw [List.mem_range'_1] at ht; exact hw t i (by omega) (by omega), rfl, rfl⟩⟩

/-- **C114.** `fit` only accepts predictors with the same index, whose dates are all dates of the returns, one predictor per
asset; predictors with one index that has a date without returns raise `AssertionError`. -/
theorem C114_rejects (returns : Dict τ (Vec n)) (preds : List (Dict τ (Vec K))) (memory : ℕ) (alpha : ℝ) :
    (∀ r, combinatorFit returns preds memory alpha = .ok r →
      preds.length = n ∧ ∃ times : List τ, (∀ p ∈ preds, p.map Prod.fst = times) ∧ ∀ t ∈ times, t ∈ returns.map Prod.fst) ∧
    (∀ times : List τ, preds ≠ [] → (∀ p ∈ preds, p.map Prod.fst = times) → (∃ t ∈ times, t ∉ returns.map Prod.fst) →
      combinatorFit returns preds memory alpha = .error .assertionError) := by
  have same : ∀ a b : List τ, sameIndex a b = .ok () ↔ b = a := by
    intro a b
    unfold sameIndex
    by_cases h : a = b
    · subst h; simp
    · by_cases hl : a.length = b.length <;> simp [h, hl, Ne.symm h] <;> exact fun e => h e.symm
  cases preds with
  | nil => exact ⟨fun r h => (by cases h), fun _ h => absurd rfl h⟩
  | cons p0 l =>
    unfold combinatorFit
    dsimp only
    constructor
    · intro r h
      rw [bind_ok_iff] at h
      obtain ⟨us, hu, h⟩ := h
      rw [mapM_ok_iff_forall₂] at hu
      split at h
      · cases h
      · rename_i ht
        push Not at ht
        rw [bind_ok_iff] at h
        obtain ⟨ws, _, h⟩ := h
        split at h
        · cases h
        · rename_i hlen
          push Not at hlen
          refine ⟨hlen, p0.map Prod.fst, fun p hp => ?_, ht⟩
          obtain ⟨u, _, hu⟩ := forall₂_mem_left hu hp
          exact (same _ _).1 hu
    · intro times _ hidx hex
      have e := mapM_ok_of (fun p : Dict τ (Vec K) => sameIndex (p0.map Prod.fst) (p.map Prod.fst)) (fun _ => ()) (p0 :: l) (fun p hp => by
        rw [(same _ _).2]
        rw [hidx p hp, hidx p0 (by simp)])
      rw [e]
      change (if _ then _ else _ : Except Err _) = _
      rw [if_pos]
      push Not
      rw [hidx p0 (by simp)]
      exact hex

/-- **C114.** With a positive `alpha`, `fit` goes through if every predictor has been nonzero once before the first
predicted row. -/
theorem C114_positive_alpha (hn : 0 < n) {T : ℕ} {tm : ℕ → τ} (htm : Increasing T tm) {p q : ℕ} (hpq : p + q ≤ T) (y : ℕ → Vec n)
    (x : Fin n → ℕ → Vec K) {memory : ℕ} (hm : 1 ≤ memory) {alpha : ℝ} (ha : 0 < alpha)
    (hx : ∀ i k, ∃ u, p ≤ u ∧ u < p + memory ∧ x i u k ≠ 0) :
    ∃ r, combinatorFit (rowDict T tm y) (List.ofFn fun i => blockDict p q tm (x i)) memory alpha = .ok r := by
  rw [C114_success hn htm hpq y x hm ha.le]
  intro t h1 h2 i v _ hv
  funext k
  obtain ⟨u, h3, h4, h5⟩ := hx i k
  have hp : 0 < penalty (x i) p t k := (penalty_pos_iff (x i) p t (by omega) k).2 ⟨u, h3, by omega, h5⟩
  rcases mul_eq_zero.1 (hv k) with h | h
  · exact absurd h (by positivity)
  · exact h

/-! ### C115: no look-ahead -/

/-- **C115.** If two data sets agree on all predictions up to row `t` and all returns before row `t`, the predicted returns
of the two fits for row `t` are equal, however the two continue (and whatever the returns of row `t` are). -/
theorem C115_no_lookahead (hn : 0 < n) {T T' : ℕ} {tm : ℕ → τ} (htm : Increasing T tm) (htm' : Increasing T' tm) {p q q' : ℕ}
    (hpq : p + q ≤ T) (hpq' : p + q' ≤ T') (y y' : ℕ → Vec n) (x x' : Fin n → ℕ → Vec K) {memory : ℕ} (hm : 1 ≤ memory) {alpha : ℝ}
    {hats hats' : Dict τ (Vec n)} {ws ws' : Dict τ (Fin n → Vec K)}
    (h : combinatorFit (rowDict T tm y) (List.ofFn fun i => blockDict p q tm (x i)) memory alpha = .ok (hats, ws))
    (h' : combinatorFit (rowDict T' tm y') (List.ofFn fun i => blockDict p q' tm (x' i)) memory alpha = .ok (hats', ws'))
    {t : ℕ} (ht : t < T) (ht' : t < T') (hy : ∀ s < t, y s = y' s) (hx : ∀ i, ∀ s ≤ t, x i s = x' i s) {r r' : Vec n} (hr : (tm t, r) ∈ hats)
    (hr' : (tm t, r') ∈ hats') : r = r' := by
  have inj : ∀ {T : ℕ}, Increasing T tm → ∀ s u, s < T → u < T → tm s = tm u → s = u := by
    intro T hT s u hs hu e
    rcases lt_trichotomy s u with hl | he | hg
    · exact absurd e (hT s u hl hu).ne
    · exact he
    · exact absurd e (hT u s hg hs).ne'
  obtain ⟨w, hw, rfl, rfl⟩ := (combinatorFit_ok_iff hn htm hpq y x hm alpha hats ws).1 h
  obtain ⟨w', hw', rfl, rfl⟩ := (combinatorFit_ok_iff hn htm' hpq' y' x' hm alpha hats' ws').1 h'
  obtain ⟨s, hs, e⟩ := List.mem_map.1 hr
  obtain ⟨s', hs', e'⟩ := List.mem_map.1 hr'
  rw [List.mem_range'_1] at hs hs'
  have hst : s = t := inj htm s t (by omega) ht (congrArg Prod.fst e)
  have hst' : s' = t := inj htm' s' t (by omega) ht' (congrArg Prod.fst e')
  subst hst
  subst hst'
  have e2 := congrArg Prod.snd e
  have e2' := congrArg Prod.snd e'
  dsimp only at e2 e2'
  rw [← e2, ← e2']
  funext i
  have hwin : windowWeights (fun u => y u i) (x i) p memory alpha s' = windowWeights (fun u => y' u i) (x' i) p memory alpha s' := by
    have hpen : penalty (x i) p s' = penalty (x' i) p s' := by
      funext k
      unfold penalty decayAverage
      congr 1
      refine Finset.sum_congr rfl fun u hu => ?_
      rw [Finset.mem_range] at hu
      dsimp only
      rw [hx i (p + u) (by omega)]
    unfold windowWeights
    rw [hpen]
    congr 1
    · refine List.map_congr_left fun u hu => ?_
      rw [List.mem_range] at hu
      dsimp only
      rw [hy (s' - memory + u) (by omega)]
    · refine List.map_congr_left fun u hu => ?_
      rw [List.mem_range] at hu
      rw [hx i (s' - memory + u) (by omega)]
  have h1 := hw s' (by rw [List.mem_range'_1]; omega) i
  have h2 := hw' s' (by rw [List.mem_range'_1]; omega) i
  rw [hwin, h2] at h1
  rw [hx i s' le_rfl, Except.ok.inj h1]

/-! ### C116: the scales -/

/-- **C116.** The parameter called `halflife` is used as a centre of mass: the penalty of a predictor is the average of its
past squares with weights that shrink by the factor 250/251 per row. A row's weight is halved after 173 to 174 rows, and
after the 250 rows of the nominal half-life less than 37% of it is left. -/
theorem C116_scales {T : ℕ} {tm : ℕ → τ} (htm : Increasing T tm) (x : ℕ → Vec K) :
    (∀ t, 0 < t → t < T → ∃ d : Vec K, (getScales (rowDict T tm x)).lookup (tm t) = some (some d) ∧ ∀ k,
      d k = (∑ u ∈ Finset.range t, (250 / 251 : ℝ) ^ (t - 1 - u) * x u k ^ 2) / ∑ u ∈ Finset.range t, (250 / 251 : ℝ) ^ (t - 1 - u)) ∧
    (0 < T → (getScales (rowDict T tm x)).lookup (tm 0) = some none) ∧
    (250 / 251 : ℝ) ^ 174 < 1 / 2 ∧ (1 / 2 : ℝ) < (250 / 251) ^ 173 ∧ (250 / 251 : ℝ) ^ 250 < 37 / 100 := by
  refine ⟨fun t h0 hT => ⟨penalty x 0 t, ?_, fun k => ?_⟩, fun hT => ?_, by norm_num, by norm_num, by norm_num⟩
  · rw [← blockDict_zero]
    exact getScales_lookup htm (by omega) x h0 (by omega)
  · unfold penalty decayAverage
    rw [show t - 1 - 0 + 1 = t by omega]
    simp only [zero_add, Nat.sub_zero]
  · unfold getScales
    obtain ⟨N, rfl⟩ : ∃ N, T = N + 1 := ⟨T - 1, by omega⟩
    unfold rowDict
    rw [List.length_map, List.length_range, List.range_succ_eq_map]
    simp

end CovPred
