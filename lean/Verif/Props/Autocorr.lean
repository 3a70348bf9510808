import Verif.Model.Signals
import Verif.Spec.Ewma
import Verif.Spec.Signals
import Verif.Spec.FactorModel
import Verif.Lemmas.FactorModel3
import Mathlib.Algebra.Order.BigOperators.Ring.Finset

/-
Properties of `get_moving_autocorrelations` (C148).
-/
set_option linter.unusedSectionVars false
namespace CovPred

variable {τ : Type} {n : ℕ}

/-! ### pandas' average with missing values -/

private theorem ewmNanLoop_some (b m w : ℝ) (l : List ℝ) :
    ewmNanLoop b (some m) w (l.map some) = (pandasEwmLoop b m w l).map some := by
  induction l generalizing m w with
  | nil => rfl
  | cons x l ih =>
    rw [List.map_cons]
    simp only [ewmNanLoop, pandasEwmLoop, List.map_cons]
    rw [ih]

private theorem ewmNan_some (h : ℝ) (l : List ℝ) : ewmNan h (l.map some) = (pandasEwm h l).map some := by
  cases l with
  | nil => rfl
  | cons x l =>
    unfold ewmNan
    rw [List.map_cons]
    simp only [ewmNanLoop, pandasEwm, List.map_cons]
    rw [ewmNanLoop_some]

private theorem ewmNan_none (h : ℝ) (l : List (Option ℝ)) : ewmNan h (none :: l) = none :: ewmNan h l := rfl

private theorem ewmNan_range (h : ℝ) (x : ℕ → ℝ) (N : ℕ) :
    ewmNan h ((List.range N).map fun u => some (x u)) = (List.range N).map fun u => some (halflifeAverage h x u) := by
  have : (List.range N).map (fun u => some (x u)) = ((List.range N).map x).map some := by rw [List.map_map]; rfl
  rw [this, ewmNan_some, pandasEwm_spec, List.map_map]
  rfl

/-! ### Averages -/

private theorem weights_pos (h : ℝ) (t : ℕ) : 0 < ageWeights h t :=
  Finset.sum_pos (fun k _ => Real.rpow_pos_of_pos (by norm_num) _) ⟨0, by simp⟩

private theorem avg_mul (h : ℝ) (x : ℕ → ℝ) (t : ℕ) :
    halflifeAverage h x t * ageWeights h t = ∑ k ∈ Finset.range (t + 1), (2 : ℝ) ^ (-((t - k : ℕ) : ℝ) / h) * x k := by
  unfold halflifeAverage
  exact div_mul_cancel₀ _ (weights_pos h t).ne'

private theorem sum_shift (h : ℝ) (x : ℕ → ℝ) (t : ℕ) :
    ∑ k ∈ Finset.range (t + 2), (2 : ℝ) ^ (-((t + 1 - k : ℕ) : ℝ) / h) * x k =
      ∑ k ∈ Finset.range (t + 1), (2 : ℝ) ^ (-((t - k : ℕ) : ℝ) / h) * x (k + 1) + (2 : ℝ) ^ (-((t + 1 : ℕ) : ℝ) / h) * x 0 := by
  rw [Finset.sum_range_succ']
  congr 1
  apply Finset.sum_congr rfl
  intro k _
  rw [show t + 1 - (k + 1) = t - k by omega]

private theorem cauchy (h : ℝ) (x y : ℕ → ℝ) (t : ℕ) :
    halflifeAverage h (fun u => x u * y u) t ^ 2 ≤
      halflifeAverage h (fun u => x u ^ 2) t * halflifeAverage h (fun u => y u ^ 2) t := by
  have hw := weights_pos h t
  have key : (∑ k ∈ Finset.range (t + 1), (2 : ℝ) ^ (-((t - k : ℕ) : ℝ) / h) * (x k * y k)) ^ 2 ≤
      (∑ k ∈ Finset.range (t + 1), (2 : ℝ) ^ (-((t - k : ℕ) : ℝ) / h) * x k ^ 2) *
      ∑ k ∈ Finset.range (t + 1), (2 : ℝ) ^ (-((t - k : ℕ) : ℝ) / h) * y k ^ 2 := by
    apply Finset.sum_sq_le_sum_mul_sum_of_sq_eq_mul
    · intro k _; positivity
    · intro k _; positivity
    · intro k _; ring
  rw [← avg_mul, ← avg_mul, ← avg_mul] at key
  have : (halflifeAverage h (fun u => x u * y u) t) ^ 2 * ageWeights h t ^ 2 ≤
      (halflifeAverage h (fun u => x u ^ 2) t * halflifeAverage h (fun u => y u ^ 2) t) * ageWeights h t ^ 2 := by
    calc _ = (halflifeAverage h (fun u => x u * y u) t * ageWeights h t) ^ 2 := by ring
      _ ≤ _ := key
      _ = _ := by ring
  exact le_of_mul_le_mul_right this (by positivity)

private theorem avg_sq_nonneg (h : ℝ) (x : ℕ → ℝ) (t : ℕ) : 0 ≤ halflifeAverage h (fun u => x u ^ 2) t := by
  unfold halflifeAverage
  positivity

private theorem avg_sq_pos (h : ℝ) (x : ℕ → ℝ) (t : ℕ) : 0 < halflifeAverage h (fun u => x u ^ 2) t ↔ ∃ u ≤ t, x u ≠ 0 := by
  constructor
  · intro hp
    by_contra hc
    push Not at hc
    have : halflifeAverage h (fun u => x u ^ 2) t = 0 := by
      unfold halflifeAverage
      rw [Finset.sum_eq_zero, zero_div]
      intro k hk
      dsimp only
      rw [hc k (by rw [Finset.mem_range] at hk; omega)]
      simp
    linarith
  · rintro ⟨u, hu, hx⟩
    unfold halflifeAverage
    apply div_pos
    · apply Finset.sum_pos'
      · intro k _; positivity
      · exact ⟨u, Finset.mem_range.2 (by omega), by positivity⟩
    · exact weights_pos h t

private theorem corr_fin {m a b : ℝ} (ha : 0 < a) (hb : 0 < b) :
    corrEntry (some m) (some a) (some b) = XR.fin (m / (Real.sqrt a * Real.sqrt b)) := by
  show XR.fin _ / (XR.fin (Real.sqrt a) * XR.fin (Real.sqrt b)) = _
  rw [show XR.fin (Real.sqrt a) * XR.fin (Real.sqrt b) = XR.fin (Real.sqrt a * Real.sqrt b) from rfl]
  exact XR.fin_div (by positivity)

private theorem corr_nan {a b : ℝ} (h : a = 0 ∨ b = 0) :
    corrEntry (some 0) (some a) (some b) = XR.nan := by
  show XR.fin _ / (XR.fin (Real.sqrt a) * XR.fin (Real.sqrt b)) = _
  rw [show XR.fin (Real.sqrt a) * XR.fin (Real.sqrt b) = XR.fin (Real.sqrt a * Real.sqrt b) from rfl]
  have : Real.sqrt a * Real.sqrt b = 0 := by rcases h with rfl | rfl <;> simp
  rw [this]
  show XR.div _ _ = _
  simp [XR.div, XR.infSign]

private theorem corr_bound {m a b K : ℝ} (ha : 0 < a) (hb : 0 < b) (hm : m ^ 2 ≤ K * (a * b)) :
    |m / (Real.sqrt a * Real.sqrt b)| ≤ Real.sqrt K := by
  have hK : 0 ≤ K := by
    by_contra hc
    rw [not_le] at hc
    nlinarith [sq_nonneg m, mul_pos ha hb]
  apply Real.abs_le_sqrt
  rw [div_pow, mul_pow, Real.sq_sqrt ha.le, Real.sq_sqrt hb.le, div_le_iff₀ (by positivity)]
  exact hm

/-! ### C148 -/

private theorem zip_range {A B : Type} (N : ℕ) (tm : ℕ → τ) (row : ℕ → A) (F : ℕ × τ → B) :
    ((List.range ((List.range N).map fun s => (tm s, row s)).length).zip
        (((List.range N).map fun s => (tm s, row s)).map Prod.fst)).map F =
      (List.range N).map fun s => F (s, tm s) := by
  apply List.ext_getElem
  · simp
  · intro k h1 h2
    simp

private theorem column (h : ℝ) (r p : ℕ → ℝ) (N : ℕ) :
    autocorrColumn ((List.range N).map fun u => some (r u)) ((List.range N).map fun u => some (p u)) h =
      (List.range N).map fun s => corrEntry (some (halflifeAverage h (fun u => r u * p u) s))
        (some (halflifeAverage h (fun u => r u ^ 2) s)) (some (halflifeAverage h (fun u => p u ^ 2) s)) := by
  unfold autocorrColumn
  have e1 : List.zipWith optMul ((List.range N).map fun u => some (r u)) ((List.range N).map fun u => some (p u)) =
      (List.range N).map fun u => some (r u * p u) := by
    apply List.ext_getElem
    · simp
    · intro k h1 h2; simp [optMul]
  have e2 : ∀ x : ℕ → ℝ, ((List.range N).map fun u => some (x u)).map (fun x => optMul x x) =
      (List.range N).map fun u => some (x u ^ 2) := by
    intro x
    rw [List.map_map]
    apply List.map_congr_left
    intro u _
    simp [optMul, sq]
  rw [e1, e2, e2, ewmNan_range, ewmNan_range, ewmNan_range]
  apply List.ext_getElem
  · simp
  · intro k h1 h2; simp

/-- a table of numbers -/
private theorem full_table {h : ℝ} (N : ℕ) (tm : ℕ → τ) (r p : ℕ → Vec n) :
    getMovingAutocorrelations ((List.range N).map fun s => (tm s, fun i => some (r s i)))
        ((List.range N).map fun s => (tm s, fun i => some (p s i))) h =
      (List.range N).map fun s => (tm s, fun i => corrEntry (some (halflifeAverage h (fun u => r u i * p u i) s))
        (some (halflifeAverage h (fun u => r u i ^ 2) s)) (some (halflifeAverage h (fun u => p u i ^ 2) s))) := by
  unfold getMovingAutocorrelations
  refine (zip_range N tm (fun s (i : Fin n) => some (r s i)) _).trans ?_
  apply List.map_congr_left
  intro s hs
  congr 1
  funext i
  rw [List.map_map, List.map_map]
  have := column h (fun u => r u i) (fun u => p u i) N
  rw [show (List.range N).map ((fun row : τ × NRow n => row.2 i) ∘ fun s => (tm s, fun i => some (r s i))) =
    (List.range N).map fun u => some (r u i) from rfl,
    show (List.range N).map ((fun row : τ × NRow n => row.2 i) ∘ fun s => (tm s, fun i => some (p s i))) =
    (List.range N).map fun u => some (p u i) from rfl, this, List.getElem?_map,
    List.getElem?_range (by simpa using hs)]
  rfl

/-- **C148.** For returns and predictions without missing entries the moving autocorrelation of an asset at row `s` is the
half-life average of the products, divided by the square roots of the half-life averages of the squares; it lies between
-1 and 1. It is `nan` as long as all returns or all predictions of the asset are zero. Rows after `s` do not matter, and
neither does the unit of the returns or of the predictions of each asset. -/
theorem C148_autocorrelations {h : ℝ} (N : ℕ) (tm : ℕ → τ) (r p : ℕ → Vec n) :
    ∃ c : ℕ → Fin n → XR,
      getMovingAutocorrelations ((List.range N).map fun s => (tm s, fun i => some (r s i)))
        ((List.range N).map fun s => (tm s, fun i => some (p s i))) h = (List.range N).map (fun s => (tm s, c s)) ∧
      (∀ s i, (∃ u ≤ s, r u i ≠ 0) → (∃ u ≤ s, p u i ≠ 0) → ∃ v, c s i = XR.fin v ∧ |v| ≤ 1 ∧
        v = halflifeAverage h (fun u => r u i * p u i) s /
          (Real.sqrt (halflifeAverage h (fun u => r u i ^ 2) s) * Real.sqrt (halflifeAverage h (fun u => p u i ^ 2) s))) ∧
      (∀ s i, ((∀ u ≤ s, r u i = 0) ∨ (∀ u ≤ s, p u i = 0)) → c s i = XR.nan) ∧
      (∀ a b : Vec n, (∀ i, 0 < a i) → (∀ i, 0 < b i) →
        getMovingAutocorrelations ((List.range N).map fun s => (tm s, fun i => some (a i * r s i)))
          ((List.range N).map fun s => (tm s, fun i => some (b i * p s i))) h = (List.range N).map (fun s => (tm s, c s))) := by
  have hnan : ∀ (r p : ℕ → Vec n) s i, ((∀ u ≤ s, r u i = 0) ∨ (∀ u ≤ s, p u i = 0)) →
      corrEntry (some (halflifeAverage h (fun u => r u i * p u i) s))
        (some (halflifeAverage h (fun u => r u i ^ 2) s)) (some (halflifeAverage h (fun u => p u i ^ 2) s)) = XR.nan := by
    intro r p s i hz
    have hm : halflifeAverage h (fun u => r u i * p u i) s = 0 := by
      unfold halflifeAverage
      rw [Finset.sum_eq_zero, zero_div]
      intro k hk
      have hk : k ≤ s := by rw [Finset.mem_range] at hk; omega
      dsimp only
      rcases hz with hz | hz <;> rw [hz k hk] <;> simp
    rw [hm]
    apply corr_nan
    have hz' : ∀ x : ℕ → ℝ, (∀ u ≤ s, x u = 0) → halflifeAverage h (fun u => x u ^ 2) s = 0 := by
      intro x hx
      have h1 := avg_sq_nonneg h x s
      have h2 : ¬ 0 < halflifeAverage h (fun u => x u ^ 2) s := fun hp => by
        obtain ⟨u, hu, hne⟩ := (avg_sq_pos h x s).1 hp
        exact hne (hx u hu)
      linarith
    rcases hz with hz | hz
    · exact Or.inl (hz' (fun u => r u i) hz)
    · exact Or.inr (hz' (fun u => p u i) hz)
  refine ⟨_, full_table N tm r p, ?_, hnan r p, ?_⟩
  · intro s i h1 h2
    have ha := (avg_sq_pos h (fun u => r u i) s).2 h1
    have hb := (avg_sq_pos h (fun u => p u i) s).2 h2
    refine ⟨_, corr_fin ha hb, ?_, rfl⟩
    have := corr_bound (K := 1) ha hb (by
      rw [one_mul]; exact cauchy h (fun u => r u i) (fun u => p u i) s)
    rwa [Real.sqrt_one] at this
  · intro a b ha hb
    rw [full_table N tm (fun s i => a i * r s i) (fun s i => b i * p s i)]
    apply List.map_congr_left
    intro s _
    congr 1
    funext i
    have hs : ∀ (c : ℝ) (x : ℕ → ℝ), halflifeAverage h (fun u => c * x u) s = c * halflifeAverage h x s := by
      intro c x
      unfold halflifeAverage
      rw [← mul_div_assoc, Finset.mul_sum]
      congr 1
      apply Finset.sum_congr rfl
      intro k _; ring
    have e1 : halflifeAverage h (fun u => a i * r u i * (b i * p u i)) s =
        (a i * b i) * halflifeAverage h (fun u => r u i * p u i) s := by
      rw [← hs]; congr 1; funext u; ring
    have e2 : ∀ (c : ℝ) (x : ℕ → ℝ), halflifeAverage h (fun u => (c * x u) ^ 2) s =
        c ^ 2 * halflifeAverage h (fun u => x u ^ 2) s := by
      intro c x
      rw [← hs]; congr 1; funext u; ring
    rw [e1, e2 (a i) fun u => r u i, e2 (b i) fun u => p u i]
    by_cases hz : (∀ u ≤ s, r u i = 0) ∨ (∀ u ≤ s, p u i = 0)
    · rw [hnan r p s i hz]
      have := hnan (fun u j => a j * r u j) (fun u j => b j * p u j) s i (by
        rcases hz with hz | hz
        · exact Or.inl fun u hu => by rw [hz u hu, mul_zero]
        · exact Or.inr fun u hu => by rw [hz u hu, mul_zero])
      rwa [e1, e2 (a i) fun u => r u i, e2 (b i) fun u => p u i] at this
    · rw [not_or] at hz
      push Not at hz
      have qa := (avg_sq_pos h (fun u => r u i) s).2 hz.1
      have qb := (avg_sq_pos h (fun u => p u i) s).2 hz.2
      have pa := ha i
      have pb := hb i
      rw [corr_fin qa qb, corr_fin (by positivity) (by positivity), Real.sqrt_mul (by positivity),
        Real.sqrt_mul (by positivity), Real.sqrt_sq pa.le, Real.sqrt_sq pb.le]
      congr 1
      field_simp

private theorem shifted_column (h : ℝ) (r : ℕ → ℝ) (N : ℕ) :
    autocorrColumn ((List.range (N + 1)).map fun u => some (r u)) (none :: (List.range N).map fun u => some (r u)) h =
      XR.nan :: (List.range N).map fun s => corrEntry (some (halflifeAverage h (fun u => r (u + 1) * r u) s))
        (some (halflifeAverage h (fun u => r u ^ 2) (s + 1))) (some (halflifeAverage h (fun u => r u ^ 2) s)) := by
  unfold autocorrColumn
  have e0 : (List.range (N + 1)).map (fun u => some (r u)) = some (r 0) :: (List.range N).map fun u => some (r (u + 1)) := by
    rw [List.range_succ_eq_map, List.map_cons, List.map_map]; rfl
  have e1 : List.zipWith optMul ((List.range (N + 1)).map fun u => some (r u)) (none :: (List.range N).map fun u => some (r u)) =
      none :: (List.range N).map fun u => some (r (u + 1) * r u) := by
    rw [e0, List.zipWith_cons_cons]
    congr 1
    apply List.ext_getElem
    · simp
    · intro k h1 h2; simp [optMul]
  have e2 : ∀ (N : ℕ) (x : ℕ → ℝ), ((List.range N).map fun u => some (x u)).map (fun x => optMul x x) =
      (List.range N).map fun u => some (x u ^ 2) := by
    intro N x
    rw [List.map_map]
    apply List.map_congr_left
    intro u _
    simp [optMul, sq]
  rw [e1, List.map_cons, e2, e2, show optMul none none = none from rfl, ewmNan_none, ewmNan_none, ewmNan_range, ewmNan_range,
    ewmNan_range]
  have e3 : (List.range (N + 1)).map (fun u => some (halflifeAverage h (fun u => r u ^ 2) u)) =
      some (halflifeAverage h (fun u => r u ^ 2) 0) :: (List.range N).map fun u => some (halflifeAverage h (fun u => r u ^ 2) (u + 1)) := by
    rw [List.range_succ_eq_map, List.map_cons, List.map_map]; rfl
  rw [e3]
  dsimp only
  rw [List.zip_cons_cons, List.zipWith_cons_cons]
  congr 1
  apply List.ext_getElem
  · simp
  · intro k h1 h2; simp

/-- **C148.** The predictions of the notebook are the returns of the row before, none in the first row. -/
theorem C148_shifted (N : ℕ) (tm : ℕ → τ) (r : ℕ → NRow n) :
    shiftFrame ((List.range N).map fun s => (tm s, r s)) =
      (List.range N).map fun s => (tm s, if s = 0 then fun _ => none else r (s - 1)) := by
  unfold shiftFrame
  rw [List.map_map, List.map_map]
  apply List.ext_getElem
  · simp
  · intro k h1 h2
    simp only [List.getElem_map, List.getElem_zip]
    rcases k with _ | k
    · simp
    · simp

/-- **C148.** With the returns of the day before as predictions, as in the notebook, the first row is `nan` and the
product of the first day is missing while its square is not. So the quotient is no correlation: at row `s + 1` it is
bounded by the square root of `W_{s+1} / W_s` (`W_s` is the sum of the weights of `s + 1` rows), which exceeds 1; and
whenever the second return of an asset is larger in absolute value than the first, not zero, the value of the second row
lies outside of [-1, 1]. -/
theorem C148_lagged {h : ℝ} (N : ℕ) (tm : ℕ → τ) (r : ℕ → Vec n) :
    ∃ c : ℕ → Fin n → XR,
      getMovingAutocorrelations ((List.range (N + 1)).map fun s => (tm s, fun i => some (r s i)))
        (shiftFrame ((List.range (N + 1)).map fun s => (tm s, fun i => some (r s i)))) h =
          (List.range (N + 1)).map (fun s => (tm s, c s)) ∧
      (∀ i, c 0 i = XR.nan) ∧
      (∀ s < N, ∀ i, (∃ u ≤ s, r u i ≠ 0) → ∃ v, c (s + 1) i = XR.fin v ∧
        v = halflifeAverage h (fun u => r (u + 1) i * r u i) s /
          (Real.sqrt (halflifeAverage h (fun u => r u i ^ 2) (s + 1)) * Real.sqrt (halflifeAverage h (fun u => r u i ^ 2) s)) ∧
        |v| ≤ Real.sqrt (ageWeights h (s + 1) / ageWeights h s)) ∧
      (∀ s, 1 < ageWeights h (s + 1) / ageWeights h s) ∧
      (∀ i, 1 ≤ N → 0 < |r 0 i| → |r 0 i| < |r 1 i| → ∃ v, c 1 i = XR.fin v ∧ 1 < |v|) := by
  have hc : getMovingAutocorrelations ((List.range (N + 1)).map fun s => (tm s, fun i => some (r s i)))
      (shiftFrame ((List.range (N + 1)).map fun s => (tm s, fun i => some (r s i)))) h =
        (List.range (N + 1)).map fun s => (tm s, fun i => (XR.nan :: (List.range N).map fun s =>
          corrEntry (some (halflifeAverage h (fun u => r (u + 1) i * r u i) s))
            (some (halflifeAverage h (fun u => r u i ^ 2) (s + 1)))
            (some (halflifeAverage h (fun u => r u i ^ 2) s)))[s]?.getD XR.nan) := by
    unfold getMovingAutocorrelations
    refine (zip_range (N + 1) tm (fun s (i : Fin n) => some (r s i)) _).trans ?_
    apply List.map_congr_left
    intro s _
    congr 1
    funext i
    have e1 : ((List.range (N + 1)).map fun s => (tm s, fun i => some (r s i))).map (fun row : τ × NRow n => row.2 i) =
        (List.range (N + 1)).map fun u => some (r u i) := by rw [List.map_map]; rfl
    have e2 : (shiftFrame ((List.range (N + 1)).map fun s => (tm s, fun i => some (r s i)))).map (fun row : τ × NRow n => row.2 i) =
        none :: (List.range N).map fun u => some (r u i) := by
      unfold shiftFrame
      rw [List.map_map, List.map_map]
      apply List.ext_getElem
      · simp
      · intro k h1 h2
        simp only [List.getElem_map, List.getElem_zip]
        rcases k with _ | k
        · rfl
        · simp
    rw [e1, e2, shifted_column h (fun u => r u i) N]
  refine ⟨_, hc, fun i => rfl, ?_, ?_, ?_⟩
  · intro s hs i hne
    have hb := (avg_sq_pos h (fun u => r u i) s).2 hne
    have ha := (avg_sq_pos h (fun u => r u i) (s + 1)).2 (by
      obtain ⟨u, hu, hx⟩ := hne
      exact ⟨u, by omega, hx⟩)
    refine ⟨_, ?_, rfl, ?_⟩
    · rw [List.getElem?_cons_succ, List.getElem?_map, List.getElem?_range hs, Option.map_some, Option.getD_some]
      exact corr_fin ha hb
    · apply corr_bound ha hb
      have w0 := weights_pos h s
      have w1 := weights_pos h (s + 1)
      have c1 := cauchy h (fun u => r (u + 1) i) (fun u => r u i) s
      have c2 : halflifeAverage h (fun u => r (u + 1) i ^ 2) s * ageWeights h s ≤
          halflifeAverage h (fun u => r u i ^ 2) (s + 1) * ageWeights h (s + 1) := by
        rw [avg_mul, avg_mul, sum_shift]
        have : (0 : ℝ) ≤ (2 : ℝ) ^ (-((s + 1 : ℕ) : ℝ) / h) * r 0 i ^ 2 := by positivity
        linarith
      have c3 : halflifeAverage h (fun u => r (u + 1) i ^ 2) s ≤
          ageWeights h (s + 1) / ageWeights h s * halflifeAverage h (fun u => r u i ^ 2) (s + 1) := by
        rw [div_mul_eq_mul_div, le_div_iff₀ w0]
        linarith
      calc _ ≤ _ := c1
        _ ≤ _ := mul_le_mul_of_nonneg_right c3 hb.le
        _ = _ := by ring
  · intro s
    rw [one_lt_div (weights_pos h s)]
    have h1 := sum_shift h (fun _ => 1) s
    simp only [mul_one] at h1
    have h2 : (0 : ℝ) < (2 : ℝ) ^ (-((s + 1 : ℕ) : ℝ) / h) := Real.rpow_pos_of_pos (by norm_num) _
    unfold ageWeights
    linarith
  · intro i hN h0 h1
    have e0 : r 0 i ≠ 0 := abs_pos.1 h0
    have hb := (avg_sq_pos h (fun u => r u i) 0).2 ⟨0, le_rfl, e0⟩
    have ha := (avg_sq_pos h (fun u => r u i) 1).2 ⟨0, by omega, e0⟩
    refine ⟨halflifeAverage h (fun u => r (u + 1) i * r u i) 0 /
      (Real.sqrt (halflifeAverage h (fun u => r u i ^ 2) 1) * Real.sqrt (halflifeAverage h (fun u => r u i ^ 2) 0)), ?_, ?_⟩
    · rw [List.getElem?_cons_succ, List.getElem?_map, List.getElem?_range (by omega), Option.map_some, Option.getD_some]
      exact corr_fin ha hb
    · have hz : ∀ x : ℕ → ℝ, halflifeAverage h x 0 = x 0 := by intro x; unfold halflifeAverage; simp
      rw [← one_lt_sq_iff_one_lt_abs, div_pow, mul_pow, Real.sq_sqrt ha.le, Real.sq_sqrt hb.le, one_lt_div (by positivity), hz, hz]
      unfold halflifeAverage
      simp only [Finset.sum_range_succ, Finset.sum_range_zero, zero_add, Nat.sub_zero, Nat.sub_self, Nat.cast_one,
        Nat.cast_zero, neg_zero, zero_div, Real.rpow_zero, one_mul]
      set b := (2 : ℝ) ^ (-1 / h) with hbdef
      have hbp : 0 < b := Real.rpow_pos_of_pos (by norm_num) _
      have hsq : r 0 i ^ 2 < r 1 i ^ 2 := sq_lt_sq.2 h1
      rw [div_mul_eq_mul_div, div_lt_iff₀ (by positivity)]
      have hp : 0 < r 0 i ^ 2 := by positivity
      nlinarith [mul_pos hbp hp]

/-- Two rows, 1 and 2: the second value of the notebook's autocorrelation is larger than one. -/
example : ∃ c : ℕ → Fin 1 → XR, getMovingAutocorrelations
      ((List.range 2).map fun s : ℕ => (s, fun _ : Fin 1 => some ((s : ℝ) + 1)))
      (shiftFrame ((List.range 2).map fun s : ℕ => (s, fun _ : Fin 1 => some ((s : ℝ) + 1)))) 63 =
        (List.range 2).map (fun s => (s, c s)) ∧ ∃ v, c 1 0 = XR.fin v ∧ 1 < |v| := by
  obtain ⟨c, hc, _, _, _, h⟩ := C148_lagged (h := 63) 1 (fun s => s) (fun (s : ℕ) (_ : Fin 1) => (s : ℝ) + 1)
  exact ⟨c, hc, h 0 le_rfl (by norm_num) (by norm_num)⟩

/-! ### Missing entries -/

section
open Classical

private noncomputable def num (f : ℝ) (x : ℕ → Option ℝ) (t : ℕ) : ℝ :=
  ∑ k ∈ Finset.range (t + 1) with x k ≠ none, f ^ (t - k) * (x k).getD 0
private noncomputable def den (f : ℝ) (x : ℕ → Option ℝ) (t : ℕ) : ℝ :=
  ∑ k ∈ Finset.range (t + 1) with x k ≠ none, f ^ (t - k)

private theorem sum_succ (f : ℝ) (x : ℕ → Option ℝ) (g : ℕ → ℝ) (t : ℕ) :
    ∑ k ∈ Finset.range (t + 1 + 1) with x k ≠ none, f ^ (t + 1 - k) * g k =
      f * (∑ k ∈ Finset.range (t + 1) with x k ≠ none, f ^ (t - k) * g k) + if x (t + 1) ≠ none then g (t + 1) else 0 := by
  rw [Finset.sum_filter, Finset.sum_range_succ, Finset.sum_filter, Finset.mul_sum]
  congr 1
  · apply Finset.sum_congr rfl
    intro k hk
    rw [Finset.mem_range] at hk
    split
    · rw [show t + 1 - k = t - k + 1 by omega]; ring
    · ring
  · simp

private theorem num_succ (f : ℝ) (x : ℕ → Option ℝ) (t : ℕ) :
    num f x (t + 1) = f * num f x t + (x (t + 1)).getD 0 := by
  unfold num
  rw [sum_succ f x (fun k => (x k).getD 0)]
  congr 1
  split
  · rfl
  · next h => rw [not_not] at h; rw [h]; rfl

private theorem den_succ (f : ℝ) (x : ℕ → Option ℝ) (t : ℕ) :
    den f x (t + 1) = f * den f x t + if x (t + 1) ≠ none then 1 else 0 := by
  have := sum_succ f x (fun _ => 1) t
  simp only [mul_one] at this
  exact this

private theorem den_pos {f : ℝ} (hf : 0 < f) {x : ℕ → Option ℝ} {t : ℕ} (h : ∃ u ≤ t, x u ≠ none) : 0 < den f x t := by
  obtain ⟨u, hu, hx⟩ := h
  exact Finset.sum_pos (fun k _ => pow_pos hf _) ⟨u, by simp only [Finset.mem_filter, Finset.mem_range]; exact ⟨by omega, hx⟩⟩

private theorem none_sum {f : ℝ} {x : ℕ → Option ℝ} {t : ℕ} (h : ¬ ∃ u ≤ t, x u ≠ none) : num f x t = 0 ∧ den f x t = 0 := by
  push Not at h
  have : (Finset.range (t + 1)).filter (fun k => x k ≠ none) = ∅ := by
    rw [Finset.filter_eq_empty_iff]
    intro k hk
    rw [Finset.mem_range] at hk
    rw [not_not]
    exact h k (by omega)
  unfold num den
  rw [this]
  simp

/-- the state of the loop after row `t` -/
private noncomputable def avgAt (f : ℝ) (x : ℕ → Option ℝ) (t : ℕ) : Option ℝ :=
  if ∃ u ≤ t, x u ≠ none then some (num f x t / den f x t) else none
private noncomputable def wtAt (f : ℝ) (x : ℕ → Option ℝ) (t : ℕ) : ℝ :=
  if ∃ u ≤ t, x u ≠ none then den f x t else 1

private theorem exists_succ {x : ℕ → Option ℝ} {t : ℕ} :
    (∃ u ≤ t + 1, x u ≠ none) ↔ (∃ u ≤ t, x u ≠ none) ∨ x (t + 1) ≠ none := by
  constructor
  · rintro ⟨u, hu, h⟩
    rcases Nat.lt_or_ge u (t + 1) with h1 | h1
    · exact Or.inl ⟨u, by omega, h⟩
    · have : u = t + 1 := by omega
      exact Or.inr (this ▸ h)
  · rintro (⟨u, hu, h⟩ | h)
    · exact ⟨u, by omega, h⟩
    · exact ⟨t + 1, le_rfl, h⟩

private theorem loop_spec {f : ℝ} (hf : 0 < f) (x : ℕ → Option ℝ) (m t : ℕ) :
    ewmNanLoop f (avgAt f x t) (wtAt f x t) ((List.range' (t + 1) m).map x) = (List.range' (t + 1) m).map (avgAt f x) := by
  induction m generalizing t with
  | zero => rfl
  | succ m ih =>
    rw [List.range'_succ, List.map_cons, List.map_cons]
    have hstep := num_succ f x t
    have hden := den_succ f x t
    by_cases he : ∃ u ≤ t, x u ≠ none
    · have hp := den_pos hf he
      have ha : avgAt f x t = some (num f x t / den f x t) := if_pos he
      have hw : wtAt f x t = den f x t := if_pos he
      have he' : ∃ u ≤ t + 1, x u ≠ none := exists_succ.mpr (Or.inl he)
      have hw' : wtAt f x (t + 1) = den f x (t + 1) := if_pos he'
      have ha' : avgAt f x (t + 1) = some (num f x (t + 1) / den f x (t + 1)) := if_pos he'
      rw [ha, hw]
      rcases hx : x (t + 1) with _ | v
      · rw [hx] at hstep hden
        simp only [Option.getD_none, add_zero, ne_eq, not_true_eq_false, if_false] at hstep hden
        simp only [ewmNanLoop]
        have e : avgAt f x (t + 1) = some (num f x t / den f x t) := by
          rw [ha', hstep, hden, mul_div_mul_left _ _ hf.ne']
        rw [e, ← ih, hw', hden, e, _root_.mul_comm (den f x t)]
      · rw [hx] at hstep hden
        simp only [Option.getD_some, ne_eq, reduceCtorEq, not_false_eq_true, if_true] at hstep hden
        simp only [ewmNanLoop]
        have e : avgAt f x (t + 1) = some ((den f x t * f * (num f x t / den f x t) + v) / (den f x t * f + 1)) := by
          rw [ha', hstep, hden, _root_.mul_comm (den f x t) f]
          congr 2
          field_simp
        rw [← e, ← ih, hw', hden, _root_.mul_comm f]
    · have ha : avgAt f x t = none := if_neg he
      have hw : wtAt f x t = 1 := if_neg he
      obtain ⟨hn0, hd0⟩ := none_sum (f := f) he
      rw [ha, hw]
      simp only [ewmNanLoop]
      have e : avgAt f x (t + 1) = x (t + 1) ∧ wtAt f x (t + 1) = 1 := by
        rcases hx : x (t + 1) with _ | v
        · have : ¬ ∃ u ≤ t + 1, x u ≠ none := by rw [exists_succ, hx]; simpa using he
          exact ⟨if_neg this, if_neg this⟩
        · have : ∃ u ≤ t + 1, x u ≠ none := by rw [exists_succ, hx]; simp
          rw [hn0, hx] at hstep
          rw [hd0, hx] at hden
          simp only [Option.getD_some, mul_zero, zero_add, ne_eq, reduceCtorEq, not_false_eq_true, if_true] at hstep hden
          refine ⟨?_, (if_pos this).trans hden⟩
          rw [avgAt, if_pos this, hstep, hden, div_one]
      rw [← ih, e.1, e.2]

private theorem half_pow (h : ℝ) (k : ℕ) : (2 : ℝ) ^ (-(k : ℝ) / h) = (1 - (1 - Real.exp (-Real.log 2 / h))) ^ k := by
  rw [show 1 - (1 - Real.exp (-Real.log 2 / h)) = Real.exp (-Real.log 2 / h) by ring, ← Real.exp_nat_mul,
    Real.rpow_def_of_pos (by norm_num)]
  congr 1
  ring

private theorem avgAt_eq (h : ℝ) (x : ℕ → Option ℝ) (t : ℕ) :
    avgAt (1 - (1 - Real.exp (-Real.log 2 / h))) x t = presentAverage h x t := by
  unfold avgAt presentAverage num den
  simp only [half_pow]

/-- pandas' average with missing values -/
private theorem ewmNan_spec (h : ℝ) (x : ℕ → Option ℝ) (N : ℕ) :
    ewmNan h ((List.range N).map x) = (List.range N).map (presentAverage h x) := by
  cases N with
  | zero => rfl
  | succ N =>
    have hf : (0 : ℝ) < 1 - (1 - Real.exp (-Real.log 2 / h)) := by
      rw [show 1 - (1 - Real.exp (-Real.log 2 / h)) = Real.exp (-Real.log 2 / h) by ring]; exact Real.exp_pos _
    have key := loop_spec hf x N 0
    rw [List.range_eq_range', List.range'_succ, List.map_cons, List.map_cons]
    unfold ewmNan
    simp only [ewmNanLoop]
    have e : avgAt (1 - (1 - Real.exp (-Real.log 2 / h))) x 0 = x 0 ∧ wtAt (1 - (1 - Real.exp (-Real.log 2 / h))) x 0 = 1 := by
      unfold avgAt wtAt num den
      rcases hx : x 0 with _ | v
      · simp [hx]
      · simp [hx, Finset.filter_singleton]
    rw [e.1, e.2] at key
    rw [key, ← avgAt_eq, e.1]
    congr 1
    apply List.map_congr_left
    intro s _
    rw [avgAt_eq]

private theorem missing_table {h : ℝ} (N : ℕ) (tm : ℕ → τ) (r p : ℕ → NRow n) :
    getMovingAutocorrelations ((List.range N).map fun s => (tm s, r s)) ((List.range N).map fun s => (tm s, p s)) h =
      (List.range N).map fun s => (tm s, fun i => corrEntry (presentAverage h (fun u => Option.map₂ (· * ·) (r u i) (p u i)) s)
        (presentAverage h (fun u => (r u i).map (· ^ 2)) s) (presentAverage h (fun u => (p u i).map (· ^ 2)) s)) := by
  unfold getMovingAutocorrelations
  refine (zip_range N tm (fun s => r s) _).trans ?_
  apply List.map_congr_left
  intro s hs
  congr 1
  funext i
  rw [List.map_map, List.map_map]
  have e1 : List.zipWith optMul ((List.range N).map fun u => r u i) ((List.range N).map fun u => p u i) =
      (List.range N).map fun u => Option.map₂ (· * ·) (r u i) (p u i) := by
    apply List.ext_getElem
    · simp
    · intro k h1 h2
      simp only [List.getElem_zipWith, List.getElem_map, List.getElem_range]
      rcases r k i with _ | a <;> rcases p k i with _ | b <;> rfl
  have e2 : ∀ x : ℕ → Option ℝ, ((List.range N).map x).map (fun x => optMul x x) =
      (List.range N).map fun u => (x u).map (· ^ 2) := by
    intro x
    rw [List.map_map]
    apply List.map_congr_left
    intro u _
    simp only [Function.comp]
    rcases x u with _ | a
    · rfl
    · simp [optMul, sq]
  have : autocorrColumn ((List.range N).map fun u => r u i) ((List.range N).map fun u => p u i) h
      = (List.range N).map fun s => corrEntry (presentAverage h (fun u => Option.map₂ (· * ·) (r u i) (p u i)) s)
        (presentAverage h (fun u => (r u i).map (· ^ 2)) s) (presentAverage h (fun u => (p u i).map (· ^ 2)) s) := by
    unfold autocorrColumn
    rw [e1, e2, e2, ewmNan_spec, ewmNan_spec, ewmNan_spec]
    apply List.ext_getElem
    · simp
    · intro k h1 h2; simp
  rw [show (List.range N).map ((fun row : τ × NRow n => row.2 i) ∘ fun s => (tm s, r s)) =
    (List.range N).map fun u => r u i from rfl,
    show (List.range N).map ((fun row : τ × NRow n => row.2 i) ∘ fun s => (tm s, p s)) =
    (List.range N).map fun u => p u i from rfl, this, List.getElem?_map,
    List.getElem?_range (by simpa using hs)]
  rfl

private theorem present_sq_nonneg {h : ℝ} {x : ℕ → Option ℝ} {s : ℕ} {a : ℝ}
    (ha : presentAverage h (fun u => (x u).map (· ^ 2)) s = some a) : 0 ≤ a := by
  unfold presentAverage at ha
  split at ha
  · rw [← Option.some.inj ha]
    apply div_nonneg
    · apply Finset.sum_nonneg
      intro k _
      apply mul_nonneg (by positivity)
      dsimp only
      rcases x k with _ | v
      · exact le_refl (0 : ℝ)
      · exact sq_nonneg v
    · exact Finset.sum_nonneg fun k _ => by positivity
  · cases ha

/-- **C148.** With missing entries: the averages run over the entries that are there, each with the weight of its age in rows
(missing rows age the others; they are not skipped). The value is `nan` until a return and a prediction are there in the same
row, and where the average of the squares of one of them is zero; otherwise it is the quotient. It is between -1 and 1 if
returns and predictions are missing in the same rows. -/
theorem C148_missing {h : ℝ} (N : ℕ) (tm : ℕ → τ) (r p : ℕ → NRow n) :
    ∃ c : ℕ → Fin n → XR,
      getMovingAutocorrelations ((List.range N).map fun s => (tm s, r s)) ((List.range N).map fun s => (tm s, p s)) h
        = (List.range N).map (fun s => (tm s, c s)) ∧
      (∀ s i, (∀ u ≤ s, r u i = none ∨ p u i = none) → c s i = XR.nan) ∧
      (∀ s i, (∃ u ≤ s, r u i ≠ none ∧ p u i ≠ none) → ∃ m a b,
        presentAverage h (fun u => Option.map₂ (· * ·) (r u i) (p u i)) s = some m ∧
        presentAverage h (fun u => (r u i).map (· ^ 2)) s = some a ∧
        presentAverage h (fun u => (p u i).map (· ^ 2)) s = some b ∧
        (a = 0 ∨ b = 0 → c s i = XR.nan) ∧
        (0 < a → 0 < b → c s i = XR.fin (m / (Real.sqrt a * Real.sqrt b)) ∧
          ((∀ u ≤ s, r u i = none ↔ p u i = none) → |m / (Real.sqrt a * Real.sqrt b)| ≤ 1)) ∧ 0 ≤ a ∧ 0 ≤ b) := by
  refine ⟨_, missing_table N tm r p, ?_, ?_⟩
  · intro s i hno
    have : presentAverage h (fun u => Option.map₂ (· * ·) (r u i) (p u i)) s = none := by
      unfold presentAverage
      rw [if_neg]
      rintro ⟨u, hu, hne⟩
      dsimp only at hne
      rcases hno u hu with h0 | h0 <;> rw [h0] at hne <;> simp at hne
    rw [this]
    rfl
  · rintro s i ⟨u, hu, h1, h2⟩
    have e1 : ∃ u ≤ s, Option.map₂ (· * ·) (r u i) (p u i) ≠ none := ⟨u, hu, by simp [h1, h2]⟩
    have e2 : ∃ u ≤ s, (r u i).map (· ^ 2) ≠ none := ⟨u, hu, by simpa using h1⟩
    have e3 : ∃ u ≤ s, (p u i).map (· ^ 2) ≠ none := ⟨u, hu, by simpa using h2⟩
    obtain ⟨m, hm⟩ : ∃ m, presentAverage h (fun u => Option.map₂ (· * ·) (r u i) (p u i)) s = some m :=
      ⟨_, by unfold presentAverage; rw [if_pos e1]⟩
    obtain ⟨a, ha⟩ : ∃ a, presentAverage h (fun u => (r u i).map (· ^ 2)) s = some a :=
      ⟨_, by unfold presentAverage; rw [if_pos e2]⟩
    obtain ⟨b, hb⟩ : ∃ b, presentAverage h (fun u => (p u i).map (· ^ 2)) s = some b :=
      ⟨_, by unfold presentAverage; rw [if_pos e3]⟩
    refine ⟨m, a, b, hm, ha, hb, ?_, ?_, present_sq_nonneg ha, present_sq_nonneg hb⟩
    · intro hz
      have hm0 : m = 0 := by
        have key : ∀ x y : ℕ → Option ℝ, (∃ u ≤ s, (x u).map (· ^ 2) ≠ none) →
            presentAverage h (fun u => (x u).map (· ^ 2)) s = some 0 →
            ∀ k ≤ s, ∀ v, x k = some v → v = 0 := by
          intro x y hx hx0 k hk v hv
          unfold presentAverage at hx0
          rw [if_pos hx] at hx0
          have hd : 0 < ∑ k ∈ Finset.range (s + 1) with (x k).map (· ^ 2) ≠ none, (2 : ℝ) ^ (-((s - k : ℕ) : ℝ) / h) := by
            obtain ⟨u, hu, hxu⟩ := hx
            exact Finset.sum_pos (fun k _ => by positivity) ⟨u, Finset.mem_filter.mpr ⟨Finset.mem_range.mpr (by omega), hxu⟩⟩
          have h0 := (div_eq_zero_iff.mp (Option.some.inj hx0)).resolve_right hd.ne'
          have hnn : ∀ k ∈ (Finset.range (s + 1)).filter (fun k => (x k).map (· ^ 2) ≠ none),
              0 ≤ (2 : ℝ) ^ (-((s - k : ℕ) : ℝ) / h) * ((x k).map (· ^ 2)).getD 0 := by
            intro k _
            apply mul_nonneg (by positivity)
            rcases x k with _ | v
            · exact le_rfl
            · exact sq_nonneg v
          have := (Finset.sum_eq_zero_iff_of_nonneg hnn).mp h0 k
            (Finset.mem_filter.mpr ⟨Finset.mem_range.mpr (by omega), by rw [hv]; simp⟩)
          rw [hv] at this
          rcases mul_eq_zero.mp this with h' | h'
          · exact absurd h' (by positivity)
          · simpa using h'
        have hall : ∀ k ≤ s, (Option.map₂ (· * ·) (r k i) (p k i)).getD 0 = 0 := by
          intro k hk
          rcases hr : r k i with _ | v
          · rfl
          · rcases hp : p k i with _ | w
            · rfl
            · show v * w = 0
              rcases hz with rfl | rfl
              · rw [key (fun u => r u i) (fun u => p u i) e2 ha k hk v hr, zero_mul]
              · rw [key (fun u => p u i) (fun u => r u i) e3 hb k hk w hp, mul_zero]
        unfold presentAverage at hm
        rw [if_pos e1] at hm
        rw [← Option.some.inj hm, Finset.sum_eq_zero, zero_div]
        intro k hk
        rw [Finset.mem_filter, Finset.mem_range] at hk
        rw [hall k (by omega), mul_zero]
      rw [hm, ha, hb, hm0]
      exact corr_nan hz
    · intro ha0 hb0
      refine ⟨?_, fun hsame => ?_⟩
      · rw [hm, ha, hb, corr_fin ha0 hb0]
      · have := corr_bound (K := 1) (m := m) ha0 hb0 ?_
        · rwa [Real.sqrt_one] at this
        · rw [one_mul]
          unfold presentAverage at hm ha hb
          rw [if_pos e1] at hm
          rw [if_pos e2] at ha
          rw [if_pos e3] at hb
          have f1 : (Finset.range (s + 1)).filter (fun k => Option.map₂ (· * ·) (r k i) (p k i) ≠ none)
              = (Finset.range (s + 1)).filter (fun k => r k i ≠ none) := by
            apply Finset.filter_congr
            intro k hk
            rw [Finset.mem_range] at hk
            have := hsame k (by omega)
            rcases hr : r k i with _ | v
            · simp
            · rcases hp : p k i with _ | w
              · rw [hr, hp] at this; simp at this
              · simp
          have f2 : (Finset.range (s + 1)).filter (fun k => (r k i).map (· ^ 2) ≠ none)
              = (Finset.range (s + 1)).filter (fun k => r k i ≠ none) := by
            apply Finset.filter_congr; intro k _; simp
          have f3 : (Finset.range (s + 1)).filter (fun k => (p k i).map (· ^ 2) ≠ none)
              = (Finset.range (s + 1)).filter (fun k => r k i ≠ none) := by
            apply Finset.filter_congr
            intro k hk
            rw [Finset.mem_range] at hk
            simp only [ne_eq, Option.map_eq_none_iff]
            rw [hsame k (by omega)]
          rw [f1] at hm
          rw [f2] at ha
          rw [f3] at hb
          rw [← Option.some.inj hm, ← Option.some.inj ha, ← Option.some.inj hb, div_pow, div_mul_div_comm, ← sq]
          apply div_le_div_of_nonneg_right _ (sq_nonneg _)
          apply Finset.sum_sq_le_sum_mul_sum_of_sq_eq_mul
          · intro k _
            apply mul_nonneg (by positivity)
            dsimp only
            rcases r k i with _ | v
            · exact le_refl (0 : ℝ)
            · exact sq_nonneg v
          · intro k _
            apply mul_nonneg (by positivity)
            dsimp only
            rcases p k i with _ | v
            · exact le_refl (0 : ℝ)
            · exact sq_nonneg v
          · intro k hk
            rw [Finset.mem_filter, Finset.mem_range] at hk
            have := hsame k (by omega)
            rcases hr : r k i with _ | v
            · exact absurd hr hk.2
            · rcases hp : p k i with _ | w
              · rw [hr, hp] at this; simp at this
              · dsimp only
                rw [hr, hp]
                simp only [Option.map₂_some_some, Option.getD_some, Option.map_some]
                ring

end

/-- The hypotheses of C148_missing are met, with a gap in the middle: returns 1, missing, 3. -/
example : presentAverage 1 (fun u => ([some 1, none, some 3] : List (Option ℝ))[u]?.getD none) 2 = some (13 / 5) := by
  unfold presentAverage
  rw [if_pos ⟨0, by norm_num, by simp⟩]
  have : (Finset.range (2 + 1)).filter (fun k => ([some 1, none, some 3] : List (Option ℝ))[k]?.getD none ≠ none) = {0, 2} := by
    ext k
    simp only [Finset.mem_filter, Finset.mem_range, Finset.mem_insert, Finset.mem_singleton]
    constructor
    · rintro ⟨h1, h2⟩
      interval_cases k
      · simp
      · simp at h2
      · simp
    · rintro (rfl | rfl) <;> simp
  rw [this, Finset.sum_pair (by norm_num), Finset.sum_pair (by norm_num)]
  norm_num [Real.rpow_neg_one, Real.rpow_neg, Real.rpow_natCast]

end CovPred
