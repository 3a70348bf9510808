import Verif.Model.MseTable
import Verif.Spec.MseTable
import Verif.Props.Regrets
import Verif.Props.Scores

/-
Property C183: the table of quarterly mean squared errors of the experiment notebooks.
-/
namespace CovPred
open Matrix
set_option linter.unusedSectionVars false

variable {τ : Type} [LinearOrder τ] {n : ℕ}

/-- The values of quarters `q0, q0 + 1, ...` that are not `nan`, as sums and members over the set of these quarters. -/
theorem quarter_values (M : ℕ) (q0 q1 : ℤ) (hM : (M : ℤ) = q1 - q0 + 1) (E : ℤ → Prop) [DecidablePred E] (v : ℤ → ℝ)
    (vs : List (Option ℝ))
    (hvs : vs = (List.range M).map fun k : ℕ => if E (q0 + (k : ℤ)) then none else some (v (q0 + (k : ℤ))))
    (Q : Finset ℤ) (hQ : Q = (Finset.Icc q0 q1).filter fun q => ¬ E q) :
    (∀ g : ℝ → ℝ, ((vs.filterMap id).map g).sum = ∑ q ∈ Q, g (v q)) ∧
    (vs.filterMap id).length = Q.card ∧ ∀ y, y ∈ vs.filterMap id ↔ ∃ q ∈ Q, v q = y := by
  have hlist := filterMap_range M q0 E v (fun k : ℕ => if E (q0 + (k : ℤ)) then none else some (v (q0 + (k : ℤ)))) (fun k => rfl)
  rw [← hvs] at hlist
  have hsum : ∀ g : ℝ → ℝ, ((vs.filterMap id).map g).sum = ∑ q ∈ Q, g (v q) := by
    intro g
    rw [hlist, List.map_map, hQ]
    exact sum_quarters M _ _ hM E fun q => g (v q)
  refine ⟨hsum, ?_, ?_⟩
  · have := hsum fun _ => 1
    simp only [List.map_const', List.sum_replicate, nsmul_eq_mul, mul_one, Finset.sum_const] at this
    exact_mod_cast this
  · intro y
    rw [hlist, List.mem_map, hQ]
    constructor
    · rintro ⟨k, hk, rfl⟩
      rw [List.mem_filter, List.mem_range] at hk
      refine ⟨q0 + (k : ℤ), ?_, rfl⟩
      rw [Finset.mem_filter, Finset.mem_Icc]
      exact ⟨⟨by omega, by omega⟩, by simpa using hk.2⟩
    · rintro ⟨q, hq1, rfl⟩
      rw [Finset.mem_filter, Finset.mem_Icc] at hq1
      have e : q0 + ((q - q0).toNat : ℤ) = q := by omega
      refine ⟨(q - q0).toNat, ?_, by rw [e]⟩
      rw [List.mem_filter, List.mem_range, e]
      exact ⟨by omega, by simpa using hq1.2⟩

/-- Mean, sample standard deviation and maximum of such values. -/
theorem quarter_stats {vs : List (Option ℝ)} {Q : Finset ℤ} {v : ℤ → ℝ}
    (hsum : ∀ g : ℝ → ℝ, ((vs.filterMap id).map g).sum = ∑ q ∈ Q, g (v q))
    (hlen : (vs.filterMap id).length = Q.card) (hmem : ∀ y, y ∈ vs.filterMap id ↔ ∃ q ∈ Q, v q = y) :
    (Q = ∅ → nanMean vs = none ∧ seriesStd vs = none ∧ nanMax vs = none) ∧
    (Q.Nonempty → nanMean vs = some ((∑ q ∈ Q, v q) / Q.card) ∧
      ∃ y, nanMax vs = some y ∧ (∃ q ∈ Q, v q = y) ∧ ∀ q ∈ Q, v q ≤ y) ∧
    (Q.card = 1 → seriesStd vs = none) ∧
    (2 ≤ Q.card → seriesStd vs = some (Real.sqrt ((∑ q ∈ Q, (v q - (∑ q ∈ Q, v q) / Q.card) ^ 2) / (Q.card - 1)))) := by
  have hsum' : (vs.filterMap id).sum = ∑ q ∈ Q, v q := by
    have := hsum id
    simpa using this
  have hmean : Q.card ≠ 0 → nanMean vs = some ((∑ q ∈ Q, v q) / Q.card) := by
    intro h
    unfold nanMean
    dsimp only
    rw [if_neg (by rw [hlen]; exact h), hsum', hlen]
  refine ⟨?_, ?_, ?_, ?_⟩
  · rintro rfl
    have h0 : vs.filterMap id = [] := List.length_eq_zero_iff.1 (by rw [hlen]; rfl)
    unfold nanMean seriesStd nanMax
    dsimp only
    rw [h0]
    exact ⟨rfl, rfl, rfl⟩
  · intro h
    refine ⟨hmean h.card_ne_zero, ?_⟩
    unfold nanMax
    rcases hx : vs.filterMap id with _ | ⟨y, ys⟩
    · rw [hx] at hlen
      exact absurd hlen.symm h.card_ne_zero
    · rw [hx] at hmem
      dsimp only
      obtain ⟨h1, h2⟩ := foldl_max_spec y ys
      exact ⟨_, rfl, (hmem _).1 h1, fun q hq => h2 _ ((hmem _).2 ⟨q, hq, rfl⟩)⟩
  · intro h
    unfold seriesStd
    dsimp only
    rw [if_pos (by rw [hlen, h])]
  · intro h
    unfold seriesStd
    dsimp only
    rw [if_neg (by rw [hlen]; omega), hmean (by omega), Option.map_some, hsum, hlen]

/-- The errors of predictions made at the rows `f k` of the table. -/
theorem mse_rows {m T : ℕ} {tm : ℕ → τ} (htm : Increasing T tm) (hn : 0 < n) (r : ℕ → NRow n) {f : ℕ → ℕ}
    (hfT : ∀ k, k < m → f k < T) (S : ℕ → Mat n) :
    mse (rowDict T tm r) (rowDict m (fun k => tm (f k)) S) = .ok (rowDict m (fun k => tm (f k)) fun k =>
      if f k + 1 < T ∧ ∀ i, (r (f k + 1) i).isSome then some (frob (S k - dyad fun i => (r (f k + 1) i).getD 0)) else none) := by
  unfold mse rowDict
  rw [mapM_ok_iff_forall₂, List.forall₂_map_left_iff, List.forall₂_map_right_iff, List.forall₂_same]
  intro k hk
  rw [List.mem_range] at hk
  have hl : (shiftBack ((List.range T).map fun t => (tm t, r t))).lookup (tm (f k)) =
      some (if f k + 1 < T then r (f k + 1) else fun _ => none) := by
    rw [shiftBack_panel]
    exact lookup_rows htm (fun t => if t + 1 < T then r (t + 1) else fun _ => none) (hfT k hk)
  have hfrob : ∀ x : Vec n, Real.sqrt (∑ i, ∑ j, (S k i j - outerR x i j) ^ 2) ^ 2 = frob (S k - dyad x) := by
    intro x
    rw [Real.sq_sqrt (Finset.sum_nonneg fun i _ => Finset.sum_nonneg fun j _ => sq_nonneg _)]
    rfl
  dsimp only
  rw [hl]
  dsimp only
  rw [hfrob]
  by_cases h : f k + 1 < T
  · simp only [h, if_true, true_and]
  · have h2 : ¬ ∀ i : Fin n, ((fun _ => none : NRow n) i).isSome := by
      intro h; have := h ⟨0, hn⟩; simp at this
    simp only [h, false_and, if_false]
    rw [if_neg h2]

/-- The list of quarterly values. -/
theorem mseQuarterly_rows (c : Calendar τ) (hc : ∀ t, 1 ≤ c.month t ∧ c.month t ≤ 12) {m T : ℕ} {tm : ℕ → τ}
    (htm : Increasing T tm) (hn : 0 < n) (r : ℕ → NRow n) {f : ℕ → ℕ} (hf : ∀ j k, j ≤ k → k < m + 1 → f j ≤ f k)
    (hfT : ∀ k, k < m + 1 → f k < T)
    {ym : ℕ → ℤ × ℤ} (hw : ∀ k, ym k = (c.year (tm k), c.month (tm k)))
    (hq : ∀ j k, j ≤ k → k < T → quarterIndex (ym j) ≤ quarterIndex (ym k)) (S : ℕ → Mat n) :
    mseQuarterly c (rowDict T tm r) (rowDict (m + 1) (fun k => tm (f k)) S) =
      .ok (rowDict (quarterIndex (ym (f m)) - quarterIndex (ym (f 0)) + 1).toNat (fun k : ℕ => quarterIndex (ym (f 0)) + (k : ℤ)) fun k : ℕ =>
        if scoredIn (m + 1) T r f ym (quarterIndex (ym (f 0)) + (k : ℤ)) = ∅ then none
        else some (quarterError (m + 1) T r f ym S (quarterIndex (ym (f 0)) + (k : ℤ)))) := by
  have hqn : ∀ k, c.quarterNo (tm k) = quarterIndex (ym k) := fun k => by rw [quarterNo_eq c hc, hw]
  unfold mseQuarterly
  rw [mse_rows htm hn r hfT S, ok_bind, if_neg (by unfold rowDict; simp)]
  rw [quarterlyMean_rows c m (fun k => tm (f k)) _ (by
    intro j k h1 h2
    rw [hqn, hqn]
    exact hq _ _ (hf j k h1 h2) (hfT k h2))]
  simp only [hqn]
  show Except.ok _ = Except.ok _
  congr 1
  unfold rowDict
  apply List.map_congr_left
  intro k _
  dsimp only
  congr 1
  rw [nanMean_filter (m + 1) (fun j => quarterIndex (ym (f j)) = quarterIndex (ym (f 0)) + (k : ℤ)) _
    (scoredIn (m + 1) T r f ym (quarterIndex (ym (f 0)) + (k : ℤ))) ?_]
  · unfold quarterError
    congr 3
    refine Finset.sum_congr rfl ?_
    intro j hj
    simp only [scoredIn, Finset.mem_filter] at hj
    rw [if_pos hj.2.2]
    rfl
  · unfold scoredIn
    apply Finset.filter_congr
    intro j _
    by_cases h : f j + 1 < T ∧ ∀ i, (r (f j + 1) i).isSome
    · simp [h]
    · rw [if_neg h]
      simp [h]

/-- **C183.** What is printed for a predictor with the matrices `S 0, ..., S m` of the rows `f 0 < ... < f m`: with `Q` the quarters
in which a prediction was made that can be compared with a return, the mean and the maximum of their errors (`nan` if there is
none) and the sample standard deviation (`nan` if there are less than two). -/
theorem C183_row (c : Calendar τ) (hc : ∀ t, 1 ≤ c.month t ∧ c.month t ≤ 12) (m T : ℕ) (tm : ℕ → τ)
    (htm : Increasing T tm) (hn : 0 < n) (r : ℕ → NRow n) (f : ℕ → ℕ) (hf : ∀ j k, j < k → k ≤ m → f j < f k)
    (hfT : f m < T) (ym : ℕ → ℤ × ℤ) (hw : ∀ k, ym k = (c.year (tm k), c.month (tm k)))
    (hq : ∀ j k, j ≤ k → k < T → quarterIndex (ym j) ≤ quarterIndex (ym k)) (S : ℕ → Mat n)
    (names : List String) (i : ℕ) (name : String) (hi : names[i]? = some name) (Q : Finset ℤ)
    (hQ : Q = (Finset.Icc (quarterIndex (ym (f 0))) (quarterIndex (ym (f m)))).filter fun q => (scoredIn (m + 1) T r f ym q).Nonempty) :
    ∃ row, mseItem c (rowDict T tm r) names (rowDict (m + 1) (fun k => tm (f k)) S, i) = .ok row ∧ row.name = name ∧
      (Q = ∅ → row.mean = none ∧ row.std = none ∧ row.max = none) ∧
      (Q.Nonempty → row.mean = some ((∑ q ∈ Q, quarterError (m + 1) T r f ym S q) / Q.card) ∧
        ∃ y, row.max = some y ∧ (∃ q ∈ Q, quarterError (m + 1) T r f ym S q = y) ∧
          ∀ q ∈ Q, quarterError (m + 1) T r f ym S q ≤ y) ∧
      (Q.card = 1 → row.std = none) ∧
      (2 ≤ Q.card → row.std = some (Real.sqrt ((∑ q ∈ Q, (quarterError (m + 1) T r f ym S q
        - (∑ q ∈ Q, quarterError (m + 1) T r f ym S q) / Q.card) ^ 2) / (Q.card - 1)))) := by
  have hf' : ∀ j k, j ≤ k → k < m + 1 → f j ≤ f k := by
    intro j k h1 h2
    rcases h1.lt_or_eq with h | rfl
    · exact (hf j k h (by omega)).le
    · exact le_rfl
  have hfT' : ∀ k, k < m + 1 → f k < T := fun k hk => (hf' k m (by omega) (by omega)).trans_lt hfT
  have hmono : quarterIndex (ym (f 0)) ≤ quarterIndex (ym (f m)) := hq _ _ (hf' 0 m (by omega) (by omega)) hfT
  obtain ⟨h1, h2, h3⟩ := quarter_values (quarterIndex (ym (f m)) - quarterIndex (ym (f 0)) + 1).toNat (quarterIndex (ym (f 0)))
    (quarterIndex (ym (f m))) (by omega) (fun q => scoredIn (m + 1) T r f ym q = ∅) (quarterError (m + 1) T r f ym S) _ rfl Q
    (by rw [hQ]; apply Finset.filter_congr; intro q _; rw [Finset.nonempty_iff_ne_empty])
  obtain ⟨k1, k2, k3, k4⟩ := quarter_stats h1 h2 h3
  refine ⟨⟨name, _, _, _⟩, ?_, rfl, k1, k2, k3, k4⟩
  · unfold mseItem
    dsimp only
    rw [mseQuarterly_rows c hc htm hn r hf' hfT' hw hq S, ok_bind, hi]
    unfold rowDict
    rw [List.map_map]
    rfl

/-- **C183.** The cell prints the rows of the predictors in order and stops at the first that raises. -/
theorem C183_cell (c : Calendar τ) (returns : List (τ × NRow n)) (names : List String) (predictors : List (Dict τ (Mat n)))
    (rows : List MseRow) (err : Option Err) (h : mseCell c returns names predictors = (rows, err)) :
    (∀ (k : ℕ) row, rows[k]? = some row → ∃ p, predictors[k]? = some p ∧ mseItem c returns names (p, k) = .ok row) ∧
    (∀ e, err = some e → ∃ p, predictors[rows.length]? = some p ∧ mseItem c returns names (p, rows.length) = .error e) ∧
    (err = none → rows.length = predictors.length) := by
  have key : ∀ (ps : List (Dict τ (Mat n))) (j : ℕ) (rows : List MseRow) (err : Option Err),
      mseTable c returns names (ps.zipIdx j) = (rows, err) →
      (∀ (k : ℕ) row, rows[k]? = some row → ∃ p, ps[k]? = some p ∧ mseItem c returns names (p, j + k) = .ok row) ∧
      (∀ e, err = some e → ∃ p, ps[rows.length]? = some p ∧ mseItem c returns names (p, j + rows.length) = .error e) ∧
      (err = none → rows.length = ps.length) := by
    intro ps
    induction ps with
    | nil =>
      intro j rows err h
      cases h
      exact ⟨by simp, by simp, by simp⟩
    | cons p ps ih =>
      intro j rows err h
      rw [List.zipIdx_cons] at h
      unfold mseTable at h
      rcases hp : mseItem c returns names (p, j) with e | row
      · rw [hp] at h
        cases h
        refine ⟨by simp, ?_, by simp⟩
        intro e' he
        cases he
        exact ⟨p, by simp, by simpa using hp⟩
      · rw [hp] at h
        dsimp only at h
        cases h
        obtain ⟨h1, h2, h3⟩ := ih (j + 1) _ _ rfl
        refine ⟨?_, ?_, ?_⟩
        · intro k row' hk
          rcases k with _ | k
          · simp only [List.getElem?_cons_zero, Option.some.injEq] at hk
            subst hk
            exact ⟨p, by simp, by simpa using hp⟩
          · rw [List.getElem?_cons_succ] at hk
            obtain ⟨p', hp1, hp2⟩ := h1 k row' hk
            exact ⟨p', by simpa using hp1, by rw [show j + (k + 1) = j + 1 + k by omega]; exact hp2⟩
        · intro e he
          obtain ⟨p', hp1, hp2⟩ := h2 e he
          refine ⟨p', by simpa using hp1, ?_⟩
          rw [List.length_cons, show ∀ l : ℕ, j + (l + 1) = j + 1 + l by intro l; omega]
          exact hp2
        · intro he
          rw [List.length_cons, List.length_cons, h3 he]
  have := key predictors 0 rows err h
  simpa using this

theorem shiftBack_keys (returns : List (τ × NRow n)) : (shiftBack returns).map Prod.fst = returns.map Prod.fst := by
  unfold shiftBack
  rw [List.map_fst_zip]
  simp only [List.length_map, List.length_append, List.length_tail, List.length_singleton]
  omega

theorem mse_error (returns : List (τ × NRow n)) (p : Dict τ (Mat n)) {e : Err} (h : mse returns p = .error e) :
    e = .keyError ∧ ∃ t ∈ p.map Prod.fst, t ∉ returns.map Prod.fst := by
  unfold mse at h
  obtain ⟨a, ha, he⟩ := mapM_error _ _ _ h
  rcases hl : (shiftBack returns).lookup a.1 with _ | x
  · rw [hl] at he
    cases he
    refine ⟨rfl, a.1, List.mem_map.2 ⟨a, ha, rfl⟩, ?_⟩
    rw [← shiftBack_keys]
    exact (lookup_none_iff (shiftBack returns) a.1).1 hl
  · rw [hl] at he
    cases he

theorem mse_ok_mem (returns : List (τ × NRow n)) (p : Dict τ (Mat n)) {l : List (τ × Option ℝ)} (h : mse returns p = .ok l) :
    ∀ t ∈ p.map Prod.fst, t ∈ returns.map Prod.fst := by
  unfold mse at h
  rw [mapM_ok_iff_forall₂] at h
  intro t ht
  obtain ⟨a, ha, rfl⟩ := List.mem_map.1 ht
  obtain ⟨b, _, hb⟩ := forall₂_mem_left h ha
  by_contra hno
  rw [← shiftBack_keys] at hno
  rw [(lookup_none_iff (shiftBack returns) a.1).2 hno] at hb
  cases hb

/-- **C183.** An empty predictor raises `TypeError`, a prediction at a date that the returns do not have `KeyError`, and a predictor
without a name `IndexError`. -/
theorem C183_errors (c : Calendar τ) (returns : List (τ × NRow n)) (names : List String) (i : ℕ) (p : Dict τ (Mat n)) :
    (p = [] → mseItem c returns names (p, i) = .error .typeError) ∧
    ((∃ t ∈ p.map Prod.fst, t ∉ returns.map Prod.fst) → mseItem c returns names (p, i) = .error .keyError) ∧
    (p ≠ [] → (∀ t ∈ p.map Prod.fst, t ∈ returns.map Prod.fst) → names.length ≤ i →
      mseItem c returns names (p, i) = .error .indexError) := by
  refine ⟨?_, ?_, ?_⟩
  · rintro rfl
    rfl
  · rintro ⟨t, ht, hno⟩
    unfold mseItem mseQuarterly
    dsimp only
    rcases h : mse returns p with e | l
    · rw [(mse_error returns p h).1]
      rfl
    · exact absurd (mse_ok_mem returns p h t ht) hno
  · intro hp hall hi
    unfold mseItem mseQuarterly
    dsimp only
    rcases h : mse returns p with e | l
    · obtain ⟨_, t, ht, hno⟩ := mse_error returns p h
      exact absurd (hall t ht) hno
    · rw [ok_bind, if_neg (by simpa using hp), List.getElem?_eq_none hi]
      rfl

/-! ### Units and the order of the assets -/

theorem filterMap_scale (κ : ℝ) (vs : List (Option ℝ)) :
    (vs.map (Option.map (κ * ·))).filterMap id = (vs.filterMap id).map (κ * ·) := by
  induction vs with
  | nil => rfl
  | cons a l ih =>
    cases a with
    | none => exact ih
    | some x => exact congrArg (κ * x :: ·) ih

theorem nanMean_scale (κ : ℝ) (vs : List (Option ℝ)) : nanMean (vs.map (Option.map (κ * ·))) = (nanMean vs).map (κ * ·) := by
  unfold nanMean
  dsimp only
  rw [filterMap_scale, List.length_map, List.sum_map_mul_left]
  by_cases h0 : (vs.filterMap id).length = 0
  · rw [if_pos h0, if_pos h0]; rfl
  · rw [if_neg h0, if_neg h0, Option.map_some, mul_div_assoc, List.map_id']

theorem seriesStd_scale {κ : ℝ} (hκ : 0 ≤ κ) (vs : List (Option ℝ)) :
    seriesStd (vs.map (Option.map (κ * ·))) = (seriesStd vs).map (κ * ·) := by
  unfold seriesStd
  dsimp only
  rw [filterMap_scale, List.length_map, nanMean_scale]
  by_cases h : (vs.filterMap id).length ≤ 1
  · rw [if_pos h, if_pos h]; rfl
  · rw [if_neg h, if_neg h]
    rcases nanMean vs with _ | μ
    · rfl
    · simp only [Option.map_some]
      congr 1
      have : (((vs.filterMap id).map (κ * ·)).map fun x => (x - κ * μ) ^ 2).sum
          = κ ^ 2 * ((vs.filterMap id).map fun x => (x - μ) ^ 2).sum := by
        rw [List.map_map, ← List.sum_map_mul_left]
        congr 1
        apply List.map_congr_left
        intro x _
        simp only [Function.comp]
        ring
      rw [this, mul_div_assoc, Real.sqrt_mul (sq_nonneg κ), Real.sqrt_sq hκ]

theorem nanMax_scale {κ : ℝ} (hκ : 0 ≤ κ) (vs : List (Option ℝ)) :
    nanMax (vs.map (Option.map (κ * ·))) = (nanMax vs).map (κ * ·) := by
  unfold nanMax
  rw [filterMap_scale]
  rcases vs.filterMap id with _ | ⟨x, xs⟩
  · rfl
  · show some (List.foldl max (κ * x) (xs.map (κ * ·))) = some (κ * xs.foldl max x)
    congr 1
    induction xs generalizing x with
    | nil => rfl
    | cons a l ih =>
      rw [List.map_cons, List.foldl_cons, List.foldl_cons, ← ih, mul_max_of_nonneg _ _ hκ]

/-- The row that belongs to the quarterly values `κ * v`. -/
theorem mse_scaled (c : Calendar τ) (hc : ∀ t, 1 ≤ c.month t ∧ c.month t ≤ 12) {m T : ℕ} {tm : ℕ → τ}
    (htm : Increasing T tm) {n' : ℕ} (hn : 0 < n) (hn' : 0 < n') (r : ℕ → NRow n) (r' : ℕ → NRow n') {f : ℕ → ℕ}
    (hf : ∀ j k, j < k → k ≤ m → f j < f k) (hfT : f m < T)
    {ym : ℕ → ℤ × ℤ} (hw : ∀ k, ym k = (c.year (tm k), c.month (tm k)))
    (hq : ∀ j k, j ≤ k → k < T → quarterIndex (ym j) ≤ quarterIndex (ym k)) (S : ℕ → Mat n) (S' : ℕ → Mat n')
    {names : List String} {i : ℕ} (hi : i < names.length) {κ : ℝ} (hκ : 0 ≤ κ)
    (hfull : ∀ k, (∀ a, (r' k a).isSome) ↔ ∀ a, (r k a).isSome)
    (herr : ∀ k j, (∀ a, (r j a).isSome) → frob (S' k - dyad fun a => (r' j a).getD 0)
      = κ * frob (S k - dyad fun a => (r j a).getD 0)) :
    ∃ row row', mseItem c (rowDict T tm r) names (rowDict (m + 1) (fun k => tm (f k)) S, i) = .ok row ∧
      mseItem c (rowDict T tm r') names (rowDict (m + 1) (fun k => tm (f k)) S', i) = .ok row' ∧
      row'.name = row.name ∧ row'.mean = row.mean.map (κ * ·) ∧ row'.std = row.std.map (κ * ·) ∧
      row'.max = row.max.map (κ * ·) := by
  have hf' : ∀ j k, j ≤ k → k < m + 1 → f j ≤ f k := by
    intro j k h1 h2
    rcases h1.lt_or_eq with h | rfl
    · exact (hf j k h (by omega)).le
    · exact le_rfl
  have hfT' : ∀ k, k < m + 1 → f k < T := fun k hk => (hf' k m (by omega) (by omega)).trans_lt hfT
  have hsc : ∀ q, scoredIn (m + 1) T r' f ym q = scoredIn (m + 1) T r f ym q := by
    intro q
    unfold scoredIn
    apply Finset.filter_congr
    intro k _
    rw [hfull]
  have hqe : ∀ q, quarterError (m + 1) T r' f ym S' q = κ * quarterError (m + 1) T r f ym S q := by
    intro q
    unfold quarterError
    rw [hsc, ← mul_div_assoc, Finset.mul_sum]
    congr 1
    refine Finset.sum_congr rfl ?_
    intro k hk
    simp only [scoredIn, Finset.mem_filter] at hk
    exact herr k _ hk.2.2.2
  have e1 := mseQuarterly_rows c hc htm hn r hf' hfT' hw hq S
  have e2 := mseQuarterly_rows c hc htm hn' r' hf' hfT' hw hq S'
  set l := rowDict (quarterIndex (ym (f m)) - quarterIndex (ym (f 0)) + 1).toNat (fun k : ℕ => quarterIndex (ym (f 0)) + (k : ℤ)) fun k : ℕ =>
        if scoredIn (m + 1) T r f ym (quarterIndex (ym (f 0)) + (k : ℤ)) = ∅ then none
        else some (quarterError (m + 1) T r f ym S (quarterIndex (ym (f 0)) + (k : ℤ))) with hl
  set l' := rowDict (quarterIndex (ym (f m)) - quarterIndex (ym (f 0)) + 1).toNat (fun k : ℕ => quarterIndex (ym (f 0)) + (k : ℤ)) fun k : ℕ =>
        if scoredIn (m + 1) T r' f ym (quarterIndex (ym (f 0)) + (k : ℤ)) = ∅ then none
        else some (quarterError (m + 1) T r' f ym S' (quarterIndex (ym (f 0)) + (k : ℤ))) with hl'
  have hv : l'.map Prod.snd = (l.map Prod.snd).map (Option.map (κ * ·)) := by
    rw [hl, hl']
    unfold rowDict
    rw [List.map_map, List.map_map, List.map_map]
    apply List.map_congr_left
    intro k _
    simp only [Function.comp, hsc, hqe]
    by_cases h : scoredIn (m + 1) T r f ym (quarterIndex (ym (f 0)) + (k : ℤ)) = ∅
    · simp [h]
    · simp [h]
  obtain ⟨name, hname⟩ : ∃ name, names[i]? = some name := ⟨_, List.getElem?_eq_getElem hi⟩
  refine ⟨⟨name, nanMean (l.map Prod.snd), seriesStd (l.map Prod.snd), nanMax (l.map Prod.snd)⟩,
    ⟨name, nanMean (l'.map Prod.snd), seriesStd (l'.map Prod.snd), nanMax (l'.map Prod.snd)⟩, ?_, ?_, rfl, ?_, ?_, ?_⟩
  · unfold mseItem
    dsimp only
    rw [e1, ok_bind, hname]
    rfl
  · unfold mseItem
    dsimp only
    rw [e2, ok_bind, hname]
    rfl
  · dsimp only
    rw [hv, nanMean_scale]
  · dsimp only
    rw [hv, seriesStd_scale hκ]
  · dsimp only
    rw [hv, nanMax_scale hκ]

/-- **C183.** Units: with returns multiplied by `κ` (and so covariances by `κ ^ 2`) all three printed numbers are multiplied by
`κ ^ 4`. -/
theorem C183_units (c : Calendar τ) (hc : ∀ t, 1 ≤ c.month t ∧ c.month t ≤ 12) (m T : ℕ) (tm : ℕ → τ)
    (htm : Increasing T tm) (hn : 0 < n) (r : ℕ → NRow n) (f : ℕ → ℕ) (hf : ∀ j k, j < k → k ≤ m → f j < f k)
    (hfT : f m < T) (ym : ℕ → ℤ × ℤ) (hw : ∀ k, ym k = (c.year (tm k), c.month (tm k)))
    (hq : ∀ j k, j ≤ k → k < T → quarterIndex (ym j) ≤ quarterIndex (ym k)) (S : ℕ → Mat n)
    (names : List String) (i : ℕ) (hi : i < names.length) (κ : ℝ) :
    ∃ row row', mseItem c (rowDict T tm r) names (rowDict (m + 1) (fun k => tm (f k)) S, i) = .ok row ∧
      mseItem c (rowDict T tm fun k a => (r k a).map (κ * ·)) names
        (rowDict (m + 1) (fun k => tm (f k)) fun k => κ ^ 2 • S k, i) = .ok row' ∧
      row'.name = row.name ∧ row'.mean = row.mean.map (κ ^ 4 * ·) ∧ row'.std = row.std.map (κ ^ 4 * ·) ∧
      row'.max = row.max.map (κ ^ 4 * ·) := by
  refine mse_scaled c hc htm hn hn r _ hf hfT hw hq S _ hi (by positivity) ?_ ?_
  · intro k
    simp
  · intro k j h
    unfold frob
    rw [Finset.mul_sum]
    refine Finset.sum_congr rfl fun a _ => ?_
    rw [Finset.mul_sum]
    refine Finset.sum_congr rfl fun b _ => ?_
    obtain ⟨x, hx⟩ := Option.isSome_iff_exists.1 (h a)
    obtain ⟨y, hy⟩ := Option.isSome_iff_exists.1 (h b)
    simp only [Matrix.sub_apply, Matrix.smul_apply, dyad, Matrix.of_apply, hx, hy, Option.map_some, Option.getD_some, smul_eq_mul]
    ring

/-- **C183.** The order of the assets does not matter. -/
theorem C183_order (c : Calendar τ) (hc : ∀ t, 1 ≤ c.month t ∧ c.month t ≤ 12) (m T : ℕ) (tm : ℕ → τ)
    (htm : Increasing T tm) (hn : 0 < n) (r : ℕ → NRow n) (f : ℕ → ℕ) (hf : ∀ j k, j < k → k ≤ m → f j < f k)
    (hfT : f m < T) (ym : ℕ → ℤ × ℤ) (hw : ∀ k, ym k = (c.year (tm k), c.month (tm k)))
    (hq : ∀ j k, j ≤ k → k < T → quarterIndex (ym j) ≤ quarterIndex (ym k)) (S : ℕ → Mat n)
    (names : List String) (i : ℕ) (hi : i < names.length) (e : Equiv.Perm (Fin n)) :
    ∃ row, mseItem c (rowDict T tm r) names (rowDict (m + 1) (fun k => tm (f k)) S, i) = .ok row ∧
      mseItem c (rowDict T tm fun k a => r k (e a)) names
        (rowDict (m + 1) (fun k => tm (f k)) fun k => (S k).submatrix e e, i) = .ok row := by
  obtain ⟨row, row', h1, h2, h3, h4, h5, h6⟩ := mse_scaled c hc htm hn hn r (fun k a => r k (e a)) hf hfT hw hq S
    (fun k => (S k).submatrix e e) hi (κ := 1) (by norm_num) (fun k => e.forall_congr_right (q := fun a => (r k a).isSome)) (by
      intro k j _
      rw [one_mul]
      unfold frob
      rw [← Equiv.sum_comp e (fun a => ∑ b, (S k - dyad fun a => (r j a).getD 0) a b ^ 2)]
      refine Finset.sum_congr rfl fun a _ => ?_
      rw [← Equiv.sum_comp e (fun b => (S k - dyad fun a => (r j a).getD 0) (e a) b ^ 2)]
      rfl)
  refine ⟨row, h1, ?_⟩
  rw [h2]
  obtain ⟨n1, m1, s1, x1⟩ := row
  obtain ⟨n2, m2, s2, x2⟩ := row'
  simp only [one_mul] at h3 h4 h5 h6
  simp only [Option.map_id', id_eq] at h4 h5 h6
  subst h3 h4 h5 h6
  rfl

/-! ### Example: one asset, five days, two quarters -/

namespace MseEx

/-- Days 0, 1, 2 are in the first quarter, days 3, 4 in the second. -/
def cal : Calendar ℕ := { year := fun _ => 2000, month := fun t => if t < 3 then 3 else 4 }

/-- the returns `0, 1, 2, 3, 4` -/
def ret : ℕ → NRow 1 := fun k _ => some (k : ℝ)

/-- the day of a row: `(2000, 3)` or `(2000, 4)` -/
def days : ℕ → ℤ × ℤ := fun k => (2000, if k < 3 then 3 else 4)

theorem mem_scored (q : ℤ) (k : ℕ) : k ∈ scoredIn 5 5 ret (fun k => k) days q ↔ k < 4 ∧ quarterIndex (days k) = q := by
  unfold scoredIn
  rw [Finset.mem_filter, Finset.mem_range]
  constructor
  · rintro ⟨_, h, h', _⟩
    exact ⟨by dsimp only at h'; omega, h⟩
  · rintro ⟨h, h'⟩
    exact ⟨by omega, h', by dsimp only; omega, fun _ => rfl⟩

theorem scored_first : scoredIn 5 5 ret (fun k => k) days 8000 = {0, 1, 2} := by
  ext k
  rw [mem_scored]
  simp only [Finset.mem_insert, Finset.mem_singleton, days, quarterIndex]
  constructor
  · rintro ⟨_, h⟩
    split_ifs at h <;> omega
  · rintro (rfl | rfl | rfl) <;> simp

theorem scored_second : scoredIn 5 5 ret (fun k => k) days 8001 = {3} := by
  ext k
  rw [mem_scored]
  simp only [Finset.mem_singleton, days, quarterIndex]
  constructor
  · rintro ⟨_, h⟩
    split_ifs at h <;> omega
  · rintro rfl
    simp

/-- The prediction 0 on every day: the errors are the fourth powers of the next returns, 1, 16, 81 in the first quarter and 256 in
the second; the last prediction has no return. The quarterly means are 98/3 and 256. -/
example : ∃ row, mseItem cal (rowDict 5 (fun t : ℕ => t) ret) ["zero"] (rowDict 5 (fun k : ℕ => k) (fun _ => (0 : Mat 1)), 0) = .ok row ∧
    row.name = "zero" ∧ row.mean = some ((98 / 3 + 256) / 2) ∧ row.max = some 256 ∧ row.std.isSome := by
  have hQ : ({8000, 8001} : Finset ℤ) = (Finset.Icc (quarterIndex (days 0)) (quarterIndex (days 4))).filter
      fun q => (scoredIn 5 5 ret (fun k => k) days q).Nonempty := by
    have e0 : quarterIndex (days 0) = 8000 := by simp [quarterIndex, days]
    have e4 : quarterIndex (days 4) = 8001 := by simp [quarterIndex, days]
    rw [e0, e4]
    ext q
    simp only [Finset.mem_insert, Finset.mem_singleton, Finset.mem_filter, Finset.mem_Icc]
    constructor
    · rintro (rfl | rfl)
      · rw [scored_first]; simp
      · rw [scored_second]; simp
    · rintro ⟨h, _⟩
      omega
  obtain ⟨row, h1, h2, _, h4, _, h6⟩ := C183_row cal (by intro t; unfold cal; dsimp only; split_ifs <;> omega) 4 5 (fun t => t)
    (fun _ _ h _ => h) (by norm_num) ret (fun k => k) (fun _ _ h _ => h) (by norm_num) days (by
      intro k
      unfold days cal
      rfl) (by
      intro j k h1 _
      unfold days quarterIndex
      dsimp only
      split_ifs <;> omega) (fun _ => 0) ["zero"] 0 "zero" rfl {8000, 8001} hQ
  have v1 : quarterError (4 + 1) 5 ret (fun k => k) days (fun _ => (0 : Mat 1)) 8000 = 98 / 3 := by
    unfold quarterError
    rw [scored_first]
    simp [frob, dyad, ret, Finset.sum_insert]
    norm_num
  have v2 : quarterError (4 + 1) 5 ret (fun k => k) days (fun _ => (0 : Mat 1)) 8001 = 256 := by
    unfold quarterError
    rw [scored_second]
    simp [frob, dyad, ret]
    norm_num
  obtain ⟨hm, y, hy, ⟨q, hq, hqy⟩, hle⟩ := h4 (by simp)
  refine ⟨row, h1, h2, ?_, ?_, ?_⟩
  · rw [hm]
    simp [Finset.sum_insert, v1, v2]
  · rw [hy]
    have h8 := hle 8001 (by simp)
    simp only [Finset.mem_insert, Finset.mem_singleton] at hq
    rcases hq with rfl | rfl
    · rw [v2] at h8
      rw [v1] at hqy
      exfalso
      rw [← hqy] at h8
      norm_num at h8
    · rw [← hqy, v2]
  · rw [h6 (by simp)]
    rfl

end MseEx

end CovPred
