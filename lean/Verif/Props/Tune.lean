import Verif.Model.Tune
import Verif.Spec.Tune
import Verif.Lemmas.Combination
import Mathlib.Data.List.Sort
import Mathlib.Data.List.Pairwise
import Mathlib.Data.Fintype.Card
import Mathlib.Algebra.Order.Floor.Semiring
import Mathlib.Tactic.Linarith
import Mathlib.Tactic.FinCases

/-
Properties of `tune_returns` and `tune_returns2` (C145-C147).
-/
set_option linter.unusedSectionVars false
namespace CovPred

variable {τ : Type} {n : ℕ}

/-! ### The quantile -/

private theorem sorted_spec (r : Vec n) : (sortedRow r).Perm (List.ofFn r) ∧ (sortedRow r).Pairwise (· ≤ ·) := by
  constructor
  · exact List.mergeSort_perm _ _
  · have := List.pairwise_mergeSort (le := fun a b : ℝ => decide (a ≤ b))
      (fun a b c h1 h2 => by simp only [decide_eq_true_eq] at *; exact h1.trans h2)
      (fun a b => by simp only [Bool.or_eq_true, decide_eq_true_eq]; exact le_total a b) (List.ofFn r)
    exact this.imp fun h => by simpa using h

private theorem sorted_length (r : Vec n) : (sortedRow r).length = n := by
  rw [(sorted_spec r).1.length_eq, List.length_ofFn]

private theorem quantile_spec (r : Vec n) (hn : 0 < n) {q : ℝ} (h0 : 0 ≤ q) (h1 : q ≤ 1) :
    IsQuantile (List.ofFn r) q (quantileAt r q) := by
  have hl := sorted_length r
  refine ⟨sortedRow r, (sorted_spec r).1, (sorted_spec r).2, ?_⟩
  have hn1 : (1 : ℝ) ≤ n := by exact_mod_cast hn
  rw [List.length_ofFn]
  unfold quantileAt
  dsimp only
  split
  · next hv =>
    refine ⟨n - 1, by omega, Or.inl ⟨?_, ?_⟩⟩
    · rw [Nat.cast_sub hn, Nat.cast_one]
      have : ((n : ℝ) - 1) * q ≤ (n - 1) * 1 := mul_le_mul_of_nonneg_left h1 (by linarith)
      linarith
    · rw [List.getElem?_eq_getElem (by omega)]; rfl
  · next hv =>
    have hlt : ((n : ℝ) - 1) * q < n - 1 := not_le.1 hv
    have hv0 : 0 ≤ ((n : ℝ) - 1) * q := mul_nonneg (by linarith) h0
    have hf1 := Nat.floor_le hv0
    have hf2 := Nat.lt_floor_add_one (((n : ℝ) - 1) * q)
    set k := ⌊((n : ℝ) - 1) * q⌋₊ with hk
    have hkn : k + 1 < n := by
      have : (k : ℝ) < n - 1 := lt_of_le_of_lt hf1 hlt
      have : ((k + 1 : ℕ) : ℝ) < n := by push_cast; linarith
      exact_mod_cast this
    rw [List.getElem?_eq_getElem (by omega), List.getElem?_eq_getElem (by omega)]
    refine ⟨k, by omega, ?_⟩
    rcases hf1.lt_or_eq with h | h
    · refine Or.inr ⟨by omega, ((n : ℝ) - 1) * q - k, by linarith, by linarith, by ring, ?_⟩
      simp only [Option.getD_some]
      ring
    · refine Or.inl ⟨by rw [h, mul_comm], ?_⟩
      simp only [Option.getD_some, h, sub_self, mul_zero, add_zero]

/-- the value of a quantile from a given sorted list -/
private theorem IsQuantile.on {xs s : List ℝ} {q v : ℝ} (h : IsQuantile xs q v) (hp : s.Perm xs) (hs : s.Pairwise (· ≤ ·)) :
    ∃ (k : ℕ) (hk : k < s.length),
    ((k : ℝ) = q * ((xs.length : ℝ) - 1) ∧ v = s[k]) ∨
    ∃ (hk' : k + 1 < s.length) (g : ℝ), 0 < g ∧ g < 1 ∧ k + g = q * ((xs.length : ℝ) - 1) ∧
      v = (1 - g) * s[k] + g * s[k + 1] := by
  obtain ⟨s', hp', hs', h⟩ := h
  have : s' = s := List.Perm.eq_of_pairwise (fun a b _ _ => le_antisymm) hs' hs (hp'.trans hp.symm)
  subst this
  exact h

private theorem getElem_mono {s : List ℝ} (hs : s.Pairwise (· ≤ ·)) {i j : ℕ} (hij : i ≤ j) (hj : j < s.length) :
    s[i] ≤ s[j] := by
  rcases hij.lt_or_eq with h | h
  · exact (List.pairwise_iff_getElem.1 hs) i j _ _ h
  · subst h; exact le_rfl

private theorem quantile_mono {xs : List ℝ} {q q' v v' : ℝ} (h : IsQuantile xs q v) (h' : IsQuantile xs q' v')
    (hq : q ≤ q') : v ≤ v' := by
  obtain ⟨s, hp, hs, h⟩ := h
  have h' := h'.on hp hs
  have hlen : 0 < xs.length := by obtain ⟨k, hk, _⟩ := h; rw [← hp.length_eq]; omega
  have hpos : (q : ℝ) * ((xs.length : ℝ) - 1) ≤ q' * ((xs.length : ℝ) - 1) :=
    mul_le_mul_of_nonneg_right hq (by have : (1 : ℝ) ≤ xs.length := by exact_mod_cast hlen
                                      linarith)
  obtain ⟨k, hk, h⟩ := h
  obtain ⟨k', hk', h'⟩ := h'
  rcases h with ⟨e, rfl⟩ | ⟨hk1, g, g0, g1, e, rfl⟩ <;> rcases h' with ⟨e', rfl⟩ | ⟨hk1', g', g0', g1', e', rfl⟩
  · have : k ≤ k' := by have : (k : ℝ) ≤ k' := by linarith
                        exact_mod_cast this
    exact getElem_mono hs this hk'
  · have : k ≤ k' := by have : (k : ℝ) < k' + 1 := by linarith
                        have : k < k' + 1 := by exact_mod_cast this
                        omega
    have a1 := getElem_mono hs this hk'
    have a2 := getElem_mono hs (show k ≤ k' + 1 by omega) hk1'
    nlinarith
  · have : k + 1 ≤ k' := by have : (k : ℝ) < k' := by linarith
                            have : k < k' := by exact_mod_cast this
                            omega
    have a1 := getElem_mono hs this hk'
    have a2 := getElem_mono hs (show k ≤ k' by omega) hk'
    nlinarith
  · have : k ≤ k' := by have : (k : ℝ) < k' + 1 := by linarith
                        have : k < k' + 1 := by exact_mod_cast this
                        omega
    rcases this.lt_or_eq with hlt | heq
    · have a1 := getElem_mono hs (show k + 1 ≤ k' by omega) hk'
      have a2 := getElem_mono hs (show k ≤ k' by omega) hk'
      have a3 := getElem_mono hs (show k' ≤ k' + 1 by omega) hk1'
      nlinarith
    · subst heq
      have a3 := getElem_mono hs (show k ≤ k + 1 by omega) hk1'
      have : g ≤ g' := by linarith
      nlinarith

private theorem quantile_unique {xs : List ℝ} {q v v' : ℝ} (h : IsQuantile xs q v) (h' : IsQuantile xs q v') : v = v' :=
  le_antisymm (quantile_mono h h' le_rfl) (quantile_mono h' h le_rfl)

private theorem quantile_perm {xs ys : List ℝ} {q v : ℝ} (h : IsQuantile xs q v) (hp : xs.Perm ys) : IsQuantile ys q v := by
  obtain ⟨s, h1, h2, h3⟩ := h
  refine ⟨s, h1.trans hp, h2, ?_⟩
  rwa [hp.length_eq] at h3

private theorem quantile_affine {xs : List ℝ} {q v a b : ℝ} (ha : 0 ≤ a) (h : IsQuantile xs q v) :
    IsQuantile (xs.map fun x => a * x + b) q (a * v + b) := by
  obtain ⟨s, h1, h2, k, hk, h3⟩ := h
  refine ⟨s.map fun x => a * x + b, h1.map _, ?_, k, by rwa [List.length_map], ?_⟩
  · rw [List.pairwise_map]
    exact h2.imp fun h => by nlinarith
  · simp only [List.length_map, List.getElem_map]
    rcases h3 with ⟨e, rfl⟩ | ⟨hk1, g, g0, g1, e, rfl⟩
    · exact Or.inl ⟨e, rfl⟩
    · exact Or.inr ⟨hk1, g, g0, g1, e, by ring⟩

private theorem quantile_neg {xs : List ℝ} {q v : ℝ} (h : IsQuantile xs q v) :
    IsQuantile (xs.map fun x => -x) (1 - q) (-v) := by
  obtain ⟨s, h1, h2, k, hk, h3⟩ := h
  have hl := h1.length_eq
  refine ⟨(s.map fun x => -x).reverse, (List.reverse_perm _).trans (h1.map _), ?_, ?_⟩
  · rw [List.pairwise_reverse, List.pairwise_map]
    exact h2.imp fun h => by linarith
  · simp only [List.length_reverse, List.length_map, List.getElem_reverse, List.getElem_map]
    rcases h3 with ⟨e, rfl⟩ | ⟨hk1, g, g0, g1, e, rfl⟩
    · refine ⟨s.length - 1 - k, by omega, Or.inl ⟨?_, ?_⟩⟩
      · rw [Nat.cast_sub (by omega), Nat.cast_sub (by omega), e, hl]
        push_cast; ring
      · congr 2; omega
    · refine ⟨s.length - 2 - k, by omega, Or.inr ⟨by omega, 1 - g, by linarith, by linarith, ?_, ?_⟩⟩
      · rw [Nat.cast_sub (by omega), Nat.cast_sub (by omega), hl]
        push_cast
        linarith
      · have e1 : s.length - 1 - (s.length - 2 - k) = k + 1 := by omega
        have e2 : s.length - 1 - (s.length - 2 - k + 1) = k := by omega
        simp only [e1, e2]
        ring

/-- the number of elements that satisfy a predicate, in a list and in a permutation -/
private theorem count_row (r : Vec n) {s : List ℝ} (hp : s.Perm (List.ofFn r)) (P : ℝ → Prop) [DecidablePred P] :
    (Finset.univ.filter fun i => P (r i)).card = s.countP P := by
  rw [hp.countP_eq, List.ofFn_eq_map, List.countP_map, List.countP_eq_length_filter,
    ← List.toFinset_card_of_nodup ((List.nodup_finRange n).filter _)]
  congr 1
  ext i
  simp

private theorem count_le {s : List ℝ} {P : ℝ → Prop} [DecidablePred P] {k : ℕ} (h : ∀ j (hj : j < s.length), k ≤ j → ¬ P s[j]) :
    s.countP P ≤ k := by
  rw [← List.take_append_drop k s, List.countP_append]
  have : (s.drop k).countP P = 0 := by
    rw [List.countP_eq_zero]
    intro x hx
    obtain ⟨j, hj, rfl⟩ := List.getElem_of_mem hx
    rw [List.getElem_drop]
    simpa using h (k + j) (by rw [List.length_drop] at hj; omega) (by omega)
  rw [this, add_zero]
  exact List.countP_le_length.trans (List.length_take_le _ _)

private theorem count_le' {s : List ℝ} {P : ℝ → Prop} [DecidablePred P] {k : ℕ} (h : ∀ j (hj : j < s.length), j < k → ¬ P s[j]) :
    s.countP P ≤ s.length - k := by
  conv_lhs => rw [← List.take_append_drop k s]
  rw [List.countP_append]
  have : (s.take k).countP P = 0 := by
    rw [List.countP_eq_zero]
    intro x hx
    obtain ⟨j, hj, rfl⟩ := List.getElem_of_mem hx
    rw [List.getElem_take]
    rw [List.length_take] at hj
    simpa using h j (by omega) (by omega)
  rw [this, zero_add, ← List.length_drop]
  exact List.countP_le_length

/-- fewer than `q (n - 1) + 1` entries are below the quantile -/
private theorem below (r : Vec n) {q v : ℝ} (h : IsQuantile (List.ofFn r) q v) :
    ((Finset.univ.filter fun i => r i < v).card : ℝ) < q * (n - 1) + 1 := by
  obtain ⟨s, hp, hs, k, hk, h3⟩ := h
  rw [List.length_ofFn] at h3
  rw [count_row r hp (fun x => x < v)]
  rcases h3 with ⟨e, rfl⟩ | ⟨hk1, g, g0, g1, e, rfl⟩
  · have := count_le (s := s) (P := fun x => x < s[k]) (k := k) fun j hj hkj => not_lt.2 (getElem_mono hs hkj hj)
    have : ((s.countP fun x => decide (x < s[k]) : ℕ) : ℝ) ≤ k := by exact_mod_cast this
    linarith
  · have a := getElem_mono hs (show k ≤ k + 1 by omega) hk1
    have := count_le (s := s) (P := fun x => x < (1 - g) * s[k] + g * s[k + 1]) (k := k + 1) fun j hj hkj => not_lt.2 (by
      have := getElem_mono hs hkj hj
      nlinarith)
    have : ((s.countP fun x => decide (x < (1 - g) * s[k] + g * s[k + 1]) : ℕ) : ℝ) ≤ ((k + 1 : ℕ) : ℝ) := by
      exact_mod_cast this
    push_cast at this
    linarith

private theorem above (r : Vec n) {q v : ℝ} (h : IsQuantile (List.ofFn r) q v) :
    ((Finset.univ.filter fun i => v < r i).card : ℝ) < (1 - q) * (n - 1) + 1 := by
  have := quantile_neg h
  have e : (List.ofFn r).map (fun x => -x) = List.ofFn fun i => -r i := by
    rw [List.map_ofFn]; rfl
  rw [e] at this
  have := below _ this
  simpa [neg_lt_neg_iff] using this

/-- quantiles of larger rows are larger -/
private theorem quantile_row_mono {r r' : Vec n} (hr : ∀ i, r i ≤ r' i) {q v v' : ℝ} (h : IsQuantile (List.ofFn r) q v)
    (h' : IsQuantile (List.ofFn r') q v') : v ≤ v' := by
  have hp := (sorted_spec r).1
  have hp' := (sorted_spec r').1
  have hs := (sorted_spec r).2
  have hs' := (sorted_spec r').2
  have key : ∀ k (hk : k < n), (sortedRow r)[k]'(by rw [sorted_length]; exact hk) ≤
      (sortedRow r')[k]'(by rw [sorted_length]; exact hk) := by
    intro k hk
    by_contra hc
    rw [not_le] at hc
    have hl := sorted_length r
    have hl' := sorted_length r'
    set c := (sortedRow r')[k]'(by omega) with hcdef
    have c1 : (sortedRow r).countP (fun x => decide (x ≤ c)) ≤ k :=
      count_le (P := fun x => x ≤ c) fun j hj hkj => not_le.2 (lt_of_lt_of_le hc (getElem_mono hs hkj hj))
    have c2 : (sortedRow r').countP (fun x => decide (c < x)) ≤ (sortedRow r').length - (k + 1) :=
      count_le' (P := fun x => c < x) fun j hj hjk => not_lt.2 (getElem_mono hs' (show j ≤ k by omega) (by omega))
    rw [← count_row r hp (fun x => x ≤ c)] at c1
    rw [← count_row r' hp' (fun x => c < x)] at c2
    have c3 : (Finset.univ.filter fun i => r' i ≤ c).card + (Finset.univ.filter fun i => c < r' i).card = n := by
      have := Finset.card_filter_add_card_filter_not (s := (Finset.univ : Finset (Fin n))) (fun i => r' i ≤ c)
      simpa [not_le] using this
    have c4 : (Finset.univ.filter fun i => r' i ≤ c).card ≤ (Finset.univ.filter fun i => r i ≤ c).card := by
      apply Finset.card_le_card
      intro i hi
      simp only [Finset.mem_filter, Finset.mem_univ, true_and] at hi ⊢
      exact (hr i).trans hi
    omega
  obtain ⟨k, hk, h⟩ := h.on hp hs
  obtain ⟨k', hk', h'⟩ := h'.on hp' hs'
  rw [List.length_ofFn] at h h'
  have hl := sorted_length r
  have hl' := sorted_length r'
  rcases h with ⟨e, rfl⟩ | ⟨hk1, g, g0, g1, e, rfl⟩ <;> rcases h' with ⟨e', rfl⟩ | ⟨hk1', g', g0', g1', e', rfl⟩
  · have : k = k' := by have : (k : ℝ) = k' := by linarith
                        exact_mod_cast this
    subst this
    exact key k (by omega)
  · have h1 : (k : ℝ) = k' + g' := by linarith
    have : k' < k := by have : (k' : ℝ) < k := by linarith
                        exact_mod_cast this
    have : k < k' + 1 := by have : (k : ℝ) < (k' + 1 : ℕ) := by push_cast; linarith
                            exact_mod_cast this
    omega
  · have h1 : (k' : ℝ) = k + g := by linarith
    have : k < k' := by have : (k : ℝ) < k' := by linarith
                        exact_mod_cast this
    have : k' < k + 1 := by have : (k' : ℝ) < (k + 1 : ℕ) := by push_cast; linarith
                            exact_mod_cast this
    omega
  · have a1 : k < k' + 1 := by have : (k : ℝ) < (k' + 1 : ℕ) := by push_cast; linarith
                               exact_mod_cast this
    have a2 : k' < k + 1 := by have : (k' : ℝ) < (k + 1 : ℕ) := by push_cast; linarith
                               exact_mod_cast this
    have : k = k' := by omega
    subst this
    have : g = g' := by linarith
    subst this
    have b1 := key k (by omega)
    have b2 := key (k + 1) (by omega)
    nlinarith

/-! ### C145 -/

private theorem quantile_ok (r : Vec n) {q : ℝ} (h : 0 ≤ q ∧ q ≤ 1) : quantile r q = .ok (quantileAt r q) := by
  rw [quantile, if_pos h]

private theorem clip_eq (r : Vec n) (lo hi : ℝ) (i : Fin n) :
    clipSeries r lo hi i = max (min lo hi) (min (max lo hi) (r i)) := by
  have h := min_le_max (a := lo) (b := hi)
  unfold clipSeries
  dsimp only
  generalize min lo hi = a at *
  generalize max lo hi = b at *
  split_ifs with h1 h2 h2
  · rw [min_eq_right h1, max_eq_right h2]
  · rw [min_eq_right h1, max_eq_left (not_le.1 h2).le]
  · rw [min_eq_left (not_le.1 h1).le, max_eq_right h]

private theorem tuneRow_ok {lower upper : ℝ} (hl : 0 ≤ lower ∧ lower ≤ 1) (hu : 0 ≤ upper ∧ upper ≤ 1) (p : τ × Vec n) :
    tuneRow lower upper p = .ok (p.1, clipSeries p.2 (quantileAt p.2 lower) (quantileAt p.2 upper)) := by
  unfold tuneRow
  rw [quantile_ok _ hl, quantile_ok _ hu]
  rfl

private theorem tune_ok {lower upper : ℝ} (hl : 0 ≤ lower ∧ lower ≤ 1) (hu : 0 ≤ upper ∧ upper ≤ 1)
    (returns : List (τ × Vec n)) :
    tuneReturns returns lower upper =
      .ok (returns.map fun p => (p.1, clipSeries p.2 (quantileAt p.2 lower) (quantileAt p.2 upper))) :=
  mapM_ok_of _ _ _ fun p _ => tuneRow_ok hl hu p

private theorem below_le (r : Vec n) {q v : ℝ} (h : IsQuantile (List.ofFn r) q v) {o : Vec n}
    (ho : ∀ i, r i < o i → r i < v) :
    ((Finset.univ.filter fun i => r i < o i).card : ℝ) < q * (n - 1) + 1 := by
  refine lt_of_le_of_lt ?_ (below r h)
  rw [Nat.cast_le]
  apply Finset.card_le_card
  intro i hi
  simp only [Finset.mem_filter, Finset.mem_univ, true_and] at hi ⊢
  exact ho i hi

private theorem above_le (r : Vec n) {q v : ℝ} (h : IsQuantile (List.ofFn r) q v) {o : Vec n}
    (ho : ∀ i, o i < r i → v < r i) :
    ((Finset.univ.filter fun i => o i < r i).card : ℝ) < (1 - q) * (n - 1) + 1 := by
  refine lt_of_le_of_lt ?_ (above r h)
  rw [Nat.cast_le]
  apply Finset.card_le_card
  intro i hi
  simp only [Finset.mem_filter, Finset.mem_univ, true_and] at hi ⊢
  exact ho i hi

/-- **C145.** With `0 ≤ lower ≤ upper ≤ 1` every row of numbers is cut at its own quantiles `lo ≤ hi`, and nothing else
happens to it: the rows keep their labels and their order, an entry between the quantiles keeps its value, one below `lo`
becomes `lo` and one above `hi` becomes `hi`. Fewer than `lower (n - 1) + 1` entries of a row are raised and fewer than
`(1 - upper) (n - 1) + 1` lowered, and the assets are never exchanged: if one has the smaller prediction before, it does
not have the larger one after. -/
theorem C145_tune_returns (returns : List (τ × Vec n)) (hn : 0 < n) {lower upper : ℝ} (h0 : 0 ≤ lower) (hlu : lower ≤ upper)
    (h1 : upper ≤ 1) :
    ∃ out, tuneReturns returns lower upper = .ok out ∧ List.Forall₂ (fun p q => q.1 = p.1 ∧
      (∃ lo hi, IsQuantile (List.ofFn p.2) lower lo ∧ IsQuantile (List.ofFn p.2) upper hi ∧ lo ≤ hi ∧
        ∀ i, (p.2 i < lo → q.2 i = lo) ∧ (lo ≤ p.2 i → p.2 i ≤ hi → q.2 i = p.2 i) ∧ (hi < p.2 i → q.2 i = hi)) ∧
      ((Finset.univ.filter fun i => p.2 i < q.2 i).card : ℝ) < lower * (n - 1) + 1 ∧
      ((Finset.univ.filter fun i => q.2 i < p.2 i).card : ℝ) < (1 - upper) * (n - 1) + 1 ∧
      ∀ i j, p.2 i ≤ p.2 j → q.2 i ≤ q.2 j) returns out := by
  refine ⟨_, tune_ok ⟨h0, hlu.trans h1⟩ ⟨h0.trans hlu, h1⟩ returns, ?_⟩
  rw [List.forall₂_map_right_iff, List.forall₂_same]
  intro p _
  have q1 := quantile_spec p.2 hn h0 (hlu.trans h1)
  have q2 := quantile_spec p.2 hn (h0.trans hlu) h1
  have hle := quantile_mono q1 q2 hlu
  have hc : ∀ i, clipSeries p.2 (quantileAt p.2 lower) (quantileAt p.2 upper) i =
      max (quantileAt p.2 lower) (min (quantileAt p.2 upper) (p.2 i)) := by
    intro i
    rw [clip_eq, min_eq_left hle, max_eq_right hle]
  generalize quantileAt p.2 lower = lo at *
  generalize quantileAt p.2 upper = hi at *
  refine ⟨rfl, ⟨lo, hi, q1, q2, hle, fun i => ⟨fun h => ?_, fun h h' => ?_, fun h => ?_⟩⟩, ?_, ?_, fun i j hij => ?_⟩
  · show clipSeries p.2 lo hi i = _
    rw [hc, min_eq_right (by linarith), max_eq_left h.le]
  · show clipSeries p.2 lo hi i = _
    rw [hc, min_eq_right h', max_eq_right h]
  · show clipSeries p.2 lo hi i = _
    rw [hc, min_eq_left h.le, max_eq_right hle]
  · refine below_le p.2 q1 fun i hi' => ?_
    by_contra hcon
    rw [not_lt] at hcon
    have : clipSeries p.2 lo hi i ≤ p.2 i := by rw [hc]; exact max_le hcon (min_le_right _ _)
    exact absurd hi' (not_lt.2 this)
  · refine above_le p.2 q2 fun i hi' => ?_
    by_contra hcon
    rw [not_lt] at hcon
    have : p.2 i ≤ clipSeries p.2 lo hi i := by rw [hc, min_eq_right hcon]; exact le_max_right _ _
    exact absurd hi' (not_lt.2 this)
  · show clipSeries p.2 lo hi i ≤ clipSeries p.2 lo hi j
    rw [hc, hc]
    exact max_le_max le_rfl (min_le_min le_rfl hij)

/-- **C145.** Exchanging the two arguments does not change the result, and a level outside `[0, 1]` is rejected. -/
theorem C145_arguments (returns : List (τ × Vec n)) (lower upper : ℝ) :
    ((0 ≤ lower ∧ lower ≤ 1) → (0 ≤ upper ∧ upper ≤ 1) →
      tuneReturns returns upper lower = tuneReturns returns lower upper) ∧
    (returns ≠ [] → ¬ ((0 ≤ lower ∧ lower ≤ 1) ∧ (0 ≤ upper ∧ upper ≤ 1)) →
      tuneReturns returns lower upper = .error .valueError) := by
  constructor
  · intro hl hu
    rw [tune_ok hl hu, tune_ok hu hl]
    congr 1
    apply List.map_congr_left
    intro p _
    congr 1
    funext i
    rw [clip_eq, clip_eq, min_comm, max_comm (quantileAt p.2 upper)]
  · intro hne h
    obtain ⟨p, l, rfl⟩ := List.exists_cons_of_ne_nil hne
    have : tuneRow lower upper p = .error .valueError := by
      unfold tuneRow
      by_cases hl : 0 ≤ lower ∧ lower ≤ 1
      · rw [quantile_ok _ hl, quantile, if_neg fun hu => h ⟨hl, hu⟩]
        rfl
      · rw [quantile, if_neg hl]
        rfl
    unfold tuneReturns
    rw [List.mapM_cons, this]
    rfl

/-! ### C146 -/

/-- **C146.** `tune_returns` commutes with a change of units and of origin of all predictions (`a x + b`, `a ≥ 0`), with a
reordering of the assets, and - with the levels `1 - upper` and `1 - lower` - with the change of sign; and it respects
the order of rows: larger predictions are never tuned to smaller ones. Each row is tuned on its own. -/
theorem C146_tune_equivariance (returns : List (τ × Vec n)) (hn : 0 < n) {lower upper : ℝ} (hl : 0 ≤ lower ∧ lower ≤ 1)
    (hu : 0 ≤ upper ∧ upper ≤ 1) :
    ∃ f : Vec n → Vec n, tuneReturns returns lower upper = .ok (returns.map fun p => (p.1, f p.2)) ∧
      (∀ a b : ℝ, 0 ≤ a → tuneReturns (returns.map fun p => (p.1, fun i => a * p.2 i + b)) lower upper =
        .ok (returns.map fun p => (p.1, fun i => a * f p.2 i + b))) ∧
      (∀ π : Equiv.Perm (Fin n), tuneReturns (returns.map fun p => (p.1, fun i => p.2 (π i))) lower upper =
        .ok (returns.map fun p => (p.1, fun i => f p.2 (π i)))) ∧
      tuneReturns (returns.map fun p => (p.1, fun i => -p.2 i)) (1 - upper) (1 - lower) =
        .ok (returns.map fun p => (p.1, fun i => -f p.2 i)) ∧
      ∀ r r' : Vec n, (∀ i, r i ≤ r' i) → ∀ i, f r i ≤ f r' i := by
  refine ⟨fun r => clipSeries r (quantileAt r lower) (quantileAt r upper), tune_ok hl hu returns, ?_, ?_, ?_, ?_⟩
  · intro a b ha
    rw [tune_ok hl hu, List.map_map]
    congr 1
    apply List.map_congr_left
    intro p _
    have e : ∀ q, 0 ≤ q ∧ q ≤ 1 → quantileAt (fun i => a * p.2 i + b) q = a * quantileAt p.2 q + b := by
      intro q hq
      refine quantile_unique (quantile_spec _ hn hq.1 hq.2) ?_
      have := quantile_affine (b := b) ha (quantile_spec p.2 hn hq.1 hq.2)
      rwa [List.map_ofFn] at this
    show (p.1, clipSeries (fun i => a * p.2 i + b) _ _) = _
    congr 1
    funext i
    dsimp only
    rw [clip_eq, clip_eq, e _ hl, e _ hu, mul_max_of_nonneg _ _ ha, mul_min_of_nonneg _ _ ha, mul_min_of_nonneg _ _ ha,
      mul_max_of_nonneg _ _ ha, max_add_add_right, min_add_add_right, min_add_add_right, max_add_add_right]
  · intro π
    rw [tune_ok hl hu, List.map_map]
    congr 1
    apply List.map_congr_left
    intro p _
    have e : ∀ q, 0 ≤ q ∧ q ≤ 1 → quantileAt (fun i => p.2 (π i)) q = quantileAt p.2 q := by
      intro q hq
      refine quantile_unique (quantile_spec _ hn hq.1 hq.2) ?_
      refine quantile_perm (quantile_spec p.2 hn hq.1 hq.2) ?_
      exact (Equiv.Perm.ofFn_comp_perm π p.2).symm
    show (p.1, clipSeries (fun i => p.2 (π i)) _ _) = _
    congr 1
    funext i
    dsimp only
    rw [clip_eq, clip_eq, e _ hl, e _ hu]
  · rw [tune_ok (by constructor <;> linarith [hu.1, hu.2]) (by constructor <;> linarith [hl.1, hl.2]), List.map_map]
    congr 1
    apply List.map_congr_left
    intro p _
    have e : ∀ q, 0 ≤ q ∧ q ≤ 1 → quantileAt (fun i => -p.2 i) (1 - q) = -quantileAt p.2 q := by
      intro q hq
      refine quantile_unique (quantile_spec _ hn (by linarith [hq.2]) (by linarith [hq.1])) ?_
      have := quantile_neg (quantile_spec p.2 hn hq.1 hq.2)
      rwa [List.map_ofFn] at this
    show (p.1, clipSeries (fun i => -p.2 i) _ _) = _
    congr 1
    funext i
    dsimp only
    rw [clip_eq, clip_eq, e _ hl, e _ hu]
    generalize quantileAt p.2 lower = x
    generalize quantileAt p.2 upper = y
    rw [min_neg_neg, max_neg_neg, min_neg_neg, max_neg_neg, min_comm y x, max_comm y x]
    congr 1
    have h := min_le_max (a := x) (b := y)
    generalize min x y = a at *
    generalize max x y = b at *
    rcases le_total (p.2 i) a with h1 | h1
    · rw [max_eq_left h1, min_eq_right h, min_eq_right (h1.trans h), max_eq_left h1]
    · rw [max_eq_right h1]
      rcases le_total b (p.2 i) with h2 | h2
      · rw [min_eq_left h2, max_eq_right h]
      · rw [min_eq_right h2, max_eq_right h1]
  · intro r r' hr i
    have e : ∀ q, 0 ≤ q ∧ q ≤ 1 → quantileAt r q ≤ quantileAt r' q := fun q hq =>
      quantile_row_mono hr (quantile_spec r hn hq.1 hq.2) (quantile_spec r' hn hq.1 hq.2)
    dsimp only
    rw [clip_eq, clip_eq]
    exact max_le_max (min_le_min (e _ hl) (e _ hu)) (min_le_min (max_le_max (e _ hl) (e _ hu)) (hr i))

/-! ### C147 -/

/-- **C147.** `tune_returns2` turns each row into ones, minus ones and zeros: one where the entry is larger than the
0.9-quantile of its row, minus one where it is smaller than the 0.1-quantile, and zero elsewhere. Fewer than
`(n - 1) / 10 + 1` entries of a row are one, and as few are minus one; the signs of the entries play no role: adding any
constant to a row does not change the result. -/
theorem C147_tune_returns2 (returns : List (τ × Vec n)) (hn : 0 < n) :
    ∃ out, tuneReturns2 returns = .ok out ∧ List.Forall₂ (fun p q => q.1 = p.1 ∧
      (∃ lo hi, IsQuantile (List.ofFn p.2) (1 / 10) lo ∧ IsQuantile (List.ofFn p.2) (9 / 10) hi ∧
        ∀ i, (hi < p.2 i → q.2 i = 1) ∧ (p.2 i < lo → q.2 i = -1) ∧ (lo ≤ p.2 i → p.2 i ≤ hi → q.2 i = 0)) ∧
      ((Finset.univ.filter fun i => q.2 i = 1).card : ℝ) < ((n : ℝ) - 1) / 10 + 1 ∧
      ((Finset.univ.filter fun i => q.2 i = -1).card : ℝ) < ((n : ℝ) - 1) / 10 + 1) returns out ∧
    ∀ b : τ → ℝ, tuneReturns2 (returns.map fun p => (p.1, fun i => p.2 i + b p.1)) = .ok out := by
  classical
  have h9 : (0 : ℝ) ≤ 0.9 ∧ (0.9 : ℝ) ≤ 1 := by norm_num
  have h1 : (0 : ℝ) ≤ 0.1 ∧ (0.1 : ℝ) ≤ 1 := by norm_num
  have hrow : ∀ p : τ × Vec n, tuneRow2 p = .ok (p.1, fun i => if p.2 i > quantileAt p.2 0.9 then 1 else
      if p.2 i < quantileAt p.2 0.1 then -1 else 0) := by
    intro p
    unfold tuneRow2
    rw [quantile_ok _ h9, quantile_ok _ h1]
    rfl
  have hok : ∀ rs : List (τ × Vec n), tuneReturns2 rs = .ok (rs.map fun p => (p.1, fun i =>
      if p.2 i > quantileAt p.2 0.9 then 1 else if p.2 i < quantileAt p.2 0.1 then -1 else 0)) := fun rs =>
    mapM_ok_of _ _ _ fun p _ => hrow p
  refine ⟨_, hok returns, ?_, ?_⟩
  · rw [List.forall₂_map_right_iff, List.forall₂_same]
    intro p _
    have q1 := quantile_spec p.2 hn h1.1 h1.2
    have q9 := quantile_spec p.2 hn h9.1 h9.2
    have hle := quantile_mono q1 q9 (by norm_num)
    refine ⟨rfl, ⟨quantileAt p.2 0.1, quantileAt p.2 0.9, ?_, ?_, fun i => ⟨fun h => ?_, fun h => ?_, fun h h' => ?_⟩⟩,
      ?_, ?_⟩
    · norm_num at q1 ⊢; exact q1
    · norm_num at q9 ⊢; exact q9
    · exact if_pos h
    · dsimp only
      rw [if_neg (by linarith), if_pos h]
    · dsimp only
      rw [if_neg (by linarith), if_neg (by linarith)]
    · have := above p.2 q9
      have e : (1 - 0.9) * ((n : ℝ) - 1) + 1 = ((n : ℝ) - 1) / 10 + 1 := by ring
      rw [e] at this
      refine lt_of_le_of_lt ?_ this
      rw [Nat.cast_le]
      apply Finset.card_le_card
      intro i hi
      simp only [Finset.mem_filter, Finset.mem_univ, true_and] at hi ⊢
      by_contra hc
      rw [if_neg hc] at hi
      split_ifs at hi
      · norm_num at hi
      · norm_num at hi
    · have := below p.2 q1
      have e : 0.1 * ((n : ℝ) - 1) + 1 = ((n : ℝ) - 1) / 10 + 1 := by ring
      rw [e] at this
      refine lt_of_le_of_lt ?_ this
      rw [Nat.cast_le]
      apply Finset.card_le_card
      intro i hi
      simp only [Finset.mem_filter, Finset.mem_univ, true_and] at hi ⊢
      by_contra hc
      split_ifs at hi
      · norm_num at hi
      · norm_num at hi
  · intro b
    rw [hok, List.map_map]
    congr 1
    apply List.map_congr_left
    intro p _
    have e : ∀ q, 0 ≤ q ∧ q ≤ 1 → quantileAt (fun i => p.2 i + b p.1) q = quantileAt p.2 q + b p.1 := by
      intro q hq
      refine quantile_unique (quantile_spec _ hn hq.1 hq.2) ?_
      have := quantile_affine (a := 1) (b := b p.1) (by norm_num) (quantile_spec p.2 hn hq.1 hq.2)
      rw [List.map_ofFn, one_mul] at this
      convert this using 2
      funext i
      simp
    show (p.1, fun i => _) = _
    congr 1
    funext i
    dsimp only
    rw [e _ h9, e _ h1]
    simp only [gt_iff_lt, add_lt_add_iff_right]

/-! ### Examples -/

namespace TuneEx

/-- three assets; the quantiles of levels 1/2 and 3/4 are 4 and 7 -/
def row : Vec 3 := ![10, 1, 4]

theorem half : IsQuantile (List.ofFn row) (1 / 2) 4 := by
  refine ⟨[1, 4, 10], ?_, ?_, 1, by simp, Or.inl ⟨?_, rfl⟩⟩
  · have : List.ofFn row = [10, 1, 4] := by simp [row]
    rw [this]
    refine List.Perm.trans (List.perm_append_comm (l₁ := [1, 4]) (l₂ := [10])) ?_
    rfl
  · simp; norm_num
  · rw [List.length_ofFn]; norm_num

theorem threeQuarters : IsQuantile (List.ofFn row) (3 / 4) 7 := by
  refine ⟨[1, 4, 10], ?_, ?_, 1, by simp, Or.inr ⟨by simp, 1 / 2, by norm_num, by norm_num, ?_, ?_⟩⟩
  · have : List.ofFn row = [10, 1, 4] := by simp [row]
    rw [this]
    refine List.Perm.trans (List.perm_append_comm (l₁ := [1, 4]) (l₂ := [10])) ?_
    rfl
  · simp; norm_num
  · rw [List.length_ofFn]; norm_num
  · simp; norm_num

/-- cut at 4 and 7, the row `10, 1, 4` becomes `7, 4, 4` -/
example : ∃ o : Vec 3, tuneReturns [((0 : ℕ), row)] (1 / 2) (3 / 4) = .ok [(0, o)] ∧ o 0 = 7 ∧ o 1 = 4 ∧ o 2 = 4 := by
  obtain ⟨out, h, hf⟩ := C145_tune_returns [((0 : ℕ), row)] (by norm_num) (lower := 1 / 2) (upper := 3 / 4)
    (by norm_num) (by norm_num) (by norm_num)
  cases hf with
  | cons hp hr =>
    cases hr
    rename_i q
    obtain ⟨h1, ⟨lo, hi, hlo, hhi, _, hi'⟩, _⟩ := hp
    have e1 := quantile_unique hlo half
    have e2 := quantile_unique hhi threeQuarters
    subst e1 e2
    refine ⟨q.2, ?_, (hi' 0).2.2 ?_, (hi' 1).1 ?_, ?_⟩
    · rw [h]
      obtain ⟨a, b⟩ := q
      cases h1
      rfl
    · simp [row]; norm_num
    · simp [row]
    · rw [(hi' 2).2.1 (by simp [row]) (by simp [row]; norm_num)]
      simp [row]

end TuneEx

end CovPred
