import Verif.Model.Trading
import Mathlib.Algebra.BigOperators.Fin
import Mathlib.Tactic

/-
Properties C51 and C52: the growth of a portfolio and its maximum drawdown (trading_model.py).
-/
namespace CovPred
open Matrix
set_option linter.unusedSectionVars false

/-! ### Growth -/

private theorem growth_aux (a : ℝ) (l : List ℝ) (acc : List ℝ) (v : ℝ) :
    l.foldl (fun (acc : List ℝ × ℝ) r => (acc.1 ++ [acc.2 * (1 + r / a)], acc.2 * (1 + r / a))) (acc, v)
      = (acc ++ (List.range l.length).map (fun t => v * ((l.take (t + 1)).map fun r => 1 + r / a).prod),
          v * (l.map fun r => 1 + r / a).prod) := by
  induction l generalizing acc v with
  | nil => simp
  | cons r l ih =>
    rw [List.foldl_cons, ih]
    simp only [List.length_cons, List.range_succ_eq_map, List.map_cons, List.map_map, List.append_assoc,
      List.cons_append, List.nil_append, Prod.mk.injEq, List.prod_cons]
    refine ⟨?_, by ring⟩
    congr 2
    · simp
    · apply List.map_congr_left
      intro t _
      simp only [Function.comp, List.take_succ_cons, List.map_cons, List.prod_cons, Nat.succ_eq_add_one]
      ring

/-- **C52.** The value after row `t` is the product of `1 + r_s / adjust_factor` over the rows up to `t`; there is one
value per row. -/
theorem C52_growth (a : ℝ) (T : ℕ) (r : ℕ → ℝ) :
    growth a ((List.range T).map r) = (List.range T).map fun t => ∏ s ∈ Finset.range (t + 1), (1 + r s / a) := by
  unfold growth
  rw [growth_aux]
  dsimp only
  rw [List.nil_append, List.length_map, List.length_range]
  apply List.map_congr_left
  intro t ht
  rw [one_mul, ← List.map_take, List.take_range, min_eq_left (by have := List.mem_range.1 ht; omega), List.map_map]
  have : ∀ m, ((List.range m).map ((fun r => 1 + r / a) ∘ r)).prod = ∏ s ∈ Finset.range m, (1 + r s / a) := by
    intro m
    induction m with
    | zero => rfl
    | succ m ih => rw [List.range_succ, List.map_append, List.prod_append, ih, Finset.prod_range_succ]; simp
  exact this _

/-- **C52.** The values stay positive as long as no return loses everything. -/
theorem C52_positive {a : ℝ} (ha : 0 < a) (rets : List ℝ) (h : ∀ r ∈ rets, -a < r) : ∀ V ∈ growth a rets, 0 < V := by
  intro V hV
  unfold growth at hV
  rw [growth_aux] at hV
  dsimp only at hV
  rw [List.nil_append, List.mem_map] at hV
  obtain ⟨t, _, rfl⟩ := hV
  rw [one_mul]
  apply List.prod_pos
  intro x hx
  rw [List.mem_map] at hx
  obtain ⟨r, hr, rfl⟩ := hx
  have h1 := h r (List.mem_of_mem_take hr)
  have : -1 < r / a := by rw [lt_div_iff₀ ha]; linarith
  linarith

theorem growth_length (a : ℝ) (rets : List ℝ) : (growth a rets).length = rets.length := by
  unfold growth
  rw [growth_aux]
  simp

/-! ### Drawdown -/

private theorem loop_spec (V : ℕ → ℝ) (hV : ∀ t, 0 < V t) :
    ∀ m k peak acc, (∀ s, s < k → V s ≤ peak) → (∃ s, s ≤ k ∧ peak = V s) →
      (∀ s t, s ≤ t → t < k → (V s - V t) / V s ≤ acc) →
      (acc = 0 ∨ ∃ s t, s ≤ t ∧ t < k ∧ acc = (V s - V t) / V s) →
      (∀ s t, s ≤ t → t < k + m → (V s - V t) / V s ≤ drawdownLoop ((List.range' k m).map V) peak acc) ∧
      (drawdownLoop ((List.range' k m).map V) peak acc = 0 ∨
        ∃ s t, s ≤ t ∧ t < k + m ∧ drawdownLoop ((List.range' k m).map V) peak acc = (V s - V t) / V s) := by
  intro m
  induction m with
  | zero =>
    intro k peak acc _ _ h3 h4
    exact ⟨h3, h4⟩
  | succ m ih =>
    intro k peak acc h1 h2 h3 h4
    rw [List.range'_succ, List.map_cons]
    unfold drawdownLoop
    dsimp only
    set peak' := if V k > peak then V k else peak with hp
    have hpk : V k ≤ peak' := by rw [hp]; split_ifs with h <;> linarith
    have hpp : peak ≤ peak' := by rw [hp]; split_ifs with h <;> linarith
    have h1' : ∀ s, s < k + 1 → V s ≤ peak' := by
      intro s hs
      rcases Nat.lt_succ_iff_lt_or_eq.1 hs with h | h
      · exact le_trans (h1 s h) hpp
      · rw [h]; exact hpk
    have h2k : ∃ s, s ≤ k ∧ peak' = V s := by
      rw [hp]; split_ifs with h
      · exact ⟨k, le_refl _, rfl⟩
      · exact h2
    obtain ⟨s0, hs0, hps0⟩ := h2k
    have hacc : ∀ x, (x > acc → (if x > acc then x else acc) = x) := fun x h => if_pos h
    set dd := (peak' - V k) / peak' with hdd
    set acc' := if dd > acc then dd else acc with hacc'
    have ha1 : acc ≤ acc' := by rw [hacc']; split_ifs with h <;> linarith
    have ha2 : dd ≤ acc' := by rw [hacc']; split_ifs with h <;> linarith
    have h3' : ∀ s t, s ≤ t → t < k + 1 → (V s - V t) / V s ≤ acc' := by
      intro s t hst ht
      rcases Nat.lt_succ_iff_lt_or_eq.1 ht with h | h
      · exact le_trans (h3 s t hst h) ha1
      · subst h
        refine le_trans ?_ ha2
        have hle := h1' s (by omega)
        have hpos : 0 < peak' := by rw [hps0]; exact hV _
        rw [hdd, sub_div, sub_div, div_self (hV s).ne', div_self hpos.ne']
        have := div_le_div_of_nonneg_left (hV t).le (hV s) hle
        linarith
    have h4' : acc' = 0 ∨ ∃ s t, s ≤ t ∧ t < k + 1 ∧ acc' = (V s - V t) / V s := by
      rw [hacc']; split_ifs with h
      · right
        refine ⟨s0, k, hs0, by omega, ?_⟩
        rw [hdd, hps0]
      · rcases h4 with h4 | ⟨s, t, hst, ht, he⟩
        · exact Or.inl h4
        · exact Or.inr ⟨s, t, hst, by omega, he⟩
    have := ih (k + 1) peak' acc' h1' ⟨s0, by omega, hps0⟩ h3' h4'
    rw [show k + 1 + m = k + (m + 1) by ring] at this
    exact this

/-- **C51.** For a history of positive values `compute_max_drawdown` returns the largest relative loss
`(V_s - V_t) / V_s` between a row and a later (or the same) row. -/
theorem C51_max_drawdown (V : ℕ → ℝ) (hV : ∀ t, 0 < V t) (T : ℕ) :
    ∃ dd, maxDrawdown ((List.range (T + 1)).map V) = .ok dd ∧
      IsGreatest {x | ∃ s t, s ≤ t ∧ t ≤ T ∧ x = (V s - V t) / V s} dd := by
  have key := loop_spec V hV (T + 1) 0 (V 0) 0 (fun s hs => absurd hs (by omega)) ⟨0, le_refl _, rfl⟩
    (fun s t _ ht => absurd ht (by omega)) (Or.inl rfl)
  rw [← List.range_eq_range'] at key
  refine ⟨drawdownLoop ((List.range (T + 1)).map V) (V 0) 0, ?_, ?_, ?_⟩
  · rw [List.range_succ_eq_map, List.map_cons]
    rfl
  · rcases key.2 with h | ⟨s, t, hst, ht, he⟩
    · refine ⟨0, 0, le_refl _, by omega, ?_⟩
      rw [h, sub_self, zero_div]
    · exact ⟨s, t, hst, by omega, he⟩
  · rintro x ⟨s, t, hst, ht, rfl⟩
    exact key.1 s t hst (by omega)

/-- **C51.** So it lies in `[0, 1)`, and it is 0 exactly if the value never falls. -/
theorem C51_range (V : ℕ → ℝ) (hV : ∀ t, 0 < V t) (T : ℕ) {dd : ℝ}
    (h : maxDrawdown ((List.range (T + 1)).map V) = .ok dd) :
    0 ≤ dd ∧ dd < 1 ∧ (dd = 0 ↔ ∀ s t, s ≤ t → t ≤ T → V s ≤ V t) := by
  obtain ⟨dd', h1, ⟨s0, t0, hst0, ht0, he0⟩, hub⟩ := C51_max_drawdown V hV T
  rw [h] at h1
  cases h1
  have h0 : 0 ≤ dd := hub ⟨0, 0, le_refl _, by omega, by rw [sub_self, zero_div]⟩
  refine ⟨h0, ?_, ?_, ?_⟩
  · rw [he0, div_lt_one (hV s0)]
    have := hV t0
    linarith
  · rintro rfl s t hst ht
    have := hub ⟨s, t, hst, ht, rfl⟩
    rw [div_le_iff₀ (hV s)] at this
    linarith
  · intro hm
    have := hm s0 t0 hst0 ht0
    apply le_antisymm _ h0
    rw [he0]
    exact div_nonpos_of_nonpos_of_nonneg (by linarith) (hV s0).le

/-- **C51.** There is no drawdown of an empty history. -/
theorem C51_empty : maxDrawdown [] = .error .indexError := rfl

/-- A history with a loss of one half. -/
example : ∃ dd, maxDrawdown ((List.range 3).map fun t : ℕ => if t = 1 then (2 : ℝ) else 1) = .ok dd ∧ dd = 1 / 2 := by
  have hV : ∀ t : ℕ, (0 : ℝ) < if t = 1 then (2 : ℝ) else 1 := by intro t; split_ifs <;> norm_num
  obtain ⟨dd, h1, ⟨s0, t0, hst0, ht0, he0⟩, hub⟩ := C51_max_drawdown (fun t : ℕ => if t = 1 then (2 : ℝ) else 1) hV 2
  refine ⟨dd, h1, le_antisymm ?_ (hub ⟨1, 2, by norm_num, by norm_num, by norm_num⟩)⟩
  rw [he0]
  split_ifs <;> norm_num

end CovPred
