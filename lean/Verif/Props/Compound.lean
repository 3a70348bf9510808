import Verif.Model.Compound
import Verif.Spec.Compound
import Verif.Props.YearlySR
import Verif.Props.MseTable
import Mathlib.Algebra.Order.BigOperators.Ring.Finset
import Mathlib.Analysis.SpecialFunctions.Log.Basic

/-
Property C184: daily returns compounded to yearly ones.
-/
set_option linter.unusedSectionVars false
namespace CovPred

variable {τ : Type} [LinearOrder τ] {n : ℕ}

theorem nanProd_filter (T : ℕ) (P : ℕ → Prop) [DecidablePred P] (v : ℕ → Option ℝ) :
    nanProd ((((List.range T).filter fun t => P t).map v).map (Option.map (· + 1)))
      = ∏ t ∈ (Finset.range T).filter (fun t => P t ∧ (v t).isSome), (1 + (v t).getD 0) := by
  unfold nanProd
  induction T with
  | zero => simp
  | succ T ih =>
    rw [List.range_succ, Finset.range_add_one, Finset.filter_insert, List.filter_append, List.map_append, List.map_append,
      List.filterMap_append, List.prod_append, ih]
    by_cases hP : P T
    · cases hv : v T with
      | none => simp [hP, hv]
      | some x => 
        simp only [hP, hv, Option.isSome_some, and_self, if_true]
        rw [Finset.prod_insert (by simp)]
        simp [hP, hv]
        ring
    · simp [hP]

theorem compoundYears_rows (year : τ → ℤ) (T : ℕ) (tm : ℕ → τ) (r : ℕ → NRow n) :
    compoundYears year (rowDict T tm r) = (yearBins ((List.range T).map fun t => year (tm t))).map fun y =>
      (y, fun i => dollar r i (observedIn T r (fun t => year (tm t)) y i) - 1) := by
  unfold compoundYears rowDict
  rw [List.map_map]
  refine List.map_congr_left fun y _ => ?_
  refine Prod.ext rfl (funext fun i => ?_)
  simp only [compound]
  rw [List.filter_map, List.map_map, List.map_map]
  have := nanProd_filter T (fun t => year (tm t) = y) (fun t => r t i)
  rw [List.map_map] at this
  exact congrArg (· - 1) this

/-- The result has one row for every calendar year from the first to the last one of the table, in order. -/
theorem C184_years (year : τ → ℤ) (T : ℕ) (tm : ℕ → τ) (r : ℕ → NRow n) :
    ((compoundYears year (rowDict T tm r)).map Prod.fst).Pairwise (· < ·) ∧
    ∀ y, y ∈ (compoundYears year (rowDict T tm r)).map Prod.fst
      ↔ ∃ s, s < T ∧ ∃ t, t < T ∧ year (tm s) ≤ y ∧ y ≤ year (tm t) := by
  rw [compoundYears_rows, List.map_map]
  rw [show (Prod.fst ∘ fun y => (y, fun i => dollar r i (observedIn T r (fun t => year (tm t)) y i) - 1)) = (id : ℤ → ℤ) from rfl,
    List.map_id]
  refine ⟨yearBins_sorted _, fun y => ?_⟩
  rw [mem_yearBins]
  simp only [List.mem_map, List.mem_range]
  constructor
  · rintro ⟨⟨_, ⟨s, hs, rfl⟩, h1⟩, _, ⟨t, ht, rfl⟩, h2⟩
    exact ⟨s, hs, t, ht, h1, h2⟩
  · rintro ⟨s, hs, t, ht, h1, h2⟩
    exact ⟨⟨_, ⟨s, hs, rfl⟩, h1⟩, _, ⟨t, ht, rfl⟩, h2⟩

/-- The return of a year is what a dollar gains over the rows of that year; rows without a return count as return zero, and a year
without any gives exactly zero, not a missing value. -/
theorem C184_value (year : τ → ℤ) (T : ℕ) (tm : ℕ → τ) (r : ℕ → NRow n) {y : ℤ} {v : Vec n}
    (h : (y, v) ∈ compoundYears year (rowDict T tm r)) (i : Fin n) :
    1 + v i = dollar r i (observedIn T r (fun t => year (tm t)) y i) ∧
    ((∀ t, t < T → year (tm t) = y → r t i = none) → v i = 0) := by
  rw [compoundYears_rows, List.mem_map] at h
  obtain ⟨y', _, hy⟩ := h
  obtain ⟨rfl, rfl⟩ := Prod.mk.inj hy
  refine ⟨by ring, fun hn => ?_⟩
  have : observedIn T r (fun t => year (tm t)) y' i = ∅ := by
    unfold observedIn
    rw [Finset.filter_eq_empty_iff]
    rintro t ht ⟨h1, h2⟩
    rw [hn t (Finset.mem_range.1 ht) h1] at h2
    simp at h2
  simp [dollar, this]

/-- A dollar held over the yearly rows becomes what it becomes over the daily ones. -/
theorem C184_wealth (year : τ → ℤ) (T : ℕ) (tm : ℕ → τ) (r : ℕ → NRow n) (i : Fin n) :
    ((compoundYears year (rowDict T tm r)).map fun p => 1 + p.2 i).prod = dollar r i (Finset.range T) := by
  rw [compoundYears_rows, List.map_map]
  set L := yearBins ((List.range T).map fun t => year (tm t)) with hL
  have hnd : L.Nodup := (yearBins_sorted _).imp fun h => ne_of_lt h
  have hmem : ∀ t ∈ Finset.range T, year (tm t) ∈ L.toFinset := by
    intro t ht
    rw [List.mem_toFinset, hL, mem_yearBins]
    have : year (tm t) ∈ (List.range T).map fun t => year (tm t) :=
      List.mem_map.2 ⟨t, List.mem_range.2 (Finset.mem_range.1 ht), rfl⟩
    exact ⟨⟨_, this, le_rfl⟩, _, this, le_rfl⟩
  rw [show (List.map ((fun p : ℤ × Vec n => 1 + p.2 i) ∘ fun y => (y, fun i => dollar r i (observedIn T r (fun t => year (tm t)) y i) - 1)) L)
    = L.map fun y => dollar r i (observedIn T r (fun t => year (tm t)) y i) from List.map_congr_left fun y _ => by
      simp only [Function.comp]; ring]
  rw [← List.prod_toFinset _ hnd]
  unfold dollar
  rw [← Finset.prod_fiberwise_of_maps_to hmem]
  refine Finset.prod_congr rfl fun y _ => ?_
  unfold observedIn
  refine Finset.prod_subset (fun t ht => ?_) (fun t ht hn => ?_)
  · rw [Finset.mem_filter] at ht ⊢
    exact ⟨ht.1, ht.2.1⟩
  · rw [Finset.mem_filter] at ht hn
    cases hr : r t i with
    | none => simp
    | some x => exact absurd ⟨ht.1, ht.2, by simp [hr]⟩ hn

theorem one_add_sum_le_prod (s : Finset ℕ) (f : ℕ → ℝ) (h : ∀ t ∈ s, 0 ≤ f t) : 1 + ∑ t ∈ s, f t ≤ ∏ t ∈ s, (1 + f t) := by
  classical
  induction s using Finset.induction_on with
  | empty => simp
  | insert a s ha ih =>
    have hs := ih fun t ht => h t (Finset.mem_insert_of_mem ht)
    have h0 : 0 ≤ ∑ t ∈ s, f t := Finset.sum_nonneg fun t ht => h t (Finset.mem_insert_of_mem ht)
    have hf := h a (Finset.mem_insert_self a s)
    rw [Finset.sum_insert ha, Finset.prod_insert ha]
    nlinarith [mul_le_mul_of_nonneg_left hs (by linarith : (0 : ℝ) ≤ 1 + f a), mul_nonneg hf h0]

/-- Daily returns above −100% give yearly returns above −100%, whose logarithms add up over the days; if no daily return is negative, the
yearly one is at least their sum; and it is at most `exp` of the sum, minus one. -/
theorem C184_bounds (year : τ → ℤ) (T : ℕ) (tm : ℕ → τ) (r : ℕ → NRow n) {y : ℤ} {v : Vec n}
    (h : (y, v) ∈ compoundYears year (rowDict T tm r)) (i : Fin n) :
    ((∀ t ∈ observedIn T r (fun t => year (tm t)) y i, -1 < (r t i).getD 0) → -1 < v i ∧
      Real.log (1 + v i) = ∑ t ∈ observedIn T r (fun t => year (tm t)) y i, Real.log (1 + (r t i).getD 0)) ∧
    ((∀ t ∈ observedIn T r (fun t => year (tm t)) y i, -1 ≤ (r t i).getD 0) →
      v i ≤ Real.exp (∑ t ∈ observedIn T r (fun t => year (tm t)) y i, (r t i).getD 0) - 1) ∧
    ((∀ t ∈ observedIn T r (fun t => year (tm t)) y i, 0 ≤ (r t i).getD 0) →
      ∑ t ∈ observedIn T r (fun t => year (tm t)) y i, (r t i).getD 0 ≤ v i) := by
  have hv := (C184_value year T tm r h i).1
  unfold dollar at hv
  refine ⟨fun hp => ⟨?_, ?_⟩, fun hp => ?_, fun hp => ?_⟩
  · have : 0 < ∏ t ∈ observedIn T r (fun t => year (tm t)) y i, (1 + (r t i).getD 0) :=
      Finset.prod_pos fun t ht => by linarith [hp t ht]
    linarith
  · rw [hv, Real.log_prod fun t ht => by linarith [hp t ht]]
  · have : ∏ t ∈ observedIn T r (fun t => year (tm t)) y i, (1 + (r t i).getD 0)
        ≤ ∏ t ∈ observedIn T r (fun t => year (tm t)) y i, Real.exp ((r t i).getD 0) :=
      Finset.prod_le_prod (fun t ht => by linarith [hp t ht]) fun t _ => by
        linarith [Real.add_one_le_exp ((r t i).getD 0)]
    rw [← Real.exp_sum] at this
    linarith
  · have := one_add_sum_le_prod _ _ hp
    linarith

/-! A table of five days in the years 2000 and 2002 with a missing return. -/
namespace CompoundEx

/-- the returns of one asset -/
noncomputable def ret : ℕ → NRow 1
  | 0 => fun _ => some (1 / 10)
  | 1 => fun _ => some (1 / 5)
  | 2 => fun _ => none
  | 3 => fun _ => some (-1 / 2)
  | _ => fun _ => some (1 / 2)

/-- the years -/
def yr (t : ℕ) : ℤ := if t < 3 then 2000 else 2002

example : compoundYears yr (rowDict 5 (fun t => t) ret)
    = [(2000, fun _ => 8 / 25), (2001, fun _ => 0), (2002, fun _ => -1 / 4)] := by
  have h : yearBins ((List.range 5).map fun t => yr t) = [2000, 2001, 2002] := by
    simp [List.range_succ, yr, yearBins, List.min?, List.max?]
  unfold compoundYears rowDict
  rw [List.map_map, show (List.map ((fun p : ℕ × NRow 1 => yr p.1) ∘ fun t => (t, ret t)) (List.range 5))
    = (List.range 5).map fun t => yr t from rfl, h]
  simp [List.range_succ, yr, ret, compound, nanProd]
  norm_num

end CompoundEx
end CovPred
