import Verif.Spec.LinAlg
import Verif.Spec.Ewma
import Mathlib.Data.Finset.Card
import Mathlib.Data.Fintype.Basic

/-
Specification for the sign predictions (property C149) and the moving autocorrelations (property C148).
-/
namespace CovPred

variable {n : ℕ}

/-- `S` consists of the ten largest positive entries of `x` (of all of them if there are fewer than ten); ties may be
broken in any way. -/
structure TenLargestPositive (x : Vec n) (S : Finset (Fin n)) : Prop where
  card : S.card ≤ 10
  positive : ∀ i ∈ S, 0 < x i
  largest : ∀ i ∈ S, ∀ j, j ∉ S → x j ≤ x i
  all : S.card < 10 → ∀ j, 0 < x j → j ∈ S

/-- The total weight of `t + 1` rows, where a row that is `k` rows old has the weight `2^(-k/h)`. -/
noncomputable def ageWeights (h : ℝ) (t : ℕ) : ℝ := ∑ k ∈ Finset.range (t + 1), (2 : ℝ) ^ (-((t - k : ℕ) : ℝ) / h)

open Classical in
/-- The average of those of the entries `x 0, ..., x t` that are not missing, where an entry that is `k` rows old has the
weight `2^(-k/h)`; missing if all are. -/
noncomputable def presentAverage (h : ℝ) (x : ℕ → Option ℝ) (t : ℕ) : Option ℝ :=
  if ∃ u ≤ t, x u ≠ none then
    some ((∑ k ∈ Finset.range (t + 1) with x k ≠ none, (2 : ℝ) ^ (-((t - k : ℕ) : ℝ) / h) * (x k).getD 0) /
      ∑ k ∈ Finset.range (t + 1) with x k ≠ none, (2 : ℝ) ^ (-((t - k : ℕ) : ℝ) / h))
  else none

end CovPred
