import Verif.Spec.LinAlg

/-
Specification for the rescaling of predicted returns (properties C145-C148).
-/
namespace CovPred

/-- `v` is the `q`-quantile of the numbers `xs` with linear interpolation: if they are `s_0 ≤ s_1 ≤ ... ≤ s_{m-1}` in
increasing order, `v` is the value at the position `q (m - 1)` of the polygonal line through the points `(k, s_k)`. -/
def IsQuantile (xs : List ℝ) (q v : ℝ) : Prop :=
  ∃ s : List ℝ, s.Perm xs ∧ s.Pairwise (· ≤ ·) ∧ ∃ (k : ℕ) (hk : k < s.length),
    ((k : ℝ) = q * ((xs.length : ℝ) - 1) ∧ v = s[k]) ∨
    ∃ (hk' : k + 1 < s.length) (g : ℝ), 0 < g ∧ g < 1 ∧ k + g = q * ((xs.length : ℝ) - 1) ∧
      v = (1 - g) * s[k] + g * s[k + 1]

end CovPred
