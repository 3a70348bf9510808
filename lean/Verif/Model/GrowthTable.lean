import Verif.Model.Trading

/-
Model of the cell that collects the portfolio values of the traders in a data frame,
`/repo/experiments/extensions/nonzero_means.ipynb:749-750`:
`pd.DataFrame(np.array([trader.Vs for trader in traders]).reshape(-1,6), columns=names)`.

Simplification: the arrays `Vs` have shape `(T, 1)`; they are lists here (`reshape` sees the entries in the same order).
-/
namespace CovPred

/-- `array.reshape(-1, k)` on the entries of an array, in order. (nonzero_means.ipynb:749) -/
noncomputable def reshapeRows (k : ℕ) (flat : List ℝ) : Except Err (List (List ℝ)) :=
  if flat.length % k ≠ 0 then .error .valueError
  else .ok ((List.range (flat.length / k)).map fun i => (List.range k).map fun j => flat.getD (k * i + j) 0)

/-- nonzero_means.ipynb:749-750: the names and the rows of `all_Vs`. Histories of different lengths are no array, and a frame of six
columns needs six names: `ValueError`. -/
noncomputable def growthTable (names : List String) (vs : List (List ℝ)) : Except Err (List String × List (List ℝ)) := do
  if ∃ v ∈ vs, ∃ w ∈ vs, v.length ≠ w.length then .error .valueError
  else
    let rows ← reshapeRows 6 vs.flatten
    if names.length ≠ 6 then .error .valueError
    else pure (names, rows)

end CovPred
