import Verif.Model.ExpUtils
import Verif.Model.FromEwmas

/-
Model of the functions of `/repo/experiments/extensions/large_universes.ipynb` (line numbers are those of the notebook
file).
-/
namespace CovPred

variable {τ : Type} [DecidableEq τ] {n : ℕ}

/-- `cov.values[np.triu_indices_from(cov.values, k=0)]`: the upper triangle with the diagonal, row by row.
(large_universes.ipynb:119) -/
def triuValues (S : Mat n) : List ℝ := (upperPositions n).map fun p => S p.1 p.2

/-- large_universes.ipynb:125-141, `from_upper_triangular_to_full`. The number of rows is computed (`int(np.sqrt(2*len))`,
exactly), so it is part of the result. An assignment of the wrong number of values raises `ValueError`, except that numpy
repeats a single value. -/
def fromUpperTriangularToFull (cov : List ℝ) : Except Err (Σ n, Mat n) :=
  let n := Nat.sqrt (2 * cov.length)
  let pos := upperPositions n
  if cov.length = pos.length ∨ cov.length = 1 then
    let cov := if cov.length = pos.length then cov else List.replicate pos.length (cov.headD 0)
    -- full_cov[rows, cols] = cov
    let full : Mat n := Matrix.of fun i j => if i ≤ j then (cov[pos.idxOf (i, j)]?).getD 0 else 0
    -- full_cov[cols, rows] = cov
    .ok ⟨n, Matrix.of fun i j => if j ≤ i then (cov[pos.idxOf (j, i)]?).getD 0 else full i j⟩
  else .error .valueError

/-- The files of the directory `results`: the rows of each table, by name. Numbers and time stamps are written and read
without loss (simplification: pandas' default reader may be off in the last digit). (large_universes.ipynb:122, 149) -/
abbrev Files (τ : Type) := String → Option (List (τ × List ℝ))

/-- large_universes.ipynb:110-122, `save_cov_to_csv` of matrices of the same size: the files after the call. The time
stamps are dates already, so `pd.to_datetime` leaves them as they are. -/
def saveCovToCsv (files : Files τ) (covs : Dict τ (Mat n)) (name : String) : Files τ :=
  fun s => if s = name then some (covs.map fun p => (p.1, triuValues p.2)) else files s

/-- `pd.DataFrame(full, index=assets, columns=assets)` for `n` assets: `ValueError` if the shape is another one.
(large_universes.ipynb:150) -/
def withAssets (n : ℕ) (S : Σ m, Mat m) : Except Err (Mat n) :=
  if h : S.1 = n then .ok (h ▸ S.2) else .error .valueError

/-- one entry of the dictionary comprehension of `from_csv_to_cov`. (large_universes.ipynb:150) -/
def csvItem (n : ℕ) (p : τ × List ℝ) : Except Err (τ × Mat n) := do
  let S ← withAssets n (← fromUpperTriangularToFull p.2)
  pure (p.1, S)

/-- large_universes.ipynb:144-151, `from_csv_to_cov` for `n` assets; a file that does not exist raises
`FileNotFoundError` (`Err.other`). -/
def fromCsvToCov (files : Files τ) (name : String) (n : ℕ) : Except Err (Dict τ (Mat n)) :=
  match files name with
  | none => .error .other
  | some rows => do pure (dictOf (← rows.mapM (csvItem n)))

/-- one turn of the loop of `get_choleskys`: `choleskys[time]` and `ds[time]`. (large_universes.ipynb:499-502) -/
noncomputable def choleskyItem (p : τ × Mat n) : Except Err (τ × (Mat n × Vec n)) := do
  let L ← chol? p.2
  pure (p.1, (L, fun _ => 0))

/-- large_universes.ipynb:496-503, `get_choleskys`: the two dictionaries that are returned. -/
noncomputable def getCholeskys (covs : Dict τ (Mat n)) : Except Err (Dict τ (Mat n) × Dict τ (Vec n)) := do
  let items ← covs.mapM choleskyItem
  pure (items.map fun p => (p.1, p.2.1), items.map fun p => (p.1, p.2.2))

end CovPred
