# Formal model of cvxgrp/cov_pred_finance in Lean 4

`properties.jsonl` has the English properties (C01, C02, ...), `MANIFEST.json` the theorem names per property. This file
says what is modelled and how, what is trusted, how each property is proved, and what the proofs revealed about the code.

## 1. Layout of `lean/Verif`

* `Num/`    number models: the class `Scalar` of float operations used by the code; its interpretation `XR` (exact reals
            plus `+inf`, `-inf`, `nan` with the IEEE special-value rules), used for all proofs but C187, C188, C193; its interpretation `RF`
            (an arbitrary arithmetic with rounding errors and overflow), used for C187, C188, C193; its interpretation by Lean's
            `Float`, used only to *run* the model.
* `Model/`  the model, function by function; every definition cites file and lines in `/repo` and states its
            simplifications.
* `Spec/`   small specifications, independent of the model, that the theorems are stated with (weighted averages,
            Gaussian log-likelihood, simplex, half-life average, schedules, ...).
* `Lemmas/` helper lemmas.
* `Props/`  the property theorems `Cnn_...`; next to them, or in the `...Examples` modules, concrete non-trivial
            instances that meet their hypotheses.
* `Run/`    `FloatRun.lean`: runs the EWMA model on `Float` against the outputs recorded in `/repo/tests/resources`.

## 2. Trusted base

* Lean 4.33's kernel. Axioms used: `propext`, `Classical.choice`, `Quot.sound` only (the standard three; Mathlib's real
  numbers need them, so nearly every theorem depends on all three). No axioms are added, there is no `native_decide`, no
  `bv_decide`, no placeholder proof.
* The reading of the Python source, definition by definition, and of the pandas, numpy, scipy, scikit-learn and cvxpy
  behaviours listed in section 3. Fidelity test of the EWMA layer, run on `Float` with the data in
  `/repo/tests/resources` (`tools/float_check.py`): largest relative error 5e-16 against `Sigma_iewma.csv`, 0.0 against
  the recorded `nan` case, and 4e-9 of the 21-63 expert against `Sigma_combinator.csv` (its weight there is 0.99999999).
* Exact real arithmetic in place of IEEE rounding, everywhere but in C187, C188 and C193 (`ewma.py`). (`nan` and `inf` *are* modelled where the code's control
  flow depends on them.)
* The English statements in `properties.jsonl` match the theorems: for a reader to judge; the mutation log
  `seeded/LOG.jsonl` is evidence that the theorems are not weaker than the English.

## 3. Modelling decisions

### Numbers
`XR` has exact arithmetic with `nan`/`inf` propagation, since `dropna`, `isnan().all()` and `fillna` branch on `nan` and
`r / 0` can occur. `+0` and `-0` are identified (comment in `Num/XR.lean`: no reachable division by `-0`). `ewma.py`,
`iterated_ewma_vec.py` and the front of `low_rank_ewma.py` are modelled over a generic `Scalar`; all other layers over `ℝ`
(with `Option` for `nan` where the code tests for it) and `Matrix (Fin n) (Fin n) ℝ`.

### pandas
A frame is the list of its `(label, row)` pairs; a row is an array indexed by the finite type of the assets. Labels are
pairwise distinct (a hypothesis where it matters); where the code compares labels they are increasing. Rows are in increasing
order of the labels: for other orders the arithmetic of frames with different indices sorts, which `Model/EwmaOrder` models
(C60, C174). Columns of frames
combined with each other agree. Alignment on the index (`a - b`, `a * b`, `loc`) is modelled, including the `nan` rows it
creates. Dictionaries are lists of items in insertion order with the last value per key.

### Exceptions, generators, state
Exceptions are values (`Except Err`). A generator is the list of items it yields plus how it ends (`Trace`, or a pair), so
partial output before an exception is visible. Objects with mutable attributes (`Trader`, the session-wide default list
`cons`, `ReturnCombinator`, the CCP states) are structures that each method maps to a new structure.

### External routines (contracts)
* `np.linalg.inv`: the inverse; `LinAlgError` on a singular matrix.
* `np.linalg.cholesky`: reads the lower triangle; the lower-triangular factor with positive diagonal if that symmetric
  matrix is positive definite, else `LinAlgError`. (Existence and uniqueness of the factor are proved, not assumed.)
* `scipy.linalg.eigh(subset)`, `scipy.sparse.linalg.eigsh`: *any* function with the documented property (orthonormal
  eigenvectors for the extreme eigenvalues; `Eigh.Correct`, `Eigsh.Correct`). Theorems quantify over all of them;
  instances are constructed in the examples, so the contracts are not empty. `pca` (factor model): an arbitrary function
  of the training rows; orthonormal rows are a hypothesis only where used (C105).
* cvxpy (combination): an arbitrary function of the whole history of parameter values returning weights, `SolverError` or
  another exception. Only the properties about optimal weights assume `Exact` (what it returns is optimal); simplex
  properties assume only `Feasible`.
* cvxpy in the CCP, in `trading_model.py` and the lasso: same style; the optimisation problem is modelled by its feasible
  set and objective, transcribed from the cvxpy expressions.
* `multiprocessing.Pool.starmap`: any way to cut the tasks into chunks, each chunk run in order in a worker with its own
  copy of problem and parameters.
* pandas `ewm(...)`: `mean`, `std`, `cov` with `adjust=True`, `ignore_na=False`, following pandas' documented loop; the loop is
  modelled and proved equal to the weighted-average formula.
* `np.argsort`: any function returning a permutation of the positions that sorts the values (ties in any order).
* `multivariate_normal`: an arbitrary function of mean, covariance and draw number. Files: a map from names to contents.

### Not modelled
Floating point rounding and overflow (except in C187, C188, C193); the numerics of solvers and eigen-routines; plotting, printing and number formatting
(except which numbers are printed, C112); progress bars; performance; `cvxpygen` (the `C_speedup` branch of `trading_model.py`
is modelled as what it is in this checkout, a `NameError`); the cells of the notebooks
other than the functions named in C135 and following (they are scripts that load data and plot); the tests. Property-specific simplifications are in the comments of the
definitions.

## 4. Properties

`M:` what is modelled, `P:` how it is proved. Every property has a theorem; none had to be given up as inexpressible, and
none is `partial`.
