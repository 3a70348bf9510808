# Formal model of cvxgrp/cov_pred_finance in Lean 4

`properties.jsonl` has the English properties (C01, C02, ...), `MANIFEST.json` the theorem names per property. This file
says what is modelled and how, what is trusted, how each property is proved, and what the proofs revealed about the code.

## 1. Layout of `lean/Verif`

* `Num/`    number models: the class `Scalar` of float operations used by the code; its interpretation `XR` (exact reals
            plus `+inf`, `-inf`, `nan` with the IEEE special-value rules), used for all proofs but C187, C188, C193; its interpretation `RF`
            (an arbitrary arithmetic with rounding errors and overflow), used for C187, C188, C193; its interpretation by Lean's
            `Float`, used only to *run* the model.
* `Model/`  the model, function by function; every definition cites file and lines in `/repo` and states its
            simplifications.
* `Spec/`   small specifications, independent of the model, that the theorems are stated with (weighted averages,
            Gaussian log-likelihood, simplex, half-life average, schedules, ...).
* `Lemmas/` helper lemmas.
* `Props/`  the property theorems `Cnn_...`; next to them, or in the `...Examples` modules, concrete non-trivial
            instances that meet their hypotheses.
* `Run/`    `FloatRun.lean`: runs the EWMA model on `Float` against the outputs recorded in `/repo/tests/resources`.

## 2. Trusted base

* Lean 4.33's kernel. Axioms used: `propext`, `Classical.choice`, `Quot.sound` only (the standard three; Mathlib's real
  numbers need them, so nearly every theorem depends on all three). No axioms are added, there is no `native_decide`, no
  `bv_decide`, no placeholder proof.
* The reading of the Python source, definition by definition, and of the pandas, numpy, scipy, scikit-learn and cvxpy
  behaviours listed in section 3. Fidelity test of the EWMA layer, run on `Float` with the data in
  `/repo/tests/resources` (`tools/float_check.py`): largest relative error 5e-16 against `Sigma_iewma.csv`, 0.0 against
  the recorded `nan` case, and 4e-9 of the 21-63 expert against `Sigma_combinator.csv` (its weight there is 0.99999999).
* Exact real arithmetic in place of IEEE rounding, everywhere but in C187, C188 and C193 (`ewma.py`). (`nan` and `inf` *are* modelled where the code's control
  flow depends on them.)
* The English statements in `properties.jsonl` match the theorems: for a reader to judge; the mutation log
  `seeded/LOG.jsonl` is evidence that the theorems are not weaker than the English.

## 3. Modelling decisions

### Numbers
`XR` has exact arithmetic with `nan`/`inf` propagation, since `dropna`, `isnan().all()` and `fillna` branch on `nan` and
`r / 0` can occur. `+0` and `-0` are identified (comment in `Num/XR.lean`: no reachable division by `-0`). `ewma.py`,
`iterated_ewma_vec.py` and the front of `low_rank_ewma.py` are modelled over a generic `Scalar`; all other layers over `ℝ`
(with `Option` for `nan` where the code tests for it) and `Matrix (Fin n) (Fin n) ℝ`.

### pandas
A frame is the list of its `(label, row)` pairs; a row is an array indexed by the finite type of the assets. Labels are
pairwise distinct (a hypothesis where it matters); where the code compares labels they are increasing. Rows are in increasing
order of the labels: for other orders the arithmetic of frames with different indices sorts, which `Model/EwmaOrder` models
(C60, C174). Columns of frames
combined with each other agree. Alignment on the index (`a - b`, `a * b`, `loc`) is modelled, including the `nan` rows it
creates. Dictionaries are lists of items in insertion order with the last value per key.

### Exceptions, generators, state
Exceptions are values (`Except Err`). A generator is the list of items it yields plus how it ends (`Trace`, or a pair), so
partial output before an exception is visible. Objects with mutable attributes (`Trader`, the session-wide default list
`cons`, `ReturnCombinator`, the CCP states) are structures that each method maps to a new structure.

### External routines (contracts)
* `np.linalg.inv`: the inverse; `LinAlgError` on a singular matrix.
* `np.linalg.cholesky`: reads the lower triangle; the lower-triangular factor with positive diagonal if that symmetric
  matrix is positive definite, else `LinAlgError`. (Existence and uniqueness of the factor are proved, not assumed.)
* `scipy.linalg.eigh(subset)`, `scipy.sparse.linalg.eigsh`: *any* function with the documented property (orthonormal
  eigenvectors for the extreme eigenvalues; `Eigh.Correct`, `Eigsh.Correct`). Theorems quantify over all of them;
  instances are constructed in the examples, so the contracts are not empty. `pca` (factor model): an arbitrary function
  of the training rows; orthonormal rows are a hypothesis only where used (C105).
* cvxpy (combination): an arbitrary function of the whole history of parameter values returning weights, `SolverError` or
  another exception. Only the properties about optimal weights assume `Exact` (what it returns is optimal); simplex
  properties assume only `Feasible`.
* cvxpy in the CCP, in `trading_model.py` and the lasso: same style; the optimisation problem is modelled by its feasible
  set and objective, transcribed from the cvxpy expressions.
* `multiprocessing.Pool.starmap`: any way to cut the tasks into chunks, each chunk run in order in a worker with its own
  copy of problem and parameters.
* pandas `ewm(...)`: `mean`, `std`, `cov` with `adjust=True`, `ignore_na=False`, following pandas' documented loop; the loop is
  modelled and proved equal to the weighted-average formula.
* `np.argsort`: any function returning a permutation of the positions that sorts the values (ties in any order).
* `multivariate_normal`: an arbitrary function of mean, covariance and draw number. Files: a map from names to contents.

### Not modelled
Floating point rounding and overflow (except in C187, C188, C193); the numerics of solvers and eigen-routines; plotting, printing and number formatting
(except which numbers are printed, C112); progress bars; performance; `cvxpygen` (the `C_speedup` branch of `trading_model.py`
is modelled as what it is in this checkout, a `NameError`); the cells of the notebooks
other than the functions named in C135 and following (they are scripts that load data and plot); the tests. Property-specific simplifications are in the comments of the
definitions.

## 4. Properties

`M:` what is modelled, `P:` how it is proved. Every property has a theorem; none had to be given up as inexpressible, and
none is `partial`.


### 4.1 `cvx/covariance/ewma.py` (`Model/Arr`, `Model/Ewma`)

* **C01 EWMA is the bias-corrected half-life weighted average.** M: `_general`, `_ewma_mean`, `_variance`, `volatility`, `center`. P: induction over the rows: the recursive update equals the explicit half-life weighted average of `Spec/Ewma` (closed form of the weights by the geometric sum). `C01_center_mean`, `C01_volatility`, `C01_alpha`, `C01_halflife_wins`
* **C02 iterated_ewma never looks ahead.** M: `iterated_ewma` as a generator. P: `_general` on a prefix is a prefix of `_general`; every later stage is row-local or another `_general`; the items up to a row are a function of the returns up to that row. `C02_no_lookahead`, `C02_no_lookahead_ok`, `C02_no_lookahead_chronological`
* **C03 iterated_ewma: which rows get a result.** M: the row filters (`dropna`, the all-`nan` skip). P: computes the index of the first row that survives each of the filters; the yielded labels are a sublist, and a suffix in the complete-data case. `C03_times_sublist`, `C03_times`, `C03_times_simple`
* **C04 iterated_ewma: too little data.** M: empty frames at each of the nested `_general` calls. P: case analysis on which `y[0]` raises `IndexError`; characterises exactly when. `C04_exceptions`, `C04_too_short`
* **C05 Covariance diagonal is the squared volatility.** M: `scale_cov`. P: algebra in `XR`: `v_i m_ii v_i = 1`, so the diagonal is `vola^2` unless it is `nan`. `C05_diagonal`
* **C06 Covariances are symmetric.** M: `scale_cov`, `_ewma_cov`. P: outer products are symmetric, the EWMA keeps it by induction. `C06_symmetric`
* **C07 Covariances are positive semidefinite with correlations in [-1,1].** M: same. P: EWMA of outer products is a non-negative combination, hence a quadratic form; Cauchy-Schwarz for correlations. `C07_psd`, `C07_correlation_bound`
* **C08 Per-asset scale equivariance.** M: `iterated_ewma` on rescaled columns. P: simulation between the two runs, stage by stage: volatilities scale, adjusted returns are equal. `C08_scale`
* **C09 Asset order does not matter to iterated_ewma.** M: `iterated_ewma` on renamed columns. P: naturality in the index type: every stage commutes with a bijection (and with duplicated columns). `C09_permutation`, `C09_duplicates`
* **C10 NaN returns are treated as zero returns.** M: `nan_to_num`. P: `fillna` first, so both runs are equal from there. `C10_nan_is_zero`
* **C11 nan_to_num=False: one NaN poisons the asset forever.** M: `nan_to_num=False`. P: induction: once an entry of the EWMA state is `nan` it stays `nan`. `C11_nan_poisons`
* **C12 Winsorised volatility update has bounded influence.** M: clipped update. P: algebra of `np.clip` and the weights: the change of the variance per step is bounded by the clip times the old value. `C12_bounded_influence`
* **C13 Winsorised volatility can get stuck at zero.** M: clipped update with state 0. P: induction from the step at which the state is 0; converse by positivity. `C13_stuck_at_zero`, `C13_converse`
* **C14 Inactive winsorisation changes nothing.** M: clipped vs unclipped. P: induction, simulation while no clip is active. `C14_inactive_clip`
* **C15 clip() bounds entries, keeps NaN and drops only empty rows.** M: `clip`. P: case analysis on `nan`, sign and truth value of the limit. `C15_clip`, `C15_no_clip`, `C15_bounds`, `C15_idempotent`
* **C16 center() decomposes the returns.** M: `center`. P: row-wise algebra, plus which rows survive. `C16_center_true`, `C16_center_false`
* **C17 Reported mean.** M: `scale_mean` and the zero mean. P: unfolds the yielded record; the mean is the two-stage EWMA formula. `C17_mean_zero`, `C17_mean`
* **C18 Mean-adjusted estimate is shift invariant.** M: `mean=True` on shifted returns. P: the mean EWMA shifts, the centred returns are equal, the rest is a function of them. `C18_shift`
* **C19 Zero and None mean the same for optional parameters.** M: `clip_at`, `mu_halflife1/2` truth values. P: case analysis on `truthy`. `C19_zero_is_none`
* **C20 Volatility is within the range of past absolute returns.** M: `volatility`. P: a weighted average lies between the extremes. `C20_volatility_range`
* **C21 Half-life meaning and forgetting.** M: weights of the EWMA. P: ratio of weights; half after one half-life (real powers of 2); limit by geometric decay. `C21_influence`, `C21_halves`, `C21_forgets`
* **C57 Functional correctness of iterated_ewma.** M: all of `iterated_ewma`. P: one theorem: the generator equals the list described by `Spec/Iewma` (built from weighted averages, no recursion). `C57_functional_correctness`
* **C58 An entry of the estimate depends on its own assets only.** M: `iterated_ewma` restricted to a subset of assets. P: naturality along an injection of the index type. `C58_asset_independence`
* **C59 First covariance in mean mode is NaN.** M: `mean=True`, first row. P: centred first row is 0, its outer product gives `0/0`. `C59_first_covariance_nan`
* **C60 Only the order of the time labels matters.** M: relabelled index, rows in any order. P: every stage, the sorting included, commutes with a strictly monotone map of the labels. `C60_relabel`, `C60_opaque`

### 4.2 `cvx/covariance/combination.py` (`Model/LinAlg`, `Model/Combination`, `Model/FromEwmas`)

* **C22 Weights lie on the simplex.** M: `solve`, solver contract `Feasible`. P: every yielded result stems from one solver call; induction over the loop. `C22_weights_simplex`
* **C23 Combined covariance is symmetric positive definite.** M: `_solve`. P: a convex combination of lower triangular factors with positive diagonals is one; `inv(L L^T)` is positive definite. `C23_covariance_posDef`, `C23_blend_total`, `C23_no_failure`
* **C24 Experts are blended in Cholesky factors of the precision.** M: `_cholesky_precision`, `_solve`. P: uniqueness of the Cholesky factor: the factor of the inverse result is the blend of the experts' factors. `C24_blended_factor`, `C24_blended_factor_symm`
* **C25 Agreeing experts are reproduced.** M: same. P: blending equal factors; the weights sum to one. `C25_agreeing_covariance`, `C25_agreeing_mean`, `C25_single_expert`
* **C26 Result mean.** M: `_nu`, `_solve`. P: linear algebra: `inv(L^T) nu` solves the blended system. `C26_mean`, `C26_mean_zero`
* **C27 The optimisation objective is the window log-likelihood.** M: `_A`, `P_chol`, `_objective`. P: the sum of logs and squares equals the log-likelihood of the window (`Spec/Combination`) up to a constant independent of the weights. `C27_objective`, `C27_simplex_ok`
* **C28 The blend is at least as good as every expert.** M: solver contract `Exact`. P: optimality over the simplex applied to mixtures and to its vertices. `C28_best_mixture`, `C28_beats_experts`
* **C29 Weights are uniquely determined.** M: same. P: strict concavity of the objective (positive definite `P`), hence one maximiser. `C29_unique_optimum`, `C29_result_determined`
* **C30 solve() never looks ahead.** M: `solve` with a history-dependent solver. P: the parameters of a time are a function of the prefix; the trace up to a time is equal for inputs that agree up to it. `C30_no_lookahead`, `C30_prefix`
* **C31 solve() only uses the window.** M: windows. P: the window parameters depend on the window's rows only. `C31_window_only`
* **C32 solve(window): schedule of results.** M: `window` argument, `times=None`. P: list lemmas about `shift`, `zip`, `range(window-1, len)`. `C32_schedule`, `C32_full_window`, `C32_too_short`
* **C33 solve(times) agrees with solve().** M: `solve(times)`. P: the list of windows for a consecutive block is a sublist of all windows. `C33_times_agree`
* **C34 solve(times) with too little history silently drops times.** M: negative slice start. P: arithmetic of Python slices with negative bounds. `C34_times_dropped`
* **C35 solve(times) rejects bad requests.** M: `times` checks. P: case analysis. `C35_empty_times`, `C35_unknown_time`, `C35_not_consecutive`
* **C36 A solver failure is isolated.** M: `SolverError` handler. P: induction over the loop: the other items do not change, for a solver without memory. `C36_failure_isolated`
* **C37 Degenerate windows abort before the first result.** M: `cholesky(P)`. P: rank arguments: a singular `P` in any window raises before the first item. `C37_degenerate_aborts`, `C37_identical_experts`, `C37_too_many_experts`
* **C38 Constructor validation.** M: constructor. P: exact conditions for success and for each exception. `C38_constructor_ok`, `C38_constructor_error`, `C38_usable_iff`
* **C39 Expert order does not matter.** M: permuted experts. P: naturality in the expert index, with a solver that commutes. `C39_expert_order`
* **C40 Combination is scale equivariant.** M: rescaled assets. P: diagonal scaling of Cholesky factors; the parameters of all solver calls coincide up to a constant. `C40_rescale`
* **C41 from_ewmas is from_sigmas on the iterated EWMA experts.** M: `from_ewmas`. P: unfolds to `from_sigmas` on the dictionaries of `iterated_ewma`; which exceptions, and that real panels succeed. `C41_as_from_sigmas`, `C41_errors`, `C41_succeeds`, `C41_succeeds_iff`, `C41_same_times`, `C41_panel`
* **C61 A missing return aborts solve().** M: `returns.loc`. P: a missing label raises `KeyError` before the first item. `C61_missing_return`
* **C62 The combination depends on the order of the assets.** M: permuted assets. P: equality for permutations that keep triangularity; a concrete counterexample in general. `C62_harmless_order`, `C62_uncorrelated`, `C62_order_matters`
* **C69 from_ewmas needs min_periods_cov >= number of assets.** M: `min_periods_cov < n`. P: rank of a sum of fewer than `n` outer products; converse characterisation. `C69_min_periods`, `C69_nonsingular_iff`
* **C70 Missing returns abort solve.** M: `nan` in the returns. P: the sums of windows with a missing row are `nan`; the other windows are unaffected. `C70_missing_aborts`, `C70_missing_elsewhere`, `C70_none_missing`, `C70_from_ewmas_missing`

### 4.3 `cvx/covariance/regularization.py` (`Model/Regularization`)

* **C42 Factor regularisation keeps the variances.** M: `regularize_covariance`. P: spectral algebra from the `eigh` contract: diagonal entries add up to one. `C42_factor_form`
* **C43 Factor regularisation keeps positive (semi)definiteness.** M: same. P: the remainder's diagonal is non-negative because dropped eigenvalues are. `C43_posSemidef`
* **C44 Full rank regularisation is the identity.** M: same. P: rank `n` leaves no remainder; rank-`r` inputs have zero remainder. `C44_full_rank`, `C44_low_rank`
* **C45 Low-rank format represents the same matrix.** M: low-rank format. P: `F F^T + diag(d)` entrywise equals the dense form. `C45_low_rank_format`
* **C46 EM regularisation stays well defined.** M: `_e_step`, `_m_step`, loop. P: Woodbury identity, positivity of `d` by Schur complements; any number of passes. `C46_well_defined`, `C46_any_number_of_passes`, `C46_missing_initial`
* **C47 EM never decreases the likelihood.** M: same. P: EM inequality: Gaussian KL divergence is non-negative (`log det` inequality). `C47_each_pass`, `C47_result`
* **C48 EM fixes exact factor models.** M: same. P: an exact factor model is a fixed point of the step. `C48_exact_model`
* **C63 Regularisation does not depend on the eigenvectors chosen.** M: `eigh` contract. P: spectral projector for the top eigenvalues is unique when there is a gap. `C63_independent_of_eigenvectors`
* **C64 Regularisation commutes with changes of units, signs and asset order.** M: rescaled, sign-flipped, permuted inputs. P: correlation matrix is unchanged / conjugated by a signed permutation. `C64_units`, `C64_signs`, `C64_order`
* **C65 The factor part is the best rank-r approximation.** M: top eigenpairs. P: Eckart-Young for the Frobenius norm of symmetric positive semidefinite matrices, proved from the contract. `C65_best_low_rank`
* **C66 EM regularisation commutes with changes of units.** M: EM on rescaled input. P: the step commutes with diagonal scalings. `C66_units`
* **C67 EM regularisation does not depend on the rotation of the factors.** M: EM on rotated factors. P: the step commutes with orthogonal changes of the factors. `C67_rotation`
* **C68 Regularisation rejects bad input.** M: bad rank, bad variances. P: case analysis on the contract's preconditions. `C68_bad_rank`, `C68_bad_variance`
* **C92 EM stops exactly at stationary points of the likelihood.** M: fixed points of EM. P: first-order conditions; Jacobi's formula for the derivative of `log det`; strict increase off fixed points. `C92_fixed_iff`, `C92_strict`, `C92_no_gain`, `C92_stationary_iff`, `C92_zero_loadings`
* **C93 em_low_rank_log_likelihood scores the EM models.** M: `em_low_rank_log_likelihood`. P: composition of the generators; the dictionaries have the same keys. `C93_em_score`

### 4.4 `experiments/utils/experiment_utils.py`, `iterated_ewma_vec.py` (`Model/ExpUtils`, `Model/EwmaVec`)

* **C49 rolling_window double counts the first return.** M: `rolling_window`. P: induction: closed form of the recursion, showing the first return counted twice. `C49_rolling_window`, `C49_first_return_stays`, `C49_memory_one`, `C49_errors`
* **C50 Old and new EWMA recursions agree.** M: `get_next_ewma`, `ewma`. P: induction: equal to the recursion of `ewma.py` from the second row on. `C50_agrees`, `C50_keys`, `C50_errors`
* **C54 Packed covariance rows.** M: packed rows. P: bijection between upper-triangle positions and row entries; broadcasting of one value. `C54_packed_row`, `C54_round_trip`, `C54_wrong_length`, `C54_single_value`, `C54_matrix`
* **C71 add_to_diagonal.** M: `add_to_diagonal`. P: entrywise; positive definiteness by a convex split; in-place effect on the caller's dictionary. `C71_entries`, `C71_twice`, `C71_posDef`
* **C72 Turnover.** M: `turnover`. P: sums of absolute values. `C72_turnover`, `C72_zero_iff`, `C72_scale`, `C72_long_only_bound`
* **C73 Log-likelihood of predictions.** M: log-likelihood functions. P: determinant and inverse of scaled matrices; equality with `Spec/ExpUtils` Gaussian density. `C73_single`, `C73_log_likelihood`, `C73_no_means`, `C73_singular`, `C73_sequential`
* **C74 Evaluation is aligned with the next return.** M: `log_likelihood_*`. P: lookup in the shifted frame: score of time `t` uses the next row's return. `C74_low_rank`, `C74_dense`, `C74_regularized`
* **C75 Realised covariance and volatilities.** M: realised covariance. P: bilinear algebra of `cov(ddof=0) * T`. `C75_realized`, `C75_volas`, `C75_single_row`, `C75_psd_and_volas`
* **C76 MSE and empirical distribution.** M: `MSE`, `ecdf`. P: Frobenius norm; sorting lemmas and counting. `C76_mse`, `C76_ecdf`

### 4.5 `experiments/utils/trading_model.py` (`Model/Trading`)

* **C51 Maximum drawdown.** M: `compute_max_drawdown`. P: loop invariant: running peak and running maximum of drawdowns. `C51_max_drawdown`, `C51_range`, `C51_empty`
* **C52 Portfolio growth.** M: `get_portfolio_growth`. P: induction: product formula. `C52_growth`, `C52_positive`
* **C53 Cash dilution hits the volatility target.** M: `dilute_with_cash`, `get_vol_cont_w`. P: homogeneity of the quadratic form; weights add up to one. `C53_dilute_row`, `C53_dilute`, `C53_second_call`, `C53_vol_cont_row`, `C53_diluted_returns`, `C53_short_rf`
* **C56 Whitener measures risk.** M: `_get_L_inv`. P: triangular algebra: `|L^{-1} w|^2 = w^T Sigma w`. `C56_whitener`, `C56_singular`
* **C77 Diluted weights are never refreshed.** M: the flag `diluted`. P: state transitions: a later backtest does not clear it. `C77_marks`, `C77_stale`
* **C78 vol_cont and diluted mean_variance fail.** M: shapes in `vol_cont`. P: numpy broadcasting and `hstack` shape rules; the flag is set before the exception. `C78_vol_cont_fails`, `C78_poisoned`, `C78_mean_variance_diluted`
* **C79 Returns and metrics.** M: `get_total_returns`, `get_metrics`. P: unfolds the loop to sums; counterexample for the excess metrics. `C79_cash_returns`, `C79_returns`, `C79_metrics`, `C79_excess`, `C79_excess_inconsistent`
* **C80 Risk-adjusted returns.** M: `get_risk_adj_returns`. P: homogeneity of the standard deviation. `C80_risk_adjusted`, `C80_again`, `C80_growth`
* **C81 The default constraint list is shared between backtests.** M: mutable default `cons`. P: session model: list of constraints of all earlier calls; feasibility of an earlier variable is needed. `C81_default_cons`, `C81_poisoned`
* **C82 Which parameters the worker pool uses.** M: worker pool. P: induction over chunks: which parameter values each task sees; stale volatilities for `robust_min_risk`. `C82_max_diverse`, `C82_min_risk`, `C82_robust_stale`
* **C83 max_diverse maximises the diversification ratio.** M: `max_diverse`. P: change of variables `z = w / (sigma^T w)`. `C83_max_diverse`
* **C84 risk_parity equalises risk contributions.** M: `risk_parity`. P: first-order condition of the convex objective; existence of equal contributions iff optimal; uniqueness by strict convexity. `C84_optimal_iff`, `C84_equal_contributions`, `C84_unique`
* **C85 Trader constructor.** M: `Trader.__init__`. P: case analysis of the checks. `C85_ok`, `C85_labels`, `C85_rhos`
* **C86 mean_variance with uncertainty is a worst case.** M: `mean_variance` with `rhos`. P: maximum of a linear function over a box. `C86_worst_case`, `C86_risk_limit`
* **C87 robust_min_risk is not the worst-case variance.** M: `robust_min_risk`. P: maximum over a box of covariance perturbations; counterexample. `C87_worst_variance`, `C87_not_worst_case`
* **C94 What the portfolio limits mean.** M: `additonal_cons`. P: positive and negative parts: what the limits imply; feasibility criterion. `C94_min_risk`, `C94_min_risk_feasible`, `C94_mean_variance`

### 4.6 `experiments/utils/ccp_regularize.py` (`Model/Ccp`)

* **C55 CCP state round trip.** M: `__init__`, `build`. P: Woodbury; Cholesky up to rotation. `C55_init`, `C55_build`, `C55_round_trip`
* **C88 The convex-concave objective is the likelihood.** M: `objective`. P: Schur complement determinant. `C88_objective`, `C88_objective_error`
* **C89 The convex-concave procedure never gets worse.** M: `iterate`, exact solver. P: majorisation: concave part is linearised; strictness; exact models stand still. `C89_never_worse`, `C89_each_iteration`, `C89_stands_still_iff`, `C89_strict`, `C89_exact_model`
* **C90 The gradients of the proximal gradient variant.** M: `_grad_e`, `_grad_G`. P: derivative of `log det` along lines. `C90_gradient`
* **C91 The proximal gradient variant: fixed points and failure.** M: `_State2`. P: fixed points are stationary points; concrete counterexample with a negative variance. `C91_fixed_iff`, `C91_negative_variance`

### 4.7 `experiments/utils/low_rank_ewma.py` (`Model/LowRankEwma`)

* **C95 low_rank_iterated_ewma has the times, means and variances of iterated_ewma.** M: `low_rank_iterated_ewma`. P: diagonal of the update is exact; simulation with `iterated_ewma`. `C95_variances`, `C95_complete`, `C95_nonzero_returns`
* **C96 The factor part of low_rank_iterated_ewma never overstates risk.** M: same. P: the dropped part is positive semidefinite. `C96_factor_risk`
* **C97 low_rank_iterated_ewma is exact where it can be.** M: same. P: no truncation while the rank suffices. `C97_exact`, `C97_first_rows`
* **C98 Each low-rank update is a best approximation.** M: `_low_rank_sum`. P: Eckart-Young for each update. `C98_best_update`
* **C99 What stops low_rank_iterated_ewma.** M: `eigsh` preconditions, `nan`. P: case analysis. `C99_rank`, `C99_stop`
* **C100 low_rank_iterated_ewma does not look ahead.** M: same. P: prefix property as in C02. `C100_no_lookahead`, `C100_times`

### 4.8 `experiments/utils/factor_model.py` (`Model/FactorModel`)

* **C101 The factor model covers every date after the first memory rows once.** M: `construct_cmiewma_factor_model`. P: `range(memory, T, step)` blocks tile the dates after the first `memory` rows, given the items of the combination; the first failing block decides the exception. `C101_schedule`, `C101_exposure`, `C101_success`, `C101_exceptions`
* **C102 What an item of the factor model is.** M: items. P: pandas `ewm` = half-life average; covariance is symmetric positive (semi)definite. `C102_item`, `C102_valid`, `C102_portfolio_variance`
* **C103 The factor model does not look ahead.** M: same. P: the item of a date depends on returns up to it. `C103_no_lookahead`
* **C104 factor_log_likelihood scores against the next day.** M: `factor_log_likelihood`. P: shifted lookup, as C74. `C104_scores`, `C104_value`, `C104_key_error`
* **C105 Factors and residuals are orthogonal.** M: PCA contract. P: orthonormal rows of the exposure. `C105_residual`, `C105_factor_covariance`, `C105_full_covariance`

### 4.9 `experiments/utils/portfolio_backtests.py` (`Model/Backtests`)

* **C106 A backtest pairs each date's prediction with the next row's returns.** M: `_get_causal`, `Backtest.run`. P: list lemmas: rows of `shift(-1).dropna()`. `C106_pairing`, `C106_fresh`, `C106_days`
* **C107 When a backtest can be made and when it goes through.** M: constructor and run. P: exact success conditions. `C107_constructor`, `C107_rows`, `C107_success`, `C107_missing_date`, `C107_posDef`, `C107_constructor_errors`
* **C108 EqWeighted earns the average return whatever the predictor.** M: `EqWeighted`. P: the mean of the returns. `C108_equal_weights`
* **C109 Each strategy is optimal day by day under that day's prediction.** M: the strategies. P: C56, C83, C84, C86 applied to each date. `C109_min_risk`, `C109_max_diverse`, `C109_max_diverse_bound`, `C109_risk_parity`, `C109_mean_variance`
* **C110 Backtests do not look ahead.** M: same. P: results of a date depend on that date's data. `C110_local`, `C110_no_lookahead`, `C110_window_causal`
* **C111 Backtest results are keyed by name and independent.** M: the dictionary of traders. P: last predictor with a name wins; each is what it would be alone. `C111_names`, `C111_alone`, `C111_too_few_names`, `C111_too_few_means`
* **C112 What the printed table says.** M: `_create_table_helper`, `create_table`. P: unfolds; counterexample for a second target. `C112_table`, `C112_stale_target`

### 4.10 `experiments/utils/return_combination.py` (`Model/ReturnCombination`)

* **C113 The ridge weights are the optimum of the stated regression.** M: `_get_weights` (ridge). P: completing the square in the weighted inner product. `C113_recency`, `C113_optimal`, `C113_singular`, `C113_lengths`
* **C114 ReturnCombinator.fit predicts every row after the first memory rows.** M: `ReturnCombinator.fit`. P: loop over dates and assets; success conditions. `C114_fit`, `C114_success`, `C114_rejects`, `C114_positive_alpha`
* **C115 ReturnCombinator.fit does not look ahead.** M: same. P: prefix property. `C115_no_lookahead`
* **C116 The penalty of a predictor is the decayed average of its past squares.** M: `_get_scales`. P: `ewm(com)` instead of `halflife`: weights of the decayed average. `C116_scales`
* **C117 feature_engineer splits predictions into positive and negative parts without loss.** M: `feature_engineer`. P: case analysis on signs; inverse map. `C117_split`, `C117_lossless`
* **C118 Lagged and averaged predictors, and the chain to the prediction, are causal.** M: predictors. P: shifts and `ewm` lookups. `C118_daily`, `C118_daily_causal`, `C118_ewma`, `C118_chain`
* **C119 The lasso combination is optimal on each window.** M: lasso. P: subgradient conditions from convexity; existence by coercivity; uniqueness of the fit; alignment of indices. `C119_conditions`, `C119_zero`, `C119_exists`, `C119_unique_fit`, `C119_fit`, `C119_variants`, `C119_no_lookahead`, `C119_misaligned`
* **C120 tune_alpha reports each alpha's own correlation and error.** M: `tune_alpha`. P: entries are those of separate calls; Cauchy-Schwarz for correlations. `C120_entries`, `C120_correlation`, `C120_error`
* **C121 construct_rho is a causal multiple of the standard deviation.** M: `construct_rho`. P: pandas' `ewm().std()` loop = debiased weighted variance. `C121_rho`, `C121_pairs`, `C121_facts`, `C121_two_rows`, `C121_no_lookahead`
* **C122 Workers of mean_variance and risk_parity solve each date with that date's data.** M: the tasks and the parameter updates of `solve_mean_variance`, `solve_risk_parity`; `runPool` over any chunking. P: induction over a chunk with an invariant of the parameter store. `C122_mean_variance`, `C122_risk_parity`
* **C123 Trader.backtest: which calls succeed and what a failed call leaves.** M: `Trader.backtest` as a state change with exceptions, for every portfolio type; sequences of calls. P: case analysis on the type; induction over the sequence. `C123_succeeds_iff`, `C123_never`, `C123_failed`, `C123_history`, `C123_mixed`, `C123_unaffected`, `C123_weights`, `C123_exceptions`
* **C124 The vectorised helpers agree with the library.** M: the vectorised `_regularize_correlation`, `_refactor_to_corr`, `_get_realized_covs/_vars` and the Engle formula. P: both are the low-rank plus diagonal form of an orthonormal top eigenbasis; unique under an eigenvalue gap. `C124_agrees`, `C124_factor_form`, `C124_any_rank`, `C124_correlations`, `C124_pipeline`, `C124_realized`
* **C125 realized_ewma averages the realised covariances of the labels before.** M: `realized_ewma` (`realized_covariance`, then the generator `ewma`). P: C75 and C50; realised covariances are Gram matrices. `C125_average`, `C125_posSemidef`, `C125_errors`, `C125_shift_scale`
* **C126 yearly_SR reports one annualised Sharpe ratio per calendar year.** M: `yearly_SR(plot=False)`: groups, filter, yearly bins. P: filter by year commutes with the filter by size; bins are the interval between extreme years. `C126_years`, `C126_value`, `C126_lengths`, `C126_leverage`, `C126_order`
* **C127 Optimality of the combination weights can be checked with K numbers.** M: nothing new: the objective of `_CombinationProblem`. P: tangent inequality (log x <= x - 1) in one direction, first-order condition along simplex edges in the other. `C127_optimal_iff`, `C127_support`, `C127_average`, `C127_gap`, `C127_solve`
* **C128 An inexact solver gives nearly optimal predictions.** M: solvers with tolerance `d`. P: strong concavity from C127; coordinates bounded by the inverse Gram matrix; continuity of the blend. `C128_near_best`, `C128_weights_close`, `C128_weight_error`, `C128_predictions_converge`
* **C129 The whole method does not look ahead.** M: `from_ewmas(...).solve(...)` with labelled weights. P: C02 for each expert, panels agree on the common positions, then C30_prefix and C70. `C129_no_lookahead`, `C129_earlier_call`
* **C130 The whole method does not depend on units.** M: `from_ewmas(...).solve(...)`. P: C08 for each expert, then C40 and C70; converse by the inverse factors. `C130_succeeds`, `C130_units`, `C130_error`
* **C131 Only the experts matter, not how the pairs are listed.** M: `from_ewmas(...).solve(...)`, the dictionary of labels. P: experts are last pairs (C41); equal labels give a bijection of positions, then C39. `C131_same_experts`, `C131_order_succeeds`
* **C132 What the whole method yields.** M: `from_ewmas(...).solve(...)` with labelled weights. P: C41 gives the panel of the experts, then C28 (optimality), C32 (schedule), C37, C70. `C132_results`, `C132_schedule`
* **C133 solve accepts every integer window.** M: `solve` with Python's integer indexing (`Model/SolveCall`). P: refinement: equal to `Model/Combination` for natural windows; an index out of range for negative ones. `C133_natural_window`, `C133_panel`, `C133_negative_window`, `C133_negative_window_panel`
* **C134 solve needs sorted times.** M: `truncate` of an index in any order (`Model/SolveCall`). P: every window needs `truncate`; the requested times are a sublist of the index. `C134_unsorted`, `C134_decreasing`, `C134_decreasing_window_one`, `C134_index`
* **C135 L1 smoothing is an optimal trade-off over all matrices.** M: `L1_smoothing`, `get_next`, with an exact solver of the one-dimensional problem as a parameter (`Model/Smoothing`). P: closed form of the minimiser on the line; triangle inequality and strong convexity for all matrices; induction over the dates. `C135_smoothed`, `C135_any`, `C135_shape`, `C135_valid`, `C135_causal`, `C135_errors`
* **C136 EWMA smoothing of covariances.** M: `ewma_smoothing` on top of the model of `ewma` (`Model/EwmaVec`). P: induction as for C125; averages of semidefinite matrices. `C136_average`, `C136_valid`, `C136_causal`
* **C137 Relative change of a covariance sequence.** M: `frob_difference`. P: induction; Frobenius norm. `C137_value`, `C137_laws`
* **C138 Generative mode draws from the half-life average of data and samples.** M: `_ewma_cov` and `_general` of the notebook, the sampler as a parameter (`Model/Generative`). P: invariant of the loop: the state is the average of the extended sequence. `C138_samples`, `C138_given`, `C138_errors`, `C138_posSemidef`
* **C139 Sampling experiment.** M: `run_sampling_experiment`, fit and sampler as parameters. P: induction over the samples. `C139_experiment`
* **C140 The prescient predictor.** M: the cell `prescient` of the notebooks, year and month of a time stamp as a parameter (`Model/Prescient`). P: sample moments as sums over lists; integer arithmetic for the quarters. `C140_prescient`
* **C141 How far the prescient predictor is from the best one.** M: the same. P: `log det` inequality for pairs of positive definite matrices, traces. `C141_prescient_likelihood`
* **C142 The prescient predictor with means.** M: the cell with means of `nonzero_means.ipynb`. P: the same, completing the square in the mean. `C142_prescient_means`
* **C143 Covariances survive being saved and read.** M: `save_cov_to_csv`, `from_upper_triangular_to_full`, `from_csv_to_cov`; the directory as a map from names to tables (`Model/LargeUniverses`). P: the triangle's length determines its size; positions as in C54; induction on the list of saves. `C143_unpack`, `C143_save_and_load`, `C143_history`
* **C144 Full covariances as factor models.** M: `get_choleskys`. P: existence and uniqueness of the Cholesky factor. `C144_get_choleskys`
* **C145 tune_returns cuts each row at its own quantiles.** M: `tune_returns` (two of its forms), pandas' `quantile` and `clip` (`Model/Tune`). P: order statistics of the sorted row; counting. `C145_tune_returns`, `C145_arguments`
* **C146 tune_returns does not depend on units, origin or order.** M: the same. P: uniqueness and monotonicity of the quantile. `C146_tune_equivariance`
* **C147 tune_returns2 marks the extreme entries of a row.** M: `tune_returns2`. P: the same. `C147_tune_returns2`
* **C148 Moving autocorrelations.** M: `get_moving_autocorrelations`, pandas' `ewm` with missing values (`Model/Signals`). P: Cauchy-Schwarz; averages over the present entries from the recursion (`Lemmas/Signals`). `C148_autocorrelations`, `C148_shifted`, `C148_lagged`, `C148_missing`
* **C149 Sign predictions pick the ten largest and the ten smallest.** M: `get_sign_prediction`, `np.argsort` as a parameter (`Model/Signals`). P: counting: two sets of ten positions. `C149_sign_prediction`, `C149_limits`
* **C150 What CM-IEWMA predicts.** M: the CM-IEWMA cell as a function of returns, pairs, minimum numbers of rows, lamda and window (`Model/CmIewma`). P: results of every expert as in C41 (all rows from the warm-up on), `solve` on the panel of experts (C22-C34). `C150_days`, `C150_prediction`, `C150_success`, `C150_exceptions`
* **C151 CM-IEWMA does not look ahead.** M: as C150. P: an expert's covariance depends on its rows only (C10); the problem of a window on the rows of the window. `C151_no_lookahead`
* **C152 Returns sampled from CM-IEWMA.** M: `fit_cm_iewma` (`Model/CmIewma`) as the fit of `run_sampling_experiment` (`Model/Generative`). P: last entry of C150, C139, and C151 between the tables of two turns. `C152_fit`, `C152_sampling`
* **C153 CM-IEWMA does not depend on units.** M: as C150. P: C08 for every expert, C40 for the combination. `C153_units`, `C153_succeeds`
* **C154 Experts from pandas' exponentially weighted covariances.** M: pandas' `ewm(halflife, min_periods).cov()` on tables without `nan` (the recursion of `ewmcov`), `dropna`, the expert dictionaries of README.md:121-124 (`Model/Readme`). P: invariant of the recursion (both means, covariance, weights); the quadratic form as a variance (C121); dimension count. `C154_expert`, `C154_portfolio`, `C154_diagonal`, `C154_psd`, `C154_singular`, `C154_min_periods`, `C154_affine`, `C154_two_rows`
* **C155 The second README example.** M: the second README example as a function of returns, half-lives, min_periods and window (`Model/Readme`). P: C154 for the experts, `solve` on the panel of experts (C22-C34, C38). `C155_days`, `C155_prediction`, `C155_success`, `C155_no_lookahead`, `C155_exceptions`
* **C156 The second README example does not depend on units.** M: as C155. P: C154 for the experts, C40 for the combination. `C156_units`
* **C157 Returns of the demo notebook from prices with gaps.** M: `pct_change` (with pandas 2.2.3's forward fill), `dropna(how="all")` and the selection of columns of demo.py:35 on numbers and `nan` (`Model/MarimoDemo`). P: induction over the rows, with the last known price as invariant; product of the returns by induction over days. `C157_returns`, `C157_complete`, `C157_compound`, `C157_units`, `C157_no_lookahead`
* **C158 The table of weights of the demo notebook.** M: demo.py:35-53 as a function of prices and all arguments (`Model/MarimoDemo`, `Model/FromEwmas`). P: C157 for the returns; C41, C70, C24-C34 and C129 for `from_ewmas` and `solve`. `C158_table`, `C158_units`, `C158_no_lookahead`, `C158_exceptions`
* **C159 The portfolio problems have a solution.** M: the objectives and constraints of `trading_model.py` (`Model/Trading`). P: the risk grows without bound (compact sphere), so sublevel sets are compact; strict convexity by the mid-point and Cauchy-Schwarz; `risk_parity` by least risk at geometric mean one. `C159_min_risk`, `C159_min_risk_standard`, `C159_robust`, `C159_max_diverse`, `C159_risk_parity`, `C159_mean_variance`, `C159_mean_variance_target`
* **C160 When a backtest goes through.** M: `Backtest.run` with a solver that solves every solvable problem (`Model/Backtests`). P: C107 and C159. `C160_success`, `C160_room`, `C160_mean_variance`
* **C161 Weights do not depend on the units of the predictions or the solver.** M: two runs. P: uniqueness (C159) and the change of the problems under a positive factor. `C161_units`, `C161_succeeds`
* **C162 The order of the assets does not matter to a backtest.** M: two runs. P: uniqueness (C159) and the change of the problems under a permutation. `C162_order`, `C162_succeeds`
* **C163 The tables of the experiment notebooks.** M: the notebook cells from predictors to table (`Model/Experiment`). P: the backtest (C106, C107), the dilution (C53), the metrics (C79) and the table (C112) put together. `C163_table`, `C163_mean_variance`, `C163_runs`, `C163_runs_mean_variance`, `C163_missing`, `C163_missing_mean_variance`
* **C164 From returns to a portfolio: no look-ahead.** M: the notebook cells from returns to a trader (`Model/Pipeline`). P: C150, C151 and C106-C110, C160 put together. `C164_portfolio`, `C164_no_lookahead`, `C164_success`
* **C165 From returns to a portfolio: units do not matter.** M: two runs of `Model/Pipeline`. P: C153, uniqueness (C159) and the dilution (C53). `C165_units`
* **C166 Log-likelihoods and regrets of the experiment notebooks.** M: the cells with log-likelihoods, regrets, quarterly means and table of regrets (`Model/Regrets`; rounding not). P: C73 row by row; sums over the dates of a quarter. `C166_log_likelihood`, `C166_log_likelihood_errors`, `C166_regrets`, `C166_alignment`, `C166_no_prescient`, `C166_quarterly`, `C166_advantage`, `C166_table`, `C166_units`
* **C167 The regret against PRESCIENT is one row late and not bounded below.** M: the same with the prescient predictor (`Model/Prescient`). P: C140, C141 and C166; the returns 1, -1, M, -M. `C167_first_day`, `C167_unbounded`
* **C168 CM-REWMA: combination of realized covariances.** M: the cells with daily returns and CM-REWMA of realized_covariance.ipynb (`Model/CmRewma`). P: C125; `from_sigmas` on experts that are any function of the rows (`Lemmas/SigmaRun`). `C168_posDef`, `C168_days`, `C168_prediction`, `C168_success`, `C168_no_lookahead`, `C168_exceptions`, `C168_single_row`, `C168_few_rows`
* **C169 Daily from intraday returns.** M: the same. P: products and sums over lists; both sides in closed form. `C169_daily`, `C169_growth`, `C169_order`
* **C170 CM-IEWMA with means.** M: the cells of nonzero_means.ipynb with means (`Model/CmMean`). P: closed form of the iterated EWMA with means (C18); run of `solve` on the panel of the experts (C22 ff.), `Lemmas/MeanRun`. `C170_days`, `C170_prediction`, `C170_success`, `C170_no_lookahead`, `C170_exceptions`, `C170_too_few`
* **C171 CM-IEWMA with means: shifts and units.** M: the same. P: invariance of scores and window problems; blends commute with shifts and units. `C171_shift`, `C171_shift_succeeds`, `C171_units`
* **C172 Bands of forecasts.** M: the cells of industry_portfolios.ipynb with forecasts and rhos (`Model/RhoBands`). P: closed form of the averages; least and greatest of a list; C86 for the objective. `C172_range_band`, `C172_arguments`, `C172_how_far`, `C172_too_narrow`, `C172_deviation_band`, `C172_worst_case`, `C172_worst_case_range`, `C172_no_lookahead`, `C172_units`
* **C173 Yearly weights of the experts and effective half-life.** M: the cells with yearly weights and effective half-lives (`Model/YearlyWeights`). P: C22 for the entries; averages of points of the simplex; sums over dates and experts exchanged. `C173_weights`, `C173_cells`, `C173_years`, `C173_average`, `C173_effective`, `C173_mean`
* **C174 The order of the rows.** M: `iterated_ewma` with the alignment of pandas for any order of the rows (`Model/EwmaOrder`). P: equal to `Model/Ewma` for increasing labels; closed form with the order in which the rows enter (`Spec/EwmaOrder`); decreasing labels: reversed rows, and a changed first square changes every weighted average. `C174_chronological`, `C174_order`, `C174_decreasing`, `C174_lookahead`
* **C175 Random returns: what the EWMA estimates.** M: `_ewma_cov`, `volatility` on a random table (`Model/Ewma`; Mathlib's probability: `Measure`, integrals, `variance`, `covariance`). P: integrals of finite sums; variance ≥ 0 for the root; closed form of the effective number of observations (`Spec/Random`). `C175_covariance`, `C175_mean`, `C175_unbiased`, `C175_volatility`, `C175_variance`, `C175_effective`
* **C176 The scores are proper.** M: `log_likelihood`, `MSE` (`Model/ExpUtils`) of a random return (`Spec/RandomScores`). P: expected quadratic form = trace; log det (A M) ≤ tr (A M) - n with equality only for A = M⁻¹; decomposition of the second moments about another point. `C176_covariance`, `C176_mean_covariance`, `C176_mse`
* **C177 What a correct prediction buys.** M: the backtests of `portfolio_backtests.py` and `dilute_with_cash` (`Model/Backtests`, `Model/Trading`) with a random next row. P: variance of a linear combination; C109, C53. `C177_variance`, `C177_min_risk`, `C177_min_risk_error`, `C177_mean_variance`, `C177_diluted`
* **C178 Backtests on random histories.** M: the same on random tables with finitely many outcomes (`Spec/Unpredictable`). P: sums over classes of histories that agree up to a row; C110 makes the weights constant on a class; C109, C53. `C178_no_gain`, `C178_min_risk`, `C178_diluted`
* **C179 The MGARCH predictors.** M: the cells that read the MGARCH predictors (`Model/Mgarch`) with `from_row_matrix_to_covariance`. P: C54; the comprehension by positions; first failing position for `IndexError`. `C179_table`, `C179_units`, `C179_files`, `C179_errors`
* **C180 Trading in percent.** M: `dilute_with_cash`, `get_total_returns`, `get_metrics` (`Model/Trading`) in other units (`Spec/Units`). P: simulation of the loop over the rows in both units, exceptions included; C53, C79 for the exact gap with `excess=True`. `C180_returns`, `C180_metrics`, `C180_excess`, `C180_target`
* **C181 Generators are lazy and independent.** M: `solve` and `iterated_ewma` as generators advanced by `next`, with references to the caller's data (`Model/Sessions`). P: one step of a paused generator against the exhausted one (`Trace`), then induction over the list of operations; `Spec/Sessions` says what the k-th `next` does. `C181_consume`, `C181_isolated`, `C181_labels`, `C181_keys`, `C181_iterated_ewma`
* **C182 The vectorised iterated_ewma of the experiments never returns.** M: `iterated_ewma_vec.iterated_ewma` up to its first use of `ewma` (`Model/IteratedVec`), with values that carry their run-time type (array or generator) and the remaining lines as an arbitrary continuation. P: case analysis on `mean` and on whether the array has an entry; the array version by computation. `C182_type_error`, `C182_array_version`
* **C183 The table of quarterly mean squared errors.** M: `MSE`, `resample("Q").mean()` and the printed statistics (`Model/ExpUtils`, `Model/Regrets`, `Model/MseTable`); the predictor is given on an increasing choice of rows of the table. P: the quarterly means as a list over the quarters (`quarterlyMean_rows`), sums and maximum over that list as sums over the set of quarters; units and order through the quarterly errors; the loop by induction over the predictors. `C183_row`, `C183_cell`, `C183_errors`, `C183_units`, `C183_order`
* **C184 Daily returns compounded to yearly ones.** M: `resample('Y').apply(lambda x: (x + 1).prod() - 1)` on a table with missing entries (`Model/Compound`). P: the list products as products over the rows of a year, then over all rows by fibres of `year`; Weierstrass' inequality by induction, `exp` termwise. `C184_years`, `C184_value`, `C184_wealth`, `C184_bounds`
* **C185 The frame of portfolio values mixes up the traders.** M: `np.array(histories).reshape(-1,6)` as rows of a flat list (`Model/GrowthTable`). P: the flattened histories as a list over `range (6 T)` with quotient and remainder, by induction over the traders. `C185_cells`, `C185_scrambled`, `C185_wrong`, `C185_errors`
* **C186 How often and how far smoothed covariances move.** M: the means of the lists `updates`, their reciprocals and the normalised regrets (`Model/SmoothingRates`) on top of `Model/Smoothing`. P: from the characterisation of the smoothed sequence (C135); stability through the projection on a ball, which is firmly nonexpansive in an inner product space. `C186_frequency`, `C186_single`, `C186_units`, `C186_movement`, `C186_stable`, `C186_normalised`
* **C187 Rounding errors of the EWMAs do not accumulate.** M: `Model/Ewma` over numbers with rounding errors and overflow (`Num/Rounded`: every operation has relative error u and absolute error η). P: error of one update, contraction of the recursion (errors are damped by about 2^(-1/h) per row), sensitivity of the average to the decay; induction over the rows; the arithmetic of p bits as instance. `C187_mean`, `C187_cov`, `C187_variance`, `C187_volatility`, `C187_constants`
* **C188 iterated_ewma is stable under rounding, for histories of any length.** M: `Model/Ewma` over numbers with rounding errors and overflow (`Num/Rounded`), next to the same model over `XR`. P: a calculus of numbers that differ by a multiple of the unit roundoff, through every stage of `iterated_ewma` (C187 for the averages); the exact values are those of C57. `C188_iterated_ewma`
* **C189 What the volatility remembers, with and without winsorisation.** M: `Model/Ewma` (`volatility`). P: the recursion of the variance is monotone, homogeneous and a contraction without clipping; (d) by a history that pushes the variance up when it is below one and down otherwise, in units of the variance. `C189_monotone`, `C189_memory`, `C189_unclipped`, `C189_clipped_remembers`
* **C190 Adding and leaving out experts.** M: `Model/Combination` (`solve`) for a panel and a subset of its experts. P: padding weights with zeros commutes with the blend; principal submatrices of positive definite matrices; uniqueness (C29) and the certificate (C127). `C190_more_experts`, `C190_zero_weights`, `C190_gain`, `C190_still_solves`
* **C191 iterated_ewma is well conditioned without the mean, not with it.** M: `Model/Ewma` (`iterated_ewma`) on two tables. P: factors pass through the recursion of the variance (monotone and homogeneous), division and clamping; Cauchy-Schwarz for the cross moments; the negative part on two explicit rows. `C191_well_conditioned`, `C191_not_with_mean`
* **C192 The combination depends continuously on its data.** M: `Model/Combination` (`fromSigmas`, `solve`) for data near a given panel. P: Cholesky factors are bounded and unique, hence continuous; the maximiser of a continuous function on the compact simplex is continuous where it is unique; nonsymmetric matrices amount to the symmetric ones of their inverse's lower triangle; one tolerance for the finitely many positions. `C192_continuous`, `C192_with_tolerance`, `C192_any_nearby`
* **C193 The whole method with experts computed with rounding.** M: `Model/FromEwmas`: the experts of `from_ewmas` by `Model/Ewma` over numbers with rounding (`Num/Rounded`), combined by `Model/Combination`; the combination stage is exact. P: C188 for every expert (the constants are minima over finitely many rows and assets), then C192 for the panel of rounded experts. `C193_rounded_experts`
* **C194 The whole method depends continuously on the returns.** M: `Model/Ewma.iteratedEwma`, `Model/FromEwmas` and `solve` on two nearby tables (`Spec/ReturnsContinuity`). P: every closed form of C57 is continuous where the volatilities are positive, and the set of rows in use is locally constant (`Lemmas/IewmaContinuity`); positive definite covariances stay so; then C192 for the panel of experts, C70 for the missing entries; (c) returns 0, 1. `C194_iterated_ewma`, `C194_from_ewmas`, `C194_jump`
* **C195 How far revised returns move the weights.** M: `Model/Combination.solve` on two panels with the same covariances (`Spec/Influence`). P: the first-order conditions of both optima (C127) added up; the logarithms contribute with the right sign because they are concave; `coord_le` turns the quadratic form into a bound on the weights; one changed return changes one term of the Gram sum. `C195_weights`, `C195_one_return`
* **C196 The combination learns the best blend.** M: `Model/Combination.solve` on fixed experts and random returns (`Spec/Consistency`; Mathlib's probability). P: for fixed experts the window log-likelihood is a function of the average Gram matrix (C27); its optimum moves by at most a multiple of the change of that matrix (strong concavity); strong law of large numbers for each entry; properness (C176) identifies the limit. `C196_limit`, `C196_truth`, `C196_truth_without_mean`, `C196_right_expert`
* **C197 How far another covariance prediction moves the portfolios.** M: two runs of the backtests of `portfolio_backtests.py` (`Model/Backtests`). P: day by day optimality (C109); first-order condition of MinRisk along segments of the convex set of limits, for RiskParity the equal contributions; added up they bound the quadratic form of the difference; `sum_sqrt_bound`. `C197_min_risk`, `C197_risk_parity`
* **C198 Learning the best blend does not need exact solutions.** M: as C196, with `Solver.Near` (Props/Certificate), the contract of a solver that stops early. P: weights within `delta` of the best for a Gram matrix within `eta` of the expected one are within `4 (delta + eta) (G^-1)_kk` (squared) of the best weights (strong concavity); blends depend continuously on the weights; strong law. `C198_tolerance`, `C198_fixed_tolerance`
* **C199 How fast the combination learns the best blend.** M: as C196, windows of any length. P: Chebyshev's inequality for each entry of the average Gram matrix (variances of sums of pairwise independent terms), union bound, then as C196/C198. `C199_rate`, `C199_request`
* **C200 How far factor regularisation moves the covariances.** M: `regularize_covariance` on dense results. P: the dropped part E of the correlation matrix satisfies 0 ≤ E ≤ c: a combination of the last r+1 eigenvectors lies in the kernel of B; entries of E by polarisation; trace bound for n/(r+1). `C200_error`, `C200_worst_case`
* **C201 How the regularised covariances depend on the covariances.** M: `regularize_covariance` on dense results. P: the leading projections P, P' satisfy (g/2)|P - P'|² ≤ tr(M - M')(P - P') (diagonal entries of P' in the eigenbasis of M lie in [0, 1] and add up to r), then Cauchy–Schwarz; the result is MP off the diagonal; two assets: explicit eigenvectors and uniqueness of the leading part. `C201_stable`, `C201_continuous`, `C201_two_assets`
* **C202 EM regularisation is continuous, and what repeating it leads to.** M: `em_regularize_covariance`, calls repeated any number of times. P: limits of the closed form of a pass; the likelihood is bounded by that of Sigma itself, and models of a given likelihood are bounded (eigenvalues); limit points as in Wu's convergence theorem for EM, from C92; compactness for (d). `C202_continuous`, `C202_repeated`, `C202_limit_points`, `C202_approaches`
* **C203 From returns to portfolio weights: a small revision of the returns has a small effect.** M: the way from the returns to a portfolio (`cmPortfolio`: CM-IEWMA, the cut, the backtest). P: the experts' covariances are limits of continuous closed forms (positive volatilities); nearby panels complete with nearby blends (C192); the portfolios of MinRisk and RiskParity by the bounds of C197, that of MaxDiverse by compactness and uniqueness; then day by day. `C203_predictions`, `C203_portfolio`
* **C204 iterated_ewma can be run online, but not from its results.** M: `iterated_ewma` for every table and all arguments; the online method is `Spec/Online`. P: the kept numbers are the averages of the closed form of C57 up to the row (induction over the rows, one-step recursions of half-life averages and of the winsorised variance); results row by row; tables (1,1),(1,1) and (√3,√3),(0,0) followed by (1,-1). `C204_online`, `C204_continue`, `C204_results_not_enough`
* **C205 CM-IEWMA can be run online with bounded memory.** M: the CM-IEWMA cell (`Model/CmIewma`) with exact solvers; the online method of the whole pipeline is `Spec/OnlineMethod`. P: the experts run as in C204; the rows kept are the last `window` rows from the first on that experts had predicted (induction over the rows); the weights of a run maximise the log-likelihood of the kept rows (C150) and the maximiser is unique (C30), so they are those of the online method; two histories with the same kept numbers: induction over the later rows; runs on (1,-2,1,…) and (-1,-2,1,…). `C205_online`, `C205_bounded`, `C205_continue`
* **C206 How fast iterated_ewma forgets the past, and when it does not.** M: `iterated_ewma` with all arguments on tables of real returns of any length. P: closed form of C57 for both histories; a half-life average of two sequences whose distance at row k is at most A r^(k-s), r above the decay factor, differs at row t by at most A r^(t-s)/(1-b/r) (geometric series); the bound goes through centring, squares, roots, quotients, products and averages with explicit constants; (b) from the two histories of C189; returns of ±1/100, and 100 rows with clip_at 4.2. `C206_forgets`, `C206_not_with_clip`
* **C207 How soon CM-IEWMA forgets the past.** M: the iterated EWMA experts, their panel, the optimal weights and the blend of the CM-IEWMA run; the bounds in Spec/CmForgetting.lean. P: C207_forgets: each expert forgets at a geometric rate (from the proof of C206); the data of a window within the bounds form a compact set on which the optimal weights and the blend are continuous (Lemmas/Continuity), so the change of the blend is uniformly small by a subsequence argument; example: one asset with any returns between 1 and 2 in absolute value. `C207_forgets`
* **C208 What a longer history changes in iterated_ewma.** M: `iterated_ewma` without clipping on a table of real returns and on the table of its rows from row k on. P: C208_later_start: closed form of C57 for both histories; a half-life average of bounded values which starts k rows later differs at row t by a multiple of the mass of the rows left out, at most r^t, plus the half-life average of the differences of the values (geometric series); through centring, squares, roots, quotients, products and averages with explicit constants as in C206; example: returns of one percent up or down, any number of rows left out. `C208_later_start`
* **C209 What a longer history changes in CM-IEWMA.** M: the CM-IEWMA run (`Model/CmIewma`) with exact solvers on a table and on the table of its rows from row k on; the bounds in Spec/CmForgetting.lean. P: C209_cm_later_start: each expert of the shorter history approaches that of the longer one at a geometric rate (from the proof of C208); the optimal weights and the blend are uniformly continuous on windows within the bounds (Lemmas/BlendUniform, as in C207); example: one asset with any returns between 1 and 2 in absolute value, any number of rows left out. `C209_cm_later_start`

## 5. What the proofs revealed about the code

Each is a theorem (in brackets), not just an observation.

Library (`cvx/covariance`)
* `min_periods_cov` smaller than the number of assets makes `from_ewmas` raise `LinAlgError`: the first covariances are
  singular. [C69]
* With `mean=True` the first covariance is always `nan`. [C59] With clipping and a volatility that reaches zero (for
  instance `min_periods_vola <= 0`, `mean=True`) the volatility stays zero for ever. [C13]
* Rows not in increasing order of the index are partly sorted: with a table that starts with the newest row every result looks
  ahead. [C174]
* `nan_to_num=False`: one `nan` poisons the asset for the rest of the history. [C11]
* A missing return in the window aborts `solve` with `LinAlgError`; a missing label with `KeyError`; both before the first
  result, whatever the requested times. [C61, C70]
* `solve(times)` with too little history silently returns fewer results than requested. [C34] One degenerate window
  aborts all of them. [C37]
* The combination depends on the order of the assets. [C62]
* With `mean=True` a change of one percent in one return may change a volatility by any factor; with `mean=False` it changes
  volatilities by at most one percent. [C191]
* With `clip_at > 1` the first returns may influence the volatility for ever, however long the history. [C189]
* `solve` reads the returns at the first `next`, not at the call, and labels the weights with the keys the dictionary of
  covariances has at each `next`: taking an expert out and putting it back mislabels the weights. [C181]
* `regularize_covariance` jumps where the r-th and the next eigenvalue agree: with one factor for two assets a correlation of almost
  zero becomes more than one half or less than minus one half, depending on its sign. [C201]
* EM regularisation with a zero idiosyncratic variance divides by zero. [C46 hypotheses]

Experiments (`experiments/utils`)
* `rolling_window` counts the first return twice as long as it is in the window and keeps a multiple of it afterwards.
  [C49] `log_likelihood_sequential` returns `None`. [C73] A packed row with a single value is broadcast. [C54]
* `nonzero_means.ipynb:749`: `reshape(-1,6)` where a transpose is meant: the columns of `all_Vs` are not the traders they are named after
  (the frame is not used afterwards). [C185]
* `smoothing.ipynb:736-737`: the names `mean_days_between_updates` and `mean_updates_every` are swapped; the plot is right. [C186]
* `nonzero_means.ipynb:911` prints "Average quarterly returns" of yearly returns. [C184]
* `iterated_ewma_vec.iterated_ewma` raises `TypeError` on every call (it treats the generator `ewma` as an array); C182.
* `Trader`: `rhos` given to the constructor raises `AttributeError` [C85]; the default `cons` list is shared by all
  backtests of a session [C81]; `robust_min_risk` uses the volatilities of the first date for all dates [C82] and adds a
  standard deviation to a variance [C87]; `vol_cont` always raises `ValueError` and leaves the flag `diluted` set [C78];
  diluted weights are never refreshed [C77]; the excess metrics divide by the risk of the total, not the excess,
  returns [C79]; the risk-free rate is used by position, not by date [C79]; `max_sharpe` reads an attribute that does not
  exist [C123].
* `portfolio_backtests`: the constructor compares dates with the last predictor only [C107]; `EqWeighted` fails on a
  singular prediction although it does not use it [C107]; a date is dropped if the next row is incomplete [C106]; the row
  of `PRESCIENT` is printed under the name of the last trader, and a second table with another target prints the numbers
  of the first [C112].
* `ccp_regularize`: the fixed step of `_State2` can give negative variances. [C91]
* `low_rank_ewma`: `rank >= n` raises `TypeError` after the first row [C99]; the diagonal part is not in the operator of
  the eigenproblem, contrary to its comment [C98].
* `factor_model`: `memory < 10` wraps around to negative positions; a solver failure stops the run. [C101]
* `return_combination`: `ewm(halflife)` passes the half-life as `com` [C116]; `ewma_return_combination` on the output of
  `ewma_predictors` with the same returns always raises `ValueError` [C119].

Notebooks (`experiments`, `experiments/extensions`)
* `ewma_smoothing` drops the first date. [C136]
* generative mode: `min_periods >= 2` always raises `ValueError`. [C138]
* `PRESCIENT` is scored one row late: the first row of a quarter with the matrix of the quarter before. [C167]
* percent returns with `adjust_factor = 100` and `excess=True` (as the tables of large_universes do with the repository's
  own `get_metrics`): cash earns a hundredth of the risk-free rate, and the risk is not brought back to fractions. [C180]

## 6. Testing the theorems

`seeded/LOG.jsonl` records the wrong programs the theorems were tried on: one edit of a model definition each, in a
scratch copy, with the theorems that failed and the theorems that were tightened because of it. The edits not
caught concern a text no property is about (F01) or do not change what the program does (four).
