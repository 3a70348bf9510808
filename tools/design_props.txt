# 4.1 `cvx/covariance/ewma.py` (`Model/Arr`, `Model/Ewma`)
C01|`_general`, `_ewma_mean`, `_variance`, `volatility`, `center`|induction over the rows: the recursive update equals the explicit half-life weighted average of `Spec/Ewma` (closed form of the weights by the geometric sum)
C02|`iterated_ewma` as a generator|`_general` on a prefix is a prefix of `_general`; every later stage is row-local or another `_general`; the items up to a row are a function of the returns up to that row
C03|the row filters (`dropna`, the all-`nan` skip)|computes the index of the first row that survives each of the filters; the yielded labels are a sublist, and a suffix in the complete-data case
C04|empty frames at each of the nested `_general` calls|case analysis on which `y[0]` raises `IndexError`; characterises exactly when
C05|`scale_cov`|algebra in `XR`: `v_i m_ii v_i = 1`, so the diagonal is `vola^2` unless it is `nan`
C06|`scale_cov`, `_ewma_cov`|outer products are symmetric, the EWMA keeps it by induction
C07|same|EWMA of outer products is a non-negative combination, hence a quadratic form; Cauchy-Schwarz for correlations
C08|`iterated_ewma` on rescaled columns|simulation between the two runs, stage by stage: volatilities scale, adjusted returns are equal
C09|`iterated_ewma` on renamed columns|naturality in the index type: every stage commutes with a bijection (and with duplicated columns)
C10|`nan_to_num`|`fillna` first, so both runs are equal from there
C11|`nan_to_num=False`|induction: once an entry of the EWMA state is `nan` it stays `nan`
C12|clipped update|algebra of `np.clip` and the weights: the change of the variance per step is bounded by the clip times the old value
C13|clipped update with state 0|induction from the step at which the state is 0; converse by positivity
C14|clipped vs unclipped|induction, simulation while no clip is active
C15|`clip`|case analysis on `nan`, sign and truth value of the limit
C16|`center`|row-wise algebra, plus which rows survive
C17|`scale_mean` and the zero mean|unfolds the yielded record; the mean is the two-stage EWMA formula
C18|`mean=True` on shifted returns|the mean EWMA shifts, the centred returns are equal, the rest is a function of them
C19|`clip_at`, `mu_halflife1/2` truth values|case analysis on `truthy`
C20|`volatility`|a weighted average lies between the extremes
C21|weights of the EWMA|ratio of weights; half after one half-life (real powers of 2); limit by geometric decay
C57|all of `iterated_ewma`|one theorem: the generator equals the list described by `Spec/Iewma` (built from weighted averages, no recursion)
C58|`iterated_ewma` restricted to a subset of assets|naturality along an injection of the index type
C59|`mean=True`, first row|centred first row is 0, its outer product gives `0/0`
C60|relabelled index, rows in any order|every stage, the sorting included, commutes with a strictly monotone map of the labels
# 4.2 `cvx/covariance/combination.py` (`Model/LinAlg`, `Model/Combination`, `Model/FromEwmas`)
C22|`solve`, solver contract `Feasible`|every yielded result stems from one solver call; induction over the loop
C23|`_solve`|a convex combination of lower triangular factors with positive diagonals is one; `inv(L L^T)` is positive definite
C24|`_cholesky_precision`, `_solve`|uniqueness of the Cholesky factor: the factor of the inverse result is the blend of the experts' factors
C25|same|blending equal factors; the weights sum to one
C26|`_nu`, `_solve`|linear algebra: `inv(L^T) nu` solves the blended system
C27|`_A`, `P_chol`, `_objective`|the sum of logs and squares equals the log-likelihood of the window (`Spec/Combination`) up to a constant independent of the weights
C28|solver contract `Exact`|optimality over the simplex applied to mixtures and to its vertices
C29|same|strict concavity of the objective (positive definite `P`), hence one maximiser
C30|`solve` with a history-dependent solver|the parameters of a time are a function of the prefix; the trace up to a time is equal for inputs that agree up to it
C31|windows|the window parameters depend on the window's rows only
C32|`window` argument, `times=None`|list lemmas about `shift`, `zip`, `range(window-1, len)`
C33|`solve(times)`|the list of windows for a consecutive block is a sublist of all windows
C34|negative slice start|arithmetic of Python slices with negative bounds
C35|`times` checks|case analysis
C36|`SolverError` handler|induction over the loop: the other items do not change, for a solver without memory
C37|`cholesky(P)`|rank arguments: a singular `P` in any window raises before the first item
C38|constructor|exact conditions for success and for each exception
C39|permuted experts|naturality in the expert index, with a solver that commutes
C40|rescaled assets|diagonal scaling of Cholesky factors; the parameters of all solver calls coincide up to a constant
C41|`from_ewmas`|unfolds to `from_sigmas` on the dictionaries of `iterated_ewma`; which exceptions, and that real panels succeed
C61|`returns.loc`|a missing label raises `KeyError` before the first item
C62|permuted assets|equality for permutations that keep triangularity; a concrete counterexample in general
C69|`min_periods_cov < n`|rank of a sum of fewer than `n` outer products; converse characterisation
C70|`nan` in the returns|the sums of windows with a missing row are `nan`; the other windows are unaffected
# 4.3 `cvx/covariance/regularization.py` (`Model/Regularization`)
C42|`regularize_covariance`|spectral algebra from the `eigh` contract: diagonal entries add up to one
C43|same|the remainder's diagonal is non-negative because dropped eigenvalues are
C44|same|rank `n` leaves no remainder; rank-`r` inputs have zero remainder
C45|low-rank format|`F F^T + diag(d)` entrywise equals the dense form
C46|`_e_step`, `_m_step`, loop|Woodbury identity, positivity of `d` by Schur complements; any number of passes
C47|same|EM inequality: Gaussian KL divergence is non-negative (`log det` inequality)
C48|same|an exact factor model is a fixed point of the step
C63|`eigh` contract|spectral projector for the top eigenvalues is unique when there is a gap
C64|rescaled, sign-flipped, permuted inputs|correlation matrix is unchanged / conjugated by a signed permutation
C65|top eigenpairs|Eckart-Young for the Frobenius norm of symmetric positive semidefinite matrices, proved from the contract
C66|EM on rescaled input|the step commutes with diagonal scalings
C67|EM on rotated factors|the step commutes with orthogonal changes of the factors
C68|bad rank, bad variances|case analysis on the contract's preconditions
C92|fixed points of EM|first-order conditions; Jacobi's formula for the derivative of `log det`; strict increase off fixed points
C93|`em_low_rank_log_likelihood`|composition of the generators; the dictionaries have the same keys
# 4.4 `experiments/utils/experiment_utils.py`, `iterated_ewma_vec.py` (`Model/ExpUtils`, `Model/EwmaVec`)
C49|`rolling_window`|induction: closed form of the recursion, showing the first return counted twice
C50|`get_next_ewma`, `ewma`|induction: equal to the recursion of `ewma.py` from the second row on
C54|packed rows|bijection between upper-triangle positions and row entries; broadcasting of one value
C71|`add_to_diagonal`|entrywise; positive definiteness by a convex split; in-place effect on the caller's dictionary
C72|`turnover`|sums of absolute values
C73|log-likelihood functions|determinant and inverse of scaled matrices; equality with `Spec/ExpUtils` Gaussian density
C74|`log_likelihood_*`|lookup in the shifted frame: score of time `t` uses the next row's return
C75|realised covariance|bilinear algebra of `cov(ddof=0) * T`
C76|`MSE`, `ecdf`|Frobenius norm; sorting lemmas and counting
# 4.5 `experiments/utils/trading_model.py` (`Model/Trading`)
C51|`compute_max_drawdown`|loop invariant: running peak and running maximum of drawdowns
C52|`get_portfolio_growth`|induction: product formula
C53|`dilute_with_cash`, `get_vol_cont_w`|homogeneity of the quadratic form; weights add up to one
C56|`_get_L_inv`|triangular algebra: `|L^{-1} w|^2 = w^T Sigma w`
C77|the flag `diluted`|state transitions: a later backtest does not clear it
C78|shapes in `vol_cont`|numpy broadcasting and `hstack` shape rules; the flag is set before the exception
C79|`get_total_returns`, `get_metrics`|unfolds the loop to sums; counterexample for the excess metrics
C80|`get_risk_adj_returns`|homogeneity of the standard deviation
C81|mutable default `cons`|session model: list of constraints of all earlier calls; feasibility of an earlier variable is needed
C82|worker pool|induction over chunks: which parameter values each task sees; stale volatilities for `robust_min_risk`
C83|`max_diverse`|change of variables `z = w / (sigma^T w)`
C84|`risk_parity`|first-order condition of the convex objective; existence of equal contributions iff optimal; uniqueness by strict convexity
C85|`Trader.__init__`|case analysis of the checks
C86|`mean_variance` with `rhos`|maximum of a linear function over a box
C87|`robust_min_risk`|maximum over a box of covariance perturbations; counterexample
C94|`additonal_cons`|positive and negative parts: what the limits imply; feasibility criterion
# 4.6 `experiments/utils/ccp_regularize.py` (`Model/Ccp`)
C55|`__init__`, `build`|Woodbury; Cholesky up to rotation
C88|`objective`|Schur complement determinant
C89|`iterate`, exact solver|majorisation: concave part is linearised; strictness; exact models stand still
C90|`_grad_e`, `_grad_G`|derivative of `log det` along lines
C91|`_State2`|fixed points are stationary points; concrete counterexample with a negative variance
# 4.7 `experiments/utils/low_rank_ewma.py` (`Model/LowRankEwma`)
C95|`low_rank_iterated_ewma`|diagonal of the update is exact; simulation with `iterated_ewma`
C96|same|the dropped part is positive semidefinite
C97|same|no truncation while the rank suffices
C98|`_low_rank_sum`|Eckart-Young for each update
C99|`eigsh` preconditions, `nan`|case analysis
C100|same|prefix property as in C02
# 4.8 `experiments/utils/factor_model.py` (`Model/FactorModel`)
C101|`construct_cmiewma_factor_model`|`range(memory, T, step)` blocks tile the dates after the first `memory` rows, given the items of the combination; the first failing block decides the exception
C102|items|pandas `ewm` = half-life average; covariance is symmetric positive (semi)definite
C103|same|the item of a date depends on returns up to it
C104|`factor_log_likelihood`|shifted lookup, as C74
C105|PCA contract|orthonormal rows of the exposure
# 4.9 `experiments/utils/portfolio_backtests.py` (`Model/Backtests`)
C106|`_get_causal`, `Backtest.run`|list lemmas: rows of `shift(-1).dropna()`
C107|constructor and run|exact success conditions
C108|`EqWeighted`|the mean of the returns
C109|the strategies|C56, C83, C84, C86 applied to each date
C110|same|results of a date depend on that date's data
C111|the dictionary of traders|last predictor with a name wins; each is what it would be alone
C112|`_create_table_helper`, `create_table`|unfolds; counterexample for a second target
# 4.10 `experiments/utils/return_combination.py` (`Model/ReturnCombination`)
C113|`_get_weights` (ridge)|completing the square in the weighted inner product
C114|`ReturnCombinator.fit`|loop over dates and assets; success conditions
C115|same|prefix property
C116|`_get_scales`|`ewm(com)` instead of `halflife`: weights of the decayed average
C117|`feature_engineer`|case analysis on signs; inverse map
C118|predictors|shifts and `ewm` lookups
C119|lasso|subgradient conditions from convexity; existence by coercivity; uniqueness of the fit; alignment of indices
C120|`tune_alpha`|entries are those of separate calls; Cauchy-Schwarz for correlations
C121|`construct_rho`|pandas' `ewm().std()` loop = debiased weighted variance
C122|the tasks and the parameter updates of `solve_mean_variance`, `solve_risk_parity`; `runPool` over any chunking|induction over a chunk with an invariant of the parameter store
C123|`Trader.backtest` as a state change with exceptions, for every portfolio type; sequences of calls|case analysis on the type; induction over the sequence
C124|the vectorised `_regularize_correlation`, `_refactor_to_corr`, `_get_realized_covs/_vars` and the Engle formula|both are the low-rank plus diagonal form of an orthonormal top eigenbasis; unique under an eigenvalue gap
C125|`realized_ewma` (`realized_covariance`, then the generator `ewma`)|C75 and C50; realised covariances are Gram matrices
C126|`yearly_SR(plot=False)`: groups, filter, yearly bins|filter by year commutes with the filter by size; bins are the interval between extreme years
C127|nothing new: the objective of `_CombinationProblem`|tangent inequality (log x <= x - 1) in one direction, first-order condition along simplex edges in the other
C128|solvers with tolerance `d`|strong concavity from C127; coordinates bounded by the inverse Gram matrix; continuity of the blend
C129|`from_ewmas(...).solve(...)` with labelled weights|C02 for each expert, panels agree on the common positions, then C30_prefix and C70
C130|`from_ewmas(...).solve(...)`|C08 for each expert, then C40 and C70; converse by the inverse factors
C131|`from_ewmas(...).solve(...)`, the dictionary of labels|experts are last pairs (C41); equal labels give a bijection of positions, then C39
C132|`from_ewmas(...).solve(...)` with labelled weights|C41 gives the panel of the experts, then C28 (optimality), C32 (schedule), C37, C70
C133|`solve` with Python's integer indexing (`Model/SolveCall`)|refinement: equal to `Model/Combination` for natural windows; an index out of range for negative ones
C134|`truncate` of an index in any order (`Model/SolveCall`)|every window needs `truncate`; the requested times are a sublist of the index
C135|`L1_smoothing`, `get_next`, with an exact solver of the one-dimensional problem as a parameter (`Model/Smoothing`)|closed form of the minimiser on the line; triangle inequality and strong convexity for all matrices; induction over the dates
C136|`ewma_smoothing` on top of the model of `ewma` (`Model/EwmaVec`)|induction as for C125; averages of semidefinite matrices
C137|`frob_difference`|induction; Frobenius norm
C138|`_ewma_cov` and `_general` of the notebook, the sampler as a parameter (`Model/Generative`)|invariant of the loop: the state is the average of the extended sequence
C139|`run_sampling_experiment`, fit and sampler as parameters|induction over the samples
C140|the cell `prescient` of the notebooks, year and month of a time stamp as a parameter (`Model/Prescient`)|sample moments as sums over lists; integer arithmetic for the quarters
C141|the same|`log det` inequality for pairs of positive definite matrices, traces
C142|the cell with means of `nonzero_means.ipynb`|the same, completing the square in the mean
C143|`save_cov_to_csv`, `from_upper_triangular_to_full`, `from_csv_to_cov`; the directory as a map from names to tables (`Model/LargeUniverses`)|the triangle's length determines its size; positions as in C54; induction on the list of saves
C144|`get_choleskys`|existence and uniqueness of the Cholesky factor
C145|`tune_returns` (two of its forms), pandas' `quantile` and `clip` (`Model/Tune`)|order statistics of the sorted row; counting
C146|the same|uniqueness and monotonicity of the quantile
C147|`tune_returns2`|the same
C148|`get_moving_autocorrelations`, pandas' `ewm` with missing values (`Model/Signals`)|Cauchy-Schwarz; averages over the present entries from the recursion (`Lemmas/Signals`)
C149|`get_sign_prediction`, `np.argsort` as a parameter (`Model/Signals`)|counting: two sets of ten positions
C150|the CM-IEWMA cell as a function of returns, pairs, minimum numbers of rows, lamda and window (`Model/CmIewma`)|results of every expert as in C41 (all rows from the warm-up on), `solve` on the panel of experts (C22-C34)
C151|as C150|an expert's covariance depends on its rows only (C10); the problem of a window on the rows of the window
C152|`fit_cm_iewma` (`Model/CmIewma`) as the fit of `run_sampling_experiment` (`Model/Generative`)|last entry of C150, C139, and C151 between the tables of two turns
C153|as C150|C08 for every expert, C40 for the combination
C154|pandas' `ewm(halflife, min_periods).cov()` on tables without `nan` (the recursion of `ewmcov`), `dropna`, the expert dictionaries of README.md:121-124 (`Model/Readme`)|invariant of the recursion (both means, covariance, weights); the quadratic form as a variance (C121); dimension count
C155|the second README example as a function of returns, half-lives, min_periods and window (`Model/Readme`)|C154 for the experts, `solve` on the panel of experts (C22-C34, C38)
C156|as C155|C154 for the experts, C40 for the combination
C157|`pct_change` (with pandas 2.2.3's forward fill), `dropna(how="all")` and the selection of columns of demo.py:35 on numbers and `nan` (`Model/MarimoDemo`)|induction over the rows, with the last known price as invariant; product of the returns by induction over days
C158|demo.py:35-53 as a function of prices and all arguments (`Model/MarimoDemo`, `Model/FromEwmas`)|C157 for the returns; C41, C70, C24-C34 and C129 for `from_ewmas` and `solve`
C159|the objectives and constraints of `trading_model.py` (`Model/Trading`)|the risk grows without bound (compact sphere), so sublevel sets are compact; strict convexity by the mid-point and Cauchy-Schwarz; `risk_parity` by least risk at geometric mean one
C160|`Backtest.run` with a solver that solves every solvable problem (`Model/Backtests`)|C107 and C159
C161|two runs|uniqueness (C159) and the change of the problems under a positive factor
C162|two runs|uniqueness (C159) and the change of the problems under a permutation
C163|the notebook cells from predictors to table (`Model/Experiment`)|the backtest (C106, C107), the dilution (C53), the metrics (C79) and the table (C112) put together
C164|the notebook cells from returns to a trader (`Model/Pipeline`)|C150, C151 and C106-C110, C160 put together
C165|two runs of `Model/Pipeline`|C153, uniqueness (C159) and the dilution (C53)
C166|the cells with log-likelihoods, regrets, quarterly means and table of regrets (`Model/Regrets`; rounding not)|C73 row by row; sums over the dates of a quarter
C167|the same with the prescient predictor (`Model/Prescient`)|C140, C141 and C166; the returns 1, -1, M, -M
C168|the cells with daily returns and CM-REWMA of realized_covariance.ipynb (`Model/CmRewma`)|C125; `from_sigmas` on experts that are any function of the rows (`Lemmas/SigmaRun`)
C169|the same|products and sums over lists; both sides in closed form
C170|the cells of nonzero_means.ipynb with means (`Model/CmMean`)|closed form of the iterated EWMA with means (C18); run of `solve` on the panel of the experts (C22 ff.), `Lemmas/MeanRun`
C171|the same|invariance of scores and window problems; blends commute with shifts and units
C172|the cells of industry_portfolios.ipynb with forecasts and rhos (`Model/RhoBands`)|closed form of the averages; least and greatest of a list; C86 for the objective
C173|the cells with yearly weights and effective half-lives (`Model/YearlyWeights`)|C22 for the entries; averages of points of the simplex; sums over dates and experts exchanged
C174|`iterated_ewma` with the alignment of pandas for any order of the rows (`Model/EwmaOrder`)|equal to `Model/Ewma` for increasing labels; closed form with the order in which the rows enter (`Spec/EwmaOrder`); decreasing labels: reversed rows, and a changed first square changes every weighted average
C175|`_ewma_cov`, `volatility` on a random table (`Model/Ewma`; Mathlib's probability: `Measure`, integrals, `variance`, `covariance`)|integrals of finite sums; variance ≥ 0 for the root; closed form of the effective number of observations (`Spec/Random`)
C176|`log_likelihood`, `MSE` (`Model/ExpUtils`) of a random return (`Spec/RandomScores`)|expected quadratic form = trace; log det (A M) ≤ tr (A M) - n with equality only for A = M⁻¹; decomposition of the second moments about another point
C177|the backtests of `portfolio_backtests.py` and `dilute_with_cash` (`Model/Backtests`, `Model/Trading`) with a random next row|variance of a linear combination; C109, C53
C178|the same on random tables with finitely many outcomes (`Spec/Unpredictable`)|sums over classes of histories that agree up to a row; C110 makes the weights constant on a class; C109, C53
C179|the cells that read the MGARCH predictors (`Model/Mgarch`) with `from_row_matrix_to_covariance`|C54; the comprehension by positions; first failing position for `IndexError`
C180|`dilute_with_cash`, `get_total_returns`, `get_metrics` (`Model/Trading`) in other units (`Spec/Units`)|simulation of the loop over the rows in both units, exceptions included; C53, C79 for the exact gap with `excess=True`
C181|`solve` and `iterated_ewma` as generators advanced by `next`, with references to the caller's data (`Model/Sessions`)|one step of a paused generator against the exhausted one (`Trace`), then induction over the list of operations; `Spec/Sessions` says what the k-th `next` does
C182|`iterated_ewma_vec.iterated_ewma` up to its first use of `ewma` (`Model/IteratedVec`), with values that carry their run-time type (array or generator) and the remaining lines as an arbitrary continuation|case analysis on `mean` and on whether the array has an entry; the array version by computation
C183|`MSE`, `resample("Q").mean()` and the printed statistics (`Model/ExpUtils`, `Model/Regrets`, `Model/MseTable`); the predictor is given on an increasing choice of rows of the table|the quarterly means as a list over the quarters (`quarterlyMean_rows`), sums and maximum over that list as sums over the set of quarters; units and order through the quarterly errors; the loop by induction over the predictors
C184|`resample('Y').apply(lambda x: (x + 1).prod() - 1)` on a table with missing entries (`Model/Compound`)|the list products as products over the rows of a year, then over all rows by fibres of `year`; Weierstrass' inequality by induction, `exp` termwise
C185|`np.array(histories).reshape(-1,6)` as rows of a flat list (`Model/GrowthTable`)|the flattened histories as a list over `range (6 T)` with quotient and remainder, by induction over the traders
C186|the means of the lists `updates`, their reciprocals and the normalised regrets (`Model/SmoothingRates`) on top of `Model/Smoothing`|from the characterisation of the smoothed sequence (C135); stability through the projection on a ball, which is firmly nonexpansive in an inner product space
C187|`Model/Ewma` over numbers with rounding errors and overflow (`Num/Rounded`: every operation has relative error u and absolute error η)|error of one update, contraction of the recursion (errors are damped by about 2^(-1/h) per row), sensitivity of the average to the decay; induction over the rows; the arithmetic of p bits as instance
C188|`Model/Ewma` over numbers with rounding errors and overflow (`Num/Rounded`), next to the same model over `XR`|a calculus of numbers that differ by a multiple of the unit roundoff, through every stage of `iterated_ewma` (C187 for the averages); the exact values are those of C57
C189|`Model/Ewma` (`volatility`)|the recursion of the variance is monotone, homogeneous and a contraction without clipping; (d) by a history that pushes the variance up when it is below one and down otherwise, in units of the variance
C190|`Model/Combination` (`solve`) for a panel and a subset of its experts|padding weights with zeros commutes with the blend; principal submatrices of positive definite matrices; uniqueness (C29) and the certificate (C127)
C191|`Model/Ewma` (`iterated_ewma`) on two tables|factors pass through the recursion of the variance (monotone and homogeneous), division and clamping; Cauchy-Schwarz for the cross moments; the negative part on two explicit rows
C192|`Model/Combination` (`fromSigmas`, `solve`) for data near a given panel|Cholesky factors are bounded and unique, hence continuous; the maximiser of a continuous function on the compact simplex is continuous where it is unique; nonsymmetric matrices amount to the symmetric ones of their inverse's lower triangle; one tolerance for the finitely many positions
C193|`Model/FromEwmas`: the experts of `from_ewmas` by `Model/Ewma` over numbers with rounding (`Num/Rounded`), combined by `Model/Combination`; the combination stage is exact|C188 for every expert (the constants are minima over finitely many rows and assets), then C192 for the panel of rounded experts
C194|`Model/Ewma.iteratedEwma`, `Model/FromEwmas` and `solve` on two nearby tables (`Spec/ReturnsContinuity`)|every closed form of C57 is continuous where the volatilities are positive, and the set of rows in use is locally constant (`Lemmas/IewmaContinuity`); positive definite covariances stay so; then C192 for the panel of experts, C70 for the missing entries; (c) returns 0, 1
C195|`Model/Combination.solve` on two panels with the same covariances (`Spec/Influence`)|the first-order conditions of both optima (C127) added up; the logarithms contribute with the right sign because they are concave; `coord_le` turns the quadratic form into a bound on the weights; one changed return changes one term of the Gram sum
C196|`Model/Combination.solve` on fixed experts and random returns (`Spec/Consistency`; Mathlib's probability)|for fixed experts the window log-likelihood is a function of the average Gram matrix (C27); its optimum moves by at most a multiple of the change of that matrix (strong concavity); strong law of large numbers for each entry; properness (C176) identifies the limit
C197|two runs of the backtests of `portfolio_backtests.py` (`Model/Backtests`)|day by day optimality (C109); first-order condition of MinRisk along segments of the convex set of limits, for RiskParity the equal contributions; added up they bound the quadratic form of the difference; `sum_sqrt_bound`
C198|as C196, with `Solver.Near` (Props/Certificate), the contract of a solver that stops early|weights within `delta` of the best for a Gram matrix within `eta` of the expected one are within `4 (delta + eta) (G^-1)_kk` (squared) of the best weights (strong concavity); blends depend continuously on the weights; strong law
C199|as C196, windows of any length|Chebyshev's inequality for each entry of the average Gram matrix (variances of sums of pairwise independent terms), union bound, then as C196/C198
C200|`regularize_covariance` on dense results|the dropped part E of the correlation matrix satisfies 0 ≤ E ≤ c: a combination of the last r+1 eigenvectors lies in the kernel of B; entries of E by polarisation; trace bound for n/(r+1)
C201|`regularize_covariance` on dense results|the leading projections P, P' satisfy (g/2)|P - P'|² ≤ tr(M - M')(P - P') (diagonal entries of P' in the eigenbasis of M lie in [0, 1] and add up to r), then Cauchy–Schwarz; the result is MP off the diagonal; two assets: explicit eigenvectors and uniqueness of the leading part
C202|`em_regularize_covariance`, calls repeated any number of times|limits of the closed form of a pass; the likelihood is bounded by that of Sigma itself, and models of a given likelihood are bounded (eigenvalues); limit points as in Wu's convergence theorem for EM, from C92; compactness for (d)
C203|the way from the returns to a portfolio (`cmPortfolio`: CM-IEWMA, the cut, the backtest)|the experts' covariances are limits of continuous closed forms (positive volatilities); nearby panels complete with nearby blends (C192); the portfolios of MinRisk and RiskParity by the bounds of C197, that of MaxDiverse by compactness and uniqueness; then day by day
C204|`iterated_ewma` for every table and all arguments; the online method is `Spec/Online`|the kept numbers are the averages of the closed form of C57 up to the row (induction over the rows, one-step recursions of half-life averages and of the winsorised variance); results row by row; tables (1,1),(1,1) and (√3,√3),(0,0) followed by (1,-1)
C205|the CM-IEWMA cell (`Model/CmIewma`) with exact solvers; the online method of the whole pipeline is `Spec/OnlineMethod`|the experts run as in C204; the rows kept are the last `window` rows from the first on that experts had predicted (induction over the rows); the weights of a run maximise the log-likelihood of the kept rows (C150) and the maximiser is unique (C30), so they are those of the online method; two histories with the same kept numbers: induction over the later rows; runs on (1,-2,1,…) and (-1,-2,1,…)
C206|`iterated_ewma` with all arguments on tables of real returns of any length|closed form of C57 for both histories; a half-life average of two sequences whose distance at row k is at most A r^(k-s), r above the decay factor, differs at row t by at most A r^(t-s)/(1-b/r) (geometric series); the bound goes through centring, squares, roots, quotients, products and averages with explicit constants; (b) from the two histories of C189; returns of ±1/100, and 100 rows with clip_at 4.2
C207|the iterated EWMA experts, their panel, the optimal weights and the blend of the CM-IEWMA run; the bounds in Spec/CmForgetting.lean|C207_forgets: each expert forgets at a geometric rate (from the proof of C206); the data of a window within the bounds form a compact set on which the optimal weights and the blend are continuous (Lemmas/Continuity), so the change of the blend is uniformly small by a subsequence argument; example: one asset with any returns between 1 and 2 in absolute value
C208|`iterated_ewma` without clipping on a table of real returns and on the table of its rows from row k on|C208_later_start: closed form of C57 for both histories; a half-life average of bounded values which starts k rows later differs at row t by a multiple of the mass of the rows left out, at most r^t, plus the half-life average of the differences of the values (geometric series); through centring, squares, roots, quotients, products and averages with explicit constants as in C206; example: returns of one percent up or down, any number of rows left out
C209|the CM-IEWMA run (`Model/CmIewma`) with exact solvers on a table and on the table of its rows from row k on; the bounds in Spec/CmForgetting.lean|C209_cm_later_start: each expert of the shorter history approaches that of the longer one at a geometric rate (from the proof of C208); the optimal weights and the blend are uniformly continuous on windows within the bounds (Lemmas/BlendUniform, as in C207); example: one asset with any returns between 1 and 2 in absolute value, any number of rows left out
