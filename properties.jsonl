{"id": "C01", "title": "EWMA is the bias-corrected half-life weighted average", "statement": "For finite data and a positive half-life h, the EWMA mean returned by center(..., mean_adj=True) at row t is sum_{k<=t} 2^(-(t-k)/h) x_k divided by sum_{k<=t} 2^(-(t-k)/h), per asset; and volatility() without clipping squares to the same weighted average of x_k^2.", "quantifier": "every frame of finite returns of every length and width, every positive half-life, every row and asset", "why_tests_cant": "the recursion must equal the closed form after any number of updates; tests sample one data file", "anchors": ["cvx/covariance/ewma.py:_general", "cvx/covariance/ewma.py:_ewma_mean", "cvx/covariance/ewma.py:center", "cvx/covariance/ewma.py:volatility"]}
{"id": "C02", "title": "iterated_ewma never looks ahead", "statement": "Appending rows to the returns frame never changes what iterated_ewma yields for the earlier rows: the results of a truncated frame are a prefix of the results of the full frame.", "quantifier": "every frame (finite or NaN entries), every truncation point, every parameter setting; rows in increasing order of the index (other orders: C174)", "why_tests_cant": "look-ahead is a statement about all continuations of a history", "anchors": ["cvx/covariance/ewma.py:iterated_ewma"]}
{"id": "C03", "title": "iterated_ewma: which rows get a result", "statement": "The yielded times are always a sublist of the index. For finite returns (or nan_to_num=True) they are exactly the rows from min_periods_vola-1 on that are informative, minus the first min_periods_cov-1 of those: some asset has a nonzero (centred) return in that row, or a nonzero volatility, which means a nonzero return in some row so far - with clip_at only one within the first min_periods_vola+1 rows counts for the volatility. No informative row: IndexError. If every row has a nonzero return and mean=False, the first result is for row (min_periods_vola-1)+ + (min_periods_cov-1)+ and every later row has one.", "quantifier": "every frame, all min_periods (including 0 and negative), every clip_at; rows in increasing order of the index (other orders: C174)", "why_tests_cant": "boundary (off-by-one) behaviour for all min_periods/length combinations", "anchors": ["cvx/covariance/ewma.py:iterated_ewma", "cvx/covariance/ewma.py:_general", "cvx/covariance/ewma.py:clip"]}
{"id": "C04", "title": "iterated_ewma: too little data", "statement": "If the frame has fewer than min_periods_vola rows, iterated_ewma raises IndexError instead of yielding nothing; a half-life of 0 always raises an exception, TypeError or IndexError; otherwise IndexError (no row enters the covariance estimation) is the only exception (no KeyError from label lookups).", "quantifier": "every frame and every parameter setting; rows in increasing order of the index (other orders: C174)", "why_tests_cant": "absence of an exception on all inputs", "anchors": ["cvx/covariance/ewma.py:iterated_ewma", "cvx/covariance/ewma.py:_general"]}
{"id": "C05", "title": "Covariance diagonal is the squared volatility", "statement": "In every result each volatility is a non-negative number, and the diagonal entry of the covariance is exactly its square or else the asset's whole row and column are NaN; an entry is NaN only if one of its two assets is. With mean=False an asset is NaN exactly if its returns vanish in all rows from min_periods_vola-1 up to the result's.", "quantifier": "every frame of finite returns or with nan_to_num=True, every parameter setting, every yielded result; rows in increasing order of the index (other orders: C174)", "why_tests_cant": "holds for all data in exact arithmetic; tests look at one final matrix", "anchors": ["cvx/covariance/ewma.py:iterated_ewma.scale_cov"]}
{"id": "C06", "title": "Covariances are symmetric", "statement": "Every yielded covariance matrix is symmetric (NaN entries in symmetric positions).", "quantifier": "every frame including NaN/inf entries, every parameter setting, every result; rows in increasing order of the index (other orders: C174)", "why_tests_cant": "for all inputs", "anchors": ["cvx/covariance/ewma.py:iterated_ewma", "cvx/covariance/ewma.py:_ewma_cov"]}
{"id": "C07", "title": "Covariances are positive semidefinite with correlations in [-1,1]", "statement": "Restricted to the assets that are not NaN, every yielded covariance is positive semidefinite, and |cov_ij| <= volatility_i * volatility_j.", "quantifier": "every frame of finite returns or nan_to_num=True, all parameters, every result; rows in increasing order of the index (other orders: C174)", "why_tests_cant": "PSD-ness for all histories", "anchors": ["cvx/covariance/ewma.py:iterated_ewma", "cvx/covariance/ewma.py:_ewma_cov"]}
{"id": "C08", "title": "Per-asset scale equivariance", "statement": "Multiplying the returns of each asset i by a non-zero constant c_i multiplies cov_ij by c_i*c_j, volatility_i by |c_i| and mean_i by c_i, and changes no time stamp.", "quantifier": "every frame including NaN/inf entries, every non-zero scale vector, every parameter setting; rows in increasing order of the index (other orders: C174)", "why_tests_cant": "metamorphic relation over all inputs", "anchors": ["cvx/covariance/ewma.py:iterated_ewma"]}
{"id": "C09", "title": "Asset order does not matter to iterated_ewma", "statement": "Permuting the columns of the returns permutes the rows and columns of each covariance, the volatility and the mean accordingly and changes nothing else.", "quantifier": "every frame, every permutation, every parameter setting; rows in increasing order of the index (other orders: C174)", "why_tests_cant": "metamorphic relation over all inputs", "anchors": ["cvx/covariance/ewma.py:iterated_ewma"]}
{"id": "C10", "title": "NaN returns are treated as zero returns", "statement": "With nan_to_num=True the results equal those for the frame in which every NaN was replaced by 0.0 beforehand (whatever nan_to_num is then).", "quantifier": "every frame, every parameter setting; rows in increasing order of the index (other orders: C174)", "why_tests_cant": "for all NaN patterns", "anchors": ["cvx/covariance/ewma.py:iterated_ewma"]}
{"id": "C11", "title": "nan_to_num=False: one NaN poisons the asset forever", "statement": "With nan_to_num=False, once an asset has a NaN return its volatility and its whole row and column of the covariance (and with mean=True its mean) are NaN in the result of that row and every later one.", "quantifier": "every frame, every NaN position, every later row; rows in increasing order of the index (other orders: C174)", "why_tests_cant": "for all continuations of the history", "anchors": ["cvx/covariance/ewma.py:iterated_ewma", "cvx/covariance/ewma.py:_general"]}
{"id": "C12", "title": "Winsorised volatility update has bounded influence", "statement": "With clip_at=c, after warm-up a single new return, however large, raises the asset's squared volatility by at most the factor 1 + a_t*(c^2-1)^+ where a_t=(1-b)/(1-b^(t+1)), b=2^(-1/h); and it never exceeds what the unclipped update gives for c>=1.", "quantifier": "every frame of finite returns, every c other than 0, half-life and row past the warm-up", "why_tests_cant": "the bound is over all possible new returns", "anchors": ["cvx/covariance/ewma.py:_general", "cvx/covariance/ewma.py:volatility"]}
{"id": "C13", "title": "Winsorised volatility can get stuck at zero", "statement": "With clip_at set, an asset whose (filled) returns are all zero through row min_periods_vola keeps volatility exactly 0 in every later row whatever its returns are.", "quantifier": "every continuation of the history", "why_tests_cant": "for all continuations; it is a trap for newly listed assets that tests do not exercise", "anchors": ["cvx/covariance/ewma.py:_general", "cvx/covariance/ewma.py:volatility"]}
{"id": "C14", "title": "Inactive winsorisation changes nothing", "statement": "If no squared return past the warm-up exceeds clip_at^2 times the previous squared volatility then volatility(..., clip_at) equals volatility(..., None).", "quantifier": "every frame of finite returns, every clip_at, half-life", "why_tests_cant": "for all data", "anchors": ["cvx/covariance/ewma.py:_general", "cvx/covariance/ewma.py:volatility"]}
{"id": "C15", "title": "clip() bounds entries, keeps NaN and drops only empty rows", "statement": "clip(data, c) leaves every entry in [-|c|,|c|] or NaN, leaves entries already inside unchanged, drops exactly the rows that are entirely NaN, and is idempotent; with c None or 0 entries are unchanged.", "quantifier": "every frame incl. NaN/inf, every finite c or None", "why_tests_cant": "for all inputs", "anchors": ["cvx/covariance/ewma.py:clip"]}
{"id": "C16", "title": "center() decomposes the returns", "statement": "With mean_adj=True on finite data, centred + mean equals the returns in every row, no row but the first min_periods-1 is dropped, and row 0 of the centred returns (if kept) is zero; with mean_adj=False the returns come back unchanged with zero mean.", "quantifier": "every frame of finite returns, every half-life, width >= 1", "why_tests_cant": "for all inputs", "anchors": ["cvx/covariance/ewma.py:center"]}
{"id": "C17", "title": "Reported mean", "statement": "With mean=False every yielded mean is zero; with mean=True it is the EWMA mean of the returns plus volatility times the EWMA mean of the clipped volatility-adjusted returns at that time.", "quantifier": "every frame, every parameter setting, every result; rows in increasing order of the index (other orders: C174)", "why_tests_cant": "for all inputs", "anchors": ["cvx/covariance/ewma.py:iterated_ewma.scale_mean"]}
{"id": "C18", "title": "Mean-adjusted estimate is shift invariant", "statement": "With mean=True, adding a constant vector to all returns changes neither the yielded times, nor volatility, nor covariance, and shifts the mean by that vector.", "quantifier": "every frame of finite returns, every constant vector, every parameter setting; rows in increasing order of the index (other orders: C174)", "why_tests_cant": "metamorphic relation over all inputs", "anchors": ["cvx/covariance/ewma.py:iterated_ewma", "cvx/covariance/ewma.py:center"]}
{"id": "C19", "title": "Zero and None mean the same for optional parameters", "statement": "clip_at=0 behaves as clip_at=None, and mu_halflife1/2 = 0 or None behave as vola_halflife/cov_halflife.", "quantifier": "every frame and all other parameters; rows in increasing order of the index (other orders: C174)", "why_tests_cant": "for all inputs", "anchors": ["cvx/covariance/ewma.py:iterated_ewma", "cvx/covariance/ewma.py:volatility", "cvx/covariance/ewma.py:clip"]}
{"id": "C20", "title": "Volatility is within the range of past absolute returns", "statement": "Without clipping, volatility at row t lies between the smallest and the largest |return| of the asset seen up to t, and is strictly positive once any return was non-zero.", "quantifier": "every frame of finite returns, all half-lives, rows and assets", "why_tests_cant": "for all data", "anchors": ["cvx/covariance/ewma.py:volatility"]}
{"id": "C21", "title": "Half-life meaning and forgetting", "statement": "The weight given to an observation relative to one made h rows later is exactly one half for integer half-life h, and the influence of the first row on the EWMA at row t is 2^(-t/h)/sum_k 2^(-k/h) and tends to 0 as t grows.", "quantifier": "every half-life and row", "why_tests_cant": "for all histories", "anchors": ["cvx/covariance/ewma.py:_general"]}
{"id": "C22", "title": "Weights lie on the simplex", "statement": "If the solver meets its contract, every result of solve() has weights >= 0 summing to 1, one per expert in the order the experts were given.", "quantifier": "every set of experts, returns, window, times", "why_tests_cant": "for all problem data", "anchors": ["cvx/covariance/combination.py:_CombinationProblem", "cvx/covariance/combination.py:_CovarianceCombination.solve"]}
{"id": "C23", "title": "Combined covariance is symmetric positive definite", "statement": "For any simplex weights the combined covariance is well defined (no LinAlgError), symmetric and positive definite. With a solver whose weights are on the simplex, a LinAlgError of solve is raised before the solver is called, so it does not depend on the weights.", "quantifier": "all positive definite expert covariances, all weights on the simplex, all sizes", "why_tests_cant": "for all data", "anchors": ["cvx/covariance/combination.py:_CovarianceCombination._solve"]}
{"id": "C24", "title": "Experts are blended in Cholesky factors of the precision", "statement": "The Cholesky factor of the inverse of the result covariance is exactly the weighted sum of the Cholesky factors of the inverses of the expert covariances at result.time.", "quantifier": "all expert matrices, all weights", "why_tests_cant": "uniqueness of the factor for all data", "anchors": ["cvx/covariance/combination.py:_cholesky_precision", "cvx/covariance/combination.py:_CovarianceCombination._solve"]}
{"id": "C25", "title": "Agreeing experts are reproduced", "statement": "If all experts predict the same covariance (and mean) at time t then the result at t is that covariance (and mean) whatever the weights; in particular one expert is returned unchanged.", "quantifier": "all matrices, means and weights", "why_tests_cant": "for all data", "anchors": ["cvx/covariance/combination.py:_CovarianceCombination._solve"]}
{"id": "C26", "title": "Result mean", "statement": "Without means the result mean is zero; with means it solves L^T m = sum_k w_k L_k^T mu_k, and lies at mu when all expert means equal mu and covariances agree.", "quantifier": "all data", "why_tests_cant": "for all data", "anchors": ["cvx/covariance/combination.py:_nu", "cvx/covariance/combination.py:_CovarianceCombination._solve"]}
{"id": "C27", "title": "The optimisation objective is the window log-likelihood", "statement": "For any weights with positive combined diagonals the maximised objective equals, up to the constant window*n/2*log(2*pi), the Gaussian log-likelihood of the last `window` returns under the combined one-step-ahead predictions made the row before each of them.", "quantifier": "all data, windows, weights", "why_tests_cant": "identity over all data", "anchors": ["cvx/covariance/combination.py:_CombinationProblem._objective", "cvx/covariance/combination.py:_A", "cvx/covariance/combination.py:_B_t_col"]}
{"id": "C28", "title": "The blend is at least as good as every expert", "statement": "With an exact solver the window log-likelihood of the combined predictor is >= that of each single expert and of any other fixed mixture.", "quantifier": "all data, every expert", "why_tests_cant": "for all data", "anchors": ["cvx/covariance/combination.py:_CovarianceCombination.solve"]}
{"id": "C29", "title": "Weights are uniquely determined", "statement": "The combination problem that is solved has at most one optimal weight vector, so an exact solver's answer at a time does not depend on warm starts, previous solves or the solver.", "quantifier": "all data for which solve() gets to the solver, all solver histories", "why_tests_cant": "for all histories of parameter updates", "anchors": ["cvx/covariance/combination.py:_CombinationProblem", "cvx/covariance/combination.py:_CovarianceCombination.solve"]}
{"id": "C30", "title": "solve() never looks ahead", "statement": "If two data sets agree up to time t and both calls of solve(window) reach t, they yield the same item at t. (Later data can prevent a call from reaching t only by a singular window Gram matrix, which raises before the first item, see C37.)", "quantifier": "all data, all windows, all later data", "why_tests_cant": "for all continuations", "anchors": ["cvx/covariance/combination.py:_CovarianceCombination.solve"]}
{"id": "C31", "title": "solve() only uses the window", "statement": "The weights at time t depend only on the last `window` returns up to t and the expert predictions made in the rows just before each of them.", "quantifier": "all pairs of data sets agreeing on the window", "why_tests_cant": "for all pairs of inputs", "anchors": ["cvx/covariance/combination.py:_CovarianceCombination.solve"]}
{"id": "C32", "title": "solve(window): schedule of results", "statement": "If no window is degenerate (else LinAlgError, C37) and the solver raises nothing but SolverError, solve(window) yields exactly one item per expert time from the (window+1)-th expert time on, in index order; window None, 0 or larger than the history yields exactly one item, for the last time.", "quantifier": "all histories and windows", "why_tests_cant": "off-by-one for all lengths", "anchors": ["cvx/covariance/combination.py:_CovarianceCombination.solve"]}
{"id": "C33", "title": "solve(times) agrees with solve()", "statement": "If no window is degenerate and the solver finds the optima: for consecutive times preceded by at least window-1 available times, solve(window, times) yields exactly the results solve(window) yields at those times.", "quantifier": "all histories, windows and consecutive time ranges", "why_tests_cant": "for all ranges", "anchors": ["cvx/covariance/combination.py:_CovarianceCombination.solve"]}
{"id": "C34", "title": "solve(times) with too little history silently drops times", "statement": "Without degenerate windows and solver exceptions: if fewer than window-1 available times precede times[0] the first window-1 requested times get no result, even those for which solve(window) has one.", "quantifier": "all histories, windows and such ranges", "why_tests_cant": "negative slice index corner case", "anchors": ["cvx/covariance/combination.py:_CovarianceCombination.solve"]}
{"id": "C35", "title": "solve(times) rejects bad requests", "statement": "times that are not consecutive available times raise AssertionError, an unknown first time raises KeyError and an empty list raises IndexError, before anything is yielded.", "quantifier": "all requests", "why_tests_cant": "for all requests", "anchors": ["cvx/covariance/combination.py:_CovarianceCombination.solve"]}
{"id": "C36", "title": "A solver failure is isolated", "statement": "If the solver raises SolverError at some times, exactly those positions yield None and all other positions yield what they would have yielded.", "quantifier": "all failure patterns", "why_tests_cant": "all crash points", "anchors": ["cvx/covariance/combination.py:_CovarianceCombination.solve"]}
{"id": "C37", "title": "Degenerate windows abort before the first result", "statement": "If at any requested time the window Gram matrix is singular (for example two identical experts, or more experts than window*assets), solve() raises LinAlgError before yielding anything.", "quantifier": "all data", "why_tests_cant": "all data incl. degenerate", "anchors": ["cvx/covariance/combination.py:_CovarianceCombination.solve"]}
{"id": "C38", "title": "Constructor validation", "statement": "from_sigmas succeeds iff (means, if given, cover the same times per expert) and all experts cover the same times and all expert matrices have a positive definite inverse (lower triangle); otherwise it raises AssertionError/KeyError/AttributeError/LinAlgError.", "quantifier": "all inputs", "why_tests_cant": "for all inputs", "anchors": ["cvx/covariance/combination.py:_CovarianceCombination.__init__"]}
{"id": "C39", "title": "Expert order does not matter", "statement": "Permuting the experts permutes the weights and leaves mean and covariance unchanged (exact solver).", "quantifier": "all data and permutations", "why_tests_cant": "metamorphic", "anchors": ["cvx/covariance/combination.py:_CovarianceCombination.solve"]}
{"id": "C40", "title": "Combination is scale equivariant", "statement": "Expressing asset i in other units (factor d_i != 0, its own for each asset) in returns, means and covariances leaves the weights unchanged, scales the result mean by d_i and the covariance by d_i d_j, and fails in the same cases (exact solver).", "quantifier": "all data, all factors d_i != 0, all windows and requests", "why_tests_cant": "metamorphic", "anchors": ["cvx/covariance/combination.py:_CovarianceCombination.solve"]}
{"id": "C41", "title": "from_ewmas is from_sigmas on the iterated EWMA experts", "statement": "When from_ewmas(returns, pairs) succeeds it is what from_sigmas builds from the dictionaries of iterated_ewma covariances and means, one expert per distinct pair label (the last pair with that label; a repeated pair adds no expert), all finite and positive definite and with the same times. It succeeds if every pair gives finite positive definite covariances; otherwise it raises IndexError (a pair without usable rows) or LinAlgError (a covariance with NaN or not positive definite).", "quantifier": "all returns and pair lists; rows in increasing order of the index (other orders: C174)", "why_tests_cant": "for all inputs", "anchors": ["cvx/covariance/combination.py:from_ewmas", "cvx/covariance/combination.py:_map_nested_dicts"]}
{"id": "C42", "title": "Factor regularisation keeps the variances", "statement": "regularize_covariance returns, per time and in order, a symmetric matrix with the same diagonal as the input.", "quantifier": "all covariances with positive diagonal, all ranks 1..n, any valid eigendecomposition", "why_tests_cant": "for all matrices", "anchors": ["cvx/covariance/regularization.py:regularize_covariance", "cvx/covariance/regularization.py:_regularize_correlation"]}
{"id": "C43", "title": "Factor regularisation keeps positive (semi)definiteness", "statement": "If the input covariance is PSD with positive variances the output is PSD, and positive definite if the input is. (The diagonal correction is >= 0, see C45.)", "quantifier": "all PSD inputs and ranks", "why_tests_cant": "for all matrices", "anchors": ["cvx/covariance/regularization.py:regularize_covariance"]}
{"id": "C44", "title": "Full rank regularisation is the identity", "statement": "With r = n (or when all dropped eigenvalues are zero) regularize_covariance returns its input.", "quantifier": "all inputs", "why_tests_cant": "for all matrices", "anchors": ["cvx/covariance/regularization.py:regularize_covariance"]}
{"id": "C45", "title": "Low-rank format represents the same matrix", "statement": "For PSD input, with low_rank_format=True, F F^T + diag(d) equals the dense output, F has r columns, and d >= 0.", "quantifier": "all PSD inputs and ranks", "why_tests_cant": "for all matrices", "anchors": ["cvx/covariance/regularization.py:regularize_covariance"]}
{"id": "C46", "title": "EM regularisation stays well defined", "statement": "For positive definite Sigma and positive initial d every EM iteration (any number) is well defined and keeps d > 0.", "quantifier": "all inputs and all iteration counts", "why_tests_cant": "induction over iterations", "anchors": ["cvx/covariance/regularization.py:_e_step", "cvx/covariance/regularization.py:_m_step", "cvx/covariance/regularization.py:_em_low_rank_approximation"]}
{"id": "C47", "title": "EM never decreases the likelihood", "statement": "Each EM iteration does not decrease the Gaussian log-likelihood -logdet(FF^T+D) - tr(Sigma (FF^T+D)^-1).", "quantifier": "all inputs and all iteration counts", "why_tests_cant": "inequality for all data", "anchors": ["cvx/covariance/regularization.py:_e_step", "cvx/covariance/regularization.py:_m_step", "cvx/covariance/regularization.py:em_regularize_covariance"]}
{"id": "C48", "title": "EM fixes exact factor models", "statement": "If Sigma = F F^T + diag(d) already, em_regularize_covariance returns exactly F and d.", "quantifier": "all F, d > 0", "why_tests_cant": "for all data", "anchors": ["cvx/covariance/regularization.py:_e_step", "cvx/covariance/regularization.py:_m_step", "cvx/covariance/regularization.py:em_regularize_covariance"]}
{"id": "C49", "title": "rolling_window double counts the first return", "statement": "rolling_window(returns, memory)[t] equals (r_0 r_0^T + sum of the last min(t+1,memory) outer products)/min(t+2,memory) for t>=1: the first return never leaves the estimate.", "quantifier": "all returns and memories >= 2, all rows", "why_tests_cant": "closed form for all lengths", "anchors": ["experiments/utils/experiment_utils.py:rolling_window"]}
{"id": "C50", "title": "Old and new EWMA recursions agree", "statement": "The dictionary ewma() of the experiments yields, from the second key on, exactly the values the library recursion yields (also with clipping).", "quantifier": "all data, half-lives, clip_at", "why_tests_cant": "for all histories", "anchors": ["experiments/utils/iterated_ewma_vec.py:ewma", "experiments/utils/iterated_ewma_vec.py:get_next_ewma", "cvx/covariance/ewma.py:_general"]}
{"id": "C51", "title": "Maximum drawdown", "statement": "compute_max_drawdown returns the largest (V_s - V_t)/V_s over s <= t, which lies in [0,1) for positive values.", "quantifier": "all histories of positive values, any length", "why_tests_cant": "for all histories", "anchors": ["experiments/utils/trading_model.py:Trader.compute_max_drawdown"]}
{"id": "C52", "title": "Portfolio growth", "statement": "get_portfolio_growth gives V_t = prod_{s<=t} (1 + r_s/adjust_factor).", "quantifier": "all return histories", "why_tests_cant": "for all histories", "anchors": ["experiments/utils/trading_model.py:Trader.get_portfolio_growth"]}
{"id": "C53", "title": "Cash dilution hits the volatility target", "statement": "After dilute_with_cash(sigma) every diluted weight vector is fully invested whenever the portfolio was, and its predicted annual volatility is sigma; calling it twice changes nothing.", "quantifier": "all weights and covariances with positive risk", "why_tests_cant": "for all data", "anchors": ["experiments/utils/trading_model.py:Trader.dilute_with_cash", "experiments/utils/trading_model.py:Trader.get_vol_cont_w"]}
{"id": "C54", "title": "Packed covariance rows", "statement": "from_row_to_covariance returns a symmetric matrix whose upper triangle, read row by row, is the given row.", "quantifier": "all n and rows", "why_tests_cant": "for all sizes", "anchors": ["experiments/utils/experiment_utils.py:from_row_to_covariance"]}
{"id": "C55", "title": "CCP state round trip", "statement": "Building (F,d) from a freshly initialised CCP state reproduces the covariance FF^T + diag(d), and E - GG^T is its inverse.", "quantifier": "all F and d>0", "why_tests_cant": "for all data", "anchors": ["experiments/utils/ccp_regularize.py:_State.__init__", "experiments/utils/ccp_regularize.py:_State.build"]}
{"id": "C56", "title": "Whitener measures risk", "statement": "The risk expression optimised by the Trader, the norm of L_inv w, is the predicted standard deviation sqrt(w^T Sigma w).", "quantifier": "all covariances and weights", "why_tests_cant": "for all data", "anchors": ["experiments/utils/trading_model.py:_get_L_inv", "experiments/utils/trading_model.py:Trader.backtest"]}
{"id": "C57", "title": "Functional correctness of iterated_ewma", "statement": "iterated_ewma yields exactly: for each row t >= min_periods_vola-1 with a non-zero volatility or centred return (its first min_periods_cov-1 such rows skipped), volatility = square root of the (winsorised) half-life average of squared centred returns, covariance = volatilities times the correlation of the half-life averaged outer products of the clipped, volatility-adjusted, centred returns, and the corresponding mean; IndexError when there is no such row.", "quantifier": "every frame of finite returns or (nan_to_num) with NaN, distinct labels, all positive half-lives, all other parameters; rows in increasing order of the index (other orders: C174)", "why_tests_cant": "complete input/output behaviour for all inputs", "anchors": ["cvx/covariance/ewma.py:iterated_ewma", "cvx/covariance/ewma.py:volatility", "cvx/covariance/ewma.py:center", "cvx/covariance/ewma.py:clip", "cvx/covariance/ewma.py:_ewma_cov"]}
{"id": "C58", "title": "An entry of the estimate depends on its own assets only", "statement": "If asset i has a non-zero centred return within the first min_periods_vola rows, then the yielded times, its volatility and mean and its covariance with asset j are the same for any two frames agreeing on columns i and j.", "quantifier": "every pair of frames agreeing on two columns, every parameter setting; rows in increasing order of the index (other orders: C174)", "why_tests_cant": "quantifies over all changes of the other columns", "anchors": ["cvx/covariance/ewma.py:iterated_ewma"]}
{"id": "C59", "title": "First covariance in mean mode is NaN", "statement": "With mean=True and min_periods_cov <= 1 the covariance of the first result is NaN in every entry.", "quantifier": "every frame and every other parameter; rows in increasing order of the index (other orders: C174)", "why_tests_cant": "for all inputs", "anchors": ["cvx/covariance/ewma.py:iterated_ewma", "cvx/covariance/ewma.py:center"]}
{"id": "C60", "title": "Only the order of the time labels matters", "statement": "Replacing the index labels of the returns by others in the same order (rows in any order) changes nothing but the times of the results; neither does replacing increasing labels by any others that increase.", "quantifier": "every frame, every order-preserving relabelling, every parameter setting, any arithmetic (floating point included)", "why_tests_cant": "for all relabellings", "anchors": ["cvx/covariance/ewma.py:iterated_ewma", "cvx/covariance/ewma.py:_generator2frame"]}
{"id": "C61", "title": "A missing return aborts solve()", "statement": "If the returns frame lacks a row for one of the expert times after the first, solve() raises KeyError before yielding anything, whatever window and times are.", "quantifier": "every experts' dictionaries, every frame, every window and request", "why_tests_cant": "for all inputs", "anchors": ["cvx/covariance/combination.py:_CovarianceCombination.solve", "cvx/covariance/combination.py:_B_t_col"]}
{"id": "C62", "title": "The combination depends on the order of the assets", "statement": "Cholesky factors depend on the order of the assets, so relabelling the assets can change the combined covariance: with the same weights there are experts for which combining and reordering do not commute.", "quantifier": "existence of a counterexample (negative property); for diagonal experts the order is irrelevant", "why_tests_cant": "a proof that the natural invariance fails", "anchors": ["cvx/covariance/combination.py:_CovarianceCombination._solve", "cvx/covariance/combination.py:_cholesky_precision"]}
{"id": "C63", "title": "Regularisation does not depend on the eigenvectors chosen", "statement": "If the r-th eigenvalue of every correlation matrix is larger than the next one, regularize_covariance returns the same matrices whichever orthonormal eigenvectors LAPACK returns.", "quantifier": "every dictionary with that gap, any two eigenvalue routines meeting the contract", "why_tests_cant": "quantifies over all eigenvalue routines", "anchors": ["cvx/covariance/regularization.py:regularize_covariance", "cvx/covariance/regularization.py:_regularize_correlation"]}
{"id": "C64", "title": "Regularisation commutes with changes of units, signs and asset order", "statement": "Multiplying each asset by a positive factor multiplies the regularised covariance accordingly (every input, rank and format); with the eigenvalue gap the same holds for sign changes and for reordering the assets.", "quantifier": "every dictionary, rank, format, scaling, sign pattern and permutation", "why_tests_cant": "relation between runs, for all inputs", "anchors": ["cvx/covariance/regularization.py:regularize_covariance"]}
{"id": "C65", "title": "The factor part is the best rank-r approximation", "statement": "For a PSD covariance no matrix of rank <= r is closer in Frobenius norm to the correlation matrix than the correlations of the factor part F F^T.", "quantifier": "every PSD covariance with positive variances, every rank, every competitor", "why_tests_cant": "optimality over all competitors", "anchors": ["cvx/covariance/regularization.py:_regularize_correlation", "cvx/covariance/regularization.py:regularize_covariance"]}
{"id": "C66", "title": "EM regularisation commutes with changes of units", "statement": "Multiplying each asset by a non-zero factor (in the matrices and the initial models) multiplies the loadings by the factor and the idiosyncratic variances by its square.", "quantifier": "every input, every non-zero scaling", "why_tests_cant": "relation between runs, for all inputs", "anchors": ["cvx/covariance/regularization.py:em_regularize_covariance"]}
{"id": "C67", "title": "EM regularisation does not depend on the rotation of the factors", "statement": "Rotating the initial loadings by an orthogonal matrix rotates the resulting loadings and leaves d and F F^T + diag(d) unchanged.", "quantifier": "every input, every orthogonal matrix", "why_tests_cant": "relation between runs, for all inputs", "anchors": ["cvx/covariance/regularization.py:em_regularize_covariance"]}
{"id": "C68", "title": "Regularisation rejects bad input", "statement": "A rank outside 1..n raises ValueError at the first matrix; a matrix with a variance <= 0 raises ValueError after all matrices before it have been yielded.", "quantifier": "every dictionary, rank and format", "why_tests_cant": "for all inputs and positions", "anchors": ["cvx/covariance/regularization.py:regularize_covariance", "cvx/covariance/regularization.py:_regularize_correlation"]}
{"id": "C69", "title": "from_ewmas needs min_periods_cov >= number of assets", "statement": "from_ewmas can only succeed with a non-empty history if min_periods_cov is at least the number of assets (plus one with mean=True), because a covariance of iterated_ewma is finite and positive definite exactly if no volatility is zero and no portfolio has zero adjusted return in all rows so far.", "quantifier": "every returns frame, pair list, parameters; rows in increasing order of the index (other orders: C174)", "why_tests_cant": "a rank argument for all data", "anchors": ["cvx/covariance/combination.py:from_ewmas", "cvx/covariance/ewma.py:iterated_ewma"]}
{"id": "C70", "title": "Missing returns abort solve", "statement": "If the window of any requested time contains a return with a missing entry, solve raises LinAlgError before the first result; missing returns outside the requested windows have no effect.", "quantifier": "every history, window, request and set of missing entries", "why_tests_cant": "for all positions of the missing entries", "anchors": ["cvx/covariance/combination.py:_CovarianceCombination.solve", "cvx/covariance/combination.py:from_ewmas"]}
{"id": "C71", "title": "add_to_diagonal", "statement": "add_to_diagonal(Sigmas, lamda) multiplies every variance by 1+lamda and changes nothing else; the argument itself is changed, so calls compound; with lamda > 0 and positive variances PSD inputs become positive definite.", "quantifier": "every dictionary and lamda", "why_tests_cant": "for all inputs, and a composition law", "anchors": ["experiments/utils/experiment_utils.py:add_to_diagonal"]}
{"id": "C72", "title": "Turnover", "statement": "turnover(weights) is 100*252 times the mean over consecutive rows of ||w_{t+1}-w_t||_1/||w_t||_1; it is zero exactly if the weights never change, does not change if all weights are multiplied by a constant, and is at most 50400 for long-only fully invested weights.", "quantifier": "every history of at least two weight rows none of which is zero (numpy gives nan or inf otherwise), any non-zero constant", "why_tests_cant": "for all histories", "anchors": ["experiments/utils/experiment_utils.py:turnover"]}
{"id": "C73", "title": "Log-likelihood of predictions", "statement": "For positive definite predictions log_likelihood returns for each row the Gaussian log-density of that row minus n log(scale); a singular prediction fails the call; the sequential variant computes the same values and returns None.", "quantifier": "every history, predictions and scale", "why_tests_cant": "for all inputs", "anchors": ["experiments/utils/experiment_utils.py:_single_log_likelihood", "experiments/utils/experiment_utils.py:log_likelihood", "experiments/utils/experiment_utils.py:log_likelihood_sequential"]}
{"id": "C74", "title": "Evaluation is aligned with the next return", "statement": "log_likelihood_low_rank and log_likelihood_regularized score the prediction made at t by the Gaussian log-density of the return in the row after t (restricted to the assets not missing there), and skip a time exactly if there is no later row or its first asset is missing there.", "quantifier": "every history, missing pattern and prediction dictionary", "why_tests_cant": "alignment for all positions", "anchors": ["experiments/utils/experiment_utils.py:log_likelihood_low_rank", "experiments/utils/experiment_utils.py:log_likelihood_regularized"]}
{"id": "C75", "title": "Realised covariance and volatilities", "statement": "_realized_covariance gives for each date, in order of first appearance, the sum of the outer products of the returns of that date minus the outer product of their sum divided by their number; a date with a single row raises TypeError; every result is PSD and its variances are at most the squared realized_volas, with equality exactly if the returns of the date sum to zero.", "quantifier": "every multiset of dated rows", "why_tests_cant": "for all histories", "anchors": ["experiments/utils/experiment_utils.py:_realized_covariance", "experiments/utils/experiment_utils.py:realized_volas"]}
{"id": "C76", "title": "MSE and empirical distribution", "statement": "MSE gives for each prediction time the squared Frobenius distance of the prediction and the outer product of the return of the next row (nan if there is none or it has missing entries); ecdf returns the sorted data with the k-th smallest paired with k/n.", "quantifier": "all inputs", "why_tests_cant": "for all inputs", "anchors": ["experiments/utils/experiment_utils.py:MSE", "experiments/utils/experiment_utils.py:ecdf"]}
{"id": "C77", "title": "Diluted weights are never refreshed", "statement": "After a diluted evaluation of a Trader, a later backtest of the same object with any type, weights and volatility target, evaluated with dilution, reports the returns of the first portfolio diluted to the first target.", "quantifier": "every object, every later backtest and target", "why_tests_cant": "quantifies over all later call histories", "anchors": ["experiments/utils/trading_model.py:Trader.dilute_with_cash", "experiments/utils/trading_model.py:Trader.get_total_returns", "experiments/utils/trading_model.py:Trader.backtest"]}
{"id": "C78", "title": "vol_cont and diluted mean_variance fail", "statement": "A vol_cont backtest raises ValueError for every number of dates and assets and leaves the object marked as diluted, so that every later diluted evaluation raises AttributeError; a diluted evaluation of a mean_variance portfolio raises ValueError.", "quantifier": "every object, number of dates and assets, later calls", "why_tests_cant": "for all sizes and histories", "anchors": ["experiments/utils/trading_model.py:Trader.get_vol_cont_w", "experiments/utils/trading_model.py:Trader.backtest", "experiments/utils/trading_model.py:Trader.get_total_returns"]}
{"id": "C79", "title": "Returns and metrics", "statement": "Undiluted returns are the weighted sums of the rows; get_metrics reports 252 times the mean, sqrt(252) times the standard deviation, their quotient and the drawdown of the growth; with excess=True the risk is that of the raw returns, so for adjust_factor other than 1 and a zero risk-free rate the two modes contradict each other by exactly that factor.", "quantifier": "every history, weights, adjust_factor > 0 (ratios: non-constant returns, numpy gives nan or inf otherwise)", "why_tests_cant": "for all histories", "anchors": ["experiments/utils/trading_model.py:Trader.get_metrics", "experiments/utils/trading_model.py:Trader.get_total_returns"]}
{"id": "C80", "title": "Risk-adjusted returns", "statement": "get_risk_adj_returns(sigma) scales the returns so that their annual standard deviation is exactly sigma and their Sharpe ratio is unchanged; the risk-adjusted growth compounds them.", "quantifier": "every return history with non-zero variance, every sigma", "why_tests_cant": "for all histories", "anchors": ["experiments/utils/trading_model.py:Trader.get_risk_adj_returns", "experiments/utils/trading_model.py:Trader.get_risk_adj_portfolio_growth"]}
{"id": "C81", "title": "The default constraint list is shared between backtests", "statement": "A backtest without the argument cons is feasible for exactly the weights that meet its own constraints provided the constraints of every earlier such backtest of the session are satisfiable; one infeasible earlier call (e.g. at most six assets with the standard bounds) makes every later one infeasible.", "quantifier": "every session history", "why_tests_cant": "quantifies over all earlier calls", "anchors": ["experiments/utils/trading_model.py:Trader.backtest"]}
{"id": "C82", "title": "Which parameters the worker pool uses", "statement": "For every way the pool cuts the dates into chunks, min_risk and max_diverse solve the problem of each date with that date's parameters, but robust_min_risk uses the volatilities of the first date for every date.", "quantifier": "every number of dates, every chunking", "why_tests_cant": "quantifies over all schedules", "anchors": ["experiments/utils/trading_model.py:Trader.backtest", "experiments/utils/trading_model.py:Trader.solve_min_risk", "experiments/utils/trading_model.py:Trader.solve_max_diverse"]}
{"id": "C83", "title": "max_diverse maximises the diversification ratio", "statement": "If the solver solves its problem, the weights of max_diverse are long-only, fully invested, within the upper bound, and have the largest diversification ratio of all such portfolios.", "quantifier": "every positive definite covariance and bound", "why_tests_cant": "optimality over all competitors", "anchors": ["experiments/utils/trading_model.py:Trader.backtest", "experiments/utils/trading_model.py:Trader.solve_max_diverse"]}
{"id": "C84", "title": "risk_parity equalises risk contributions", "statement": "Positive weights solve the risk parity problem exactly if every asset's contribution w_i (Sigma w)_i is 4/n; there is at most one solution; the returned (normalised) weights are positive, sum to one and have equal risk contributions.", "quantifier": "every positive definite covariance", "why_tests_cant": "optimality over all competitors", "anchors": ["experiments/utils/trading_model.py:Trader.backtest", "experiments/utils/trading_model.py:Trader.solve_risk_parity"]}
{"id": "C85", "title": "Trader constructor", "statement": "With matching labels and positive definite covariances the constructor succeeds and stores a whitener per date measuring that date's predicted risk; other labels raise AssertionError; the argument rhos can never be used.", "quantifier": "every set of labels and covariances", "why_tests_cant": "for all inputs", "anchors": ["experiments/utils/trading_model.py:Trader.__init__", "experiments/utils/trading_model.py:_get_L_inv"]}
{"id": "C86", "title": "mean_variance with uncertainty is a worst case", "statement": "With rhos the objective is the worst expected return over all expected returns within rho of the forecast; feasible weights have predicted annual volatility at most sigma_des * adjust_factor.", "quantifier": "all weights, forecasts, uncertainties", "why_tests_cant": "optimum over a continuum of scenarios", "anchors": ["experiments/utils/trading_model.py:Trader.backtest", "experiments/utils/trading_model.py:Trader.solve_mean_variance"]}
{"id": "C87", "title": "robust_min_risk is not the worst-case variance", "statement": "The worst variance over entrywise perturbations kappa sigma_i sigma_j is the variance plus kappa (sigma^T |w|)^2; the objective adds that term to the standard deviation instead, and there are portfolios it orders the other way.", "quantifier": "all covariances, weights, kappa; existence of a counterexample", "why_tests_cant": "optimum over a continuum, and a negative result", "anchors": ["experiments/utils/trading_model.py:Trader.backtest"]}
{"id": "C88", "title": "The convex-concave objective is the likelihood", "statement": "For a state describing a positive definite precision matrix and a positive definite covariance matrix, objective() is minus the factor-model log-likelihood of what build() returns; for a symmetric covariance matrix that is not positive definite it raises LinAlgError.", "quantifier": "every state and covariance matrix", "why_tests_cant": "an identity between two formulas, for all inputs", "anchors": ["experiments/utils/ccp_regularize.py:_State.objective", "experiments/utils/ccp_regularize.py:_State.build"]}
{"id": "C89", "title": "The convex-concave procedure never gets worse", "statement": "With a solver that solves its convex problem, any number of iterate() calls from a valid factor model keeps a valid model whose likelihood never falls; it stands still exactly if the model solves the maximum-likelihood equations, and otherwise the likelihood rises strictly.", "quantifier": "every covariance matrix, start, number of iterations", "why_tests_cant": "for all inputs and iteration counts", "anchors": ["experiments/utils/ccp_regularize.py:_State.iterate", "experiments/utils/ccp_regularize.py:_State._build_problem"]}
{"id": "C90", "title": "The gradients of the proximal gradient variant", "statement": "_grad_e and _grad_G return the gradient of -log det(diag(e) - G G^T) at every point of its domain.", "quantifier": "every point and direction", "why_tests_cant": "derivatives in every direction", "anchors": ["experiments/utils/ccp_regularize.py:_grad_e", "experiments/utils/ccp_regularize.py:_grad_G", "experiments/utils/ccp_regularize.py:_common_factor"]}
{"id": "C91", "title": "The proximal gradient variant: fixed points and failure", "statement": "A pass of the gradient loop leaves a point unchanged exactly if it minimises the convex problem; but the fixed step size overshoots: for one asset and no factor, whenever the variance exceeds d + 1/d of the start d, iterate() ends with a negative idiosyncratic variance.", "quantifier": "every covariance matrix and point; all one-asset instances", "why_tests_cant": "for all inputs", "anchors": ["experiments/utils/ccp_regularize.py:_solve_proximal_gradient", "experiments/utils/ccp_regularize.py:_State2.iterate"]}
{"id": "C92", "title": "EM stops exactly at stationary points of the likelihood", "statement": "A pass of the EM iteration returns its argument exactly if the argument solves the maximum-likelihood equations, i.e. the likelihood has derivative zero in every direction; otherwise the likelihood rises strictly.", "quantifier": "every covariance matrix and factor model with positive idiosyncratic variances", "why_tests_cant": "for all inputs, derivatives in every direction", "anchors": ["cvx/covariance/regularization.py:_em_low_rank_approximation", "cvx/covariance/regularization.py:em_regularize_covariance"]}
{"id": "C93", "title": "em_low_rank_log_likelihood scores the EM models", "statement": "If regularize_covariance gives factor models with positive idiosyncratic variances, em_low_rank_log_likelihood scores, with the rules of log_likelihood_low_rank, one factor model per time in the same order, each at least as likely for that time's covariance as the truncated eigenvalue model.", "quantifier": "every history and dictionary of positive definite matrices", "why_tests_cant": "for all histories", "anchors": ["experiments/utils/experiment_utils.py:em_low_rank_log_likelihood"]}
{"id": "C94", "title": "What the portfolio limits mean", "statement": "The portfolios min_risk may choose are exactly the fully invested ones within the bounds holding at most (short_lim-1)/2 short and (short_lim+1)/2 long; with the standard bounds there is one exactly if there are at least seven assets; in mean_variance cash is what the positions leave and holding only cash is always allowed.", "quantifier": "all weights, limits and numbers of assets", "why_tests_cant": "for all inputs", "anchors": ["experiments/utils/trading_model.py:Trader.backtest"]}
{"id": "C95", "title": "low_rank_iterated_ewma has the times, means and variances of iterated_ewma", "statement": "For rank between 1 and n-1 and finite returns, the results of low_rank_iterated_ewma are, in order, for the times of iterated_ewma with the same arguments, with the same mean and volatility, and the squared loadings plus the idiosyncratic variance of every asset are the asset's variance in iterated_ewma, idiosyncratic variances never negative. If no volatility-adjusted return is zero (e.g. no return is zero and mean=False), no result is missing.", "quantifier": "every finite return history without an asset of zero volatility in an informative row, all parameters, every rank 1..n-1; rows in increasing order of the index (other orders: C174)", "why_tests_cant": "for all histories; the truncation error accumulates", "anchors": ["experiments/utils/low_rank_ewma.py:low_rank_iterated_ewma", "experiments/utils/low_rank_ewma.py:_ewma_low_rank"]}
{"id": "C96", "title": "The factor part of low_rank_iterated_ewma never overstates risk", "statement": "The covariance of iterated_ewma minus F F^T of low_rank_iterated_ewma is positive semidefinite at every time: the variance of any portfolio through the factors is at most the portfolio's full variance.", "quantifier": "every such history (finite, no zero volatility in an informative row), time with finite variances, and portfolio; rows in increasing order of the index (other orders: C174)", "why_tests_cant": "for all portfolios after any number of truncations", "anchors": ["experiments/utils/low_rank_ewma.py:low_rank_iterated_ewma", "experiments/utils/low_rank_ewma.py:_low_rank_sum"]}
{"id": "C97", "title": "low_rank_iterated_ewma is exact where it can be", "statement": "If the volatility-adjusted returns so far span at most rank dimensions (in particular during the first rank informative rows), the factor part is the covariance of iterated_ewma and the idiosyncratic variances are zero.", "quantifier": "every such history (finite, no zero volatility in an informative row) and rank 1..n-1; rows in increasing order of the index (other orders: C174)", "why_tests_cant": "for all histories", "anchors": ["experiments/utils/low_rank_ewma.py:_ewma_low_rank", "experiments/utils/low_rank_ewma.py:_low_rank_sum"]}
{"id": "C98", "title": "Each low-rank update is a best approximation", "statement": "_low_rank_sum keeps the diagonal of F F^T + diag(d) + r r^T, never lowers an idiosyncratic variance, and its factor part is, among all matrices of rank at most the rank, closest to F F^T + r r^T in correlation units (Frobenius norm).", "quantifier": "every factor model, return, competing matrix; rows in increasing order of the index (other orders: C174)", "why_tests_cant": "optimum over a continuum", "anchors": ["experiments/utils/low_rank_ewma.py:_low_rank_sum"]}
{"id": "C99", "title": "What stops low_rank_iterated_ewma", "statement": "Rank 0 raises IndexError before the first result; rank at least the number of assets raises TypeError at the second informative row (one result, if min_periods_cov allows it); otherwise it can stop early only at a row in which some asset's volatility-adjusted return is zero, and the results of the rows before that are still produced.", "quantifier": "every finite return history without an asset of zero volatility in an informative row, every rank; rows in increasing order of the index (other orders: C174)", "why_tests_cant": "for all histories and crash points", "anchors": ["experiments/utils/low_rank_ewma.py:low_rank_iterated_ewma", "experiments/utils/low_rank_ewma.py:_low_rank_sum"]}
{"id": "C100", "title": "low_rank_iterated_ewma does not look ahead", "statement": "Appending rows to the returns (missing values allowed, distinct times) only appends results; every result carries a time of the returns.", "quantifier": "every history, extension, rank, parameters; rows in increasing order of the index (other orders: C174)", "why_tests_cant": "for all extensions", "anchors": ["experiments/utils/low_rank_ewma.py:low_rank_iterated_ewma", "experiments/utils/low_rank_ewma.py:_ewma_low_rank"]}
{"id": "C101", "title": "The factor model covers every date after the first memory rows once", "statement": "For increasing labels, memory >= 3k+8 and factor returns that are not all zero in the first k rows, construct_cmiewma_factor_model yields one item per row from row memory to the last, in order, unless it raises (then it stops at the end of a block); it raises nothing exactly if in every block pca, the experts, the window Gram matrices and the solver succeed; an exception is the one of the first block that fails: of pca, LinAlgError for an expert or a window that is not finite or not positive definite, else of the solver (AttributeError if it fails with SolverError); the exposures of an item come from pca of the memory rows before its block.", "quantifier": "every return history, update_frequency, memory, pairs, pca, solver", "why_tests_cant": "for all histories and crash points", "anchors": ["experiments/utils/factor_model.py:construct_cmiewma_factor_model", "experiments/utils/factor_model.py:construct_factor_covariance"]}
{"id": "C102", "title": "What an item of the factor model is", "statement": "The factor covariance is positive definite, a blend with weights on the simplex of the iterated EWMAs of the factor returns (the first pair's variances raised by 5 %), and with an exact solver the weights maximise the 10-row likelihood; the diagonal is the half-life-21 average of the squared residuals up to the date, never negative; the asset covariance is positive semidefinite, positive definite if every asset had a residual; a portfolio's variance is the factor part plus the idiosyncratic part.", "quantifier": "every history, item, portfolio", "why_tests_cant": "for all histories; optimum over a continuum", "anchors": ["experiments/utils/factor_model.py:construct_cmiewma_factor_model", "experiments/utils/factor_model.py:construct_factor_covariance"]}
{"id": "C103", "title": "The factor model does not look ahead", "statement": "If two histories agree up to a row, the items the two runs yield for that row are equal, whatever follows it, even within the same block.", "quantifier": "every pair of histories, pca, solver", "why_tests_cant": "for all continuations", "anchors": ["experiments/utils/factor_model.py:construct_cmiewma_factor_model"]}
{"id": "C104", "title": "factor_log_likelihood scores against the next day", "statement": "Each item is scored by the Gaussian log-density of the next row's return with mean 0 and the item's covariance; nan exactly for the last row or a missing entry; KeyError for a time that is not in the returns.", "quantifier": "every history and list of items with positive definite covariances", "why_tests_cant": "for all histories", "anchors": ["experiments/utils/factor_model.py:factor_log_likelihood"]}
{"id": "C105", "title": "Factors and residuals are orthogonal", "statement": "With orthonormal exposures the residuals have no factor component, squared lengths split into factor and residual part, and the modelled covariance of the factors is the factor covariance plus the idiosyncratic part; from_factor_to_full_covariance maps each time to exposure^T F exposure + diag.", "quantifier": "all exposures and returns", "why_tests_cant": "for all inputs", "anchors": ["experiments/utils/factor_model.py:construct_cmiewma_factor_model", "experiments/utils/factor_model.py:from_factor_to_full_covariance"]}
{"id": "C106", "title": "A backtest pairs each date's prediction with the next row's returns", "statement": "In every result of a backtest, every trader has one row for each row of the returns from start_date up to, not including, end_date whose next row is complete, in order; it holds the next row's returns and the covariance predicted under the date's own label by the predictor the trader is named after.", "quantifier": "every return history with distinct labels, predictors, dates, strategies", "why_tests_cant": "for all histories and missing-value patterns", "anchors": ["experiments/utils/portfolio_backtests.py:_get_causal", "experiments/utils/portfolio_backtests.py:PortfolioBacktest"]}
{"id": "C107", "title": "When a backtest can be made and when it goes through", "statement": "The constructor accepts exactly predictors whose keys are labels of the returns, mean predictors covering the last predictor's keys and dates among the last predictor's keys (defaults: its first and last key). Otherwise it raises AssertionError, or IndexError for a last predictor without dates and no given dates. A run succeeds exactly if every predictor has a name (and expected returns, for mean variance) and every trading day has a prediction, a whitener and solved weights; a missing date raises KeyError; for symmetric predictions every trading day's covariance must be positive definite, even for equal weights.", "quantifier": "every history, predictor list, dates, strategies", "why_tests_cant": "for all inputs", "anchors": ["experiments/utils/portfolio_backtests.py:PortfolioBacktest.__init__", "experiments/utils/portfolio_backtests.py:_get_causal"]}
{"id": "C108", "title": "EqWeighted earns the average return whatever the predictor", "statement": "EqWeighted holds 1/n of every asset on every trading day and earns the average of the next row's returns; all traders of a result agree.", "quantifier": "every history and predictor", "why_tests_cant": "for all histories", "anchors": ["experiments/utils/portfolio_backtests.py:EqWeighted"]}
{"id": "C109", "title": "Each strategy is optimal day by day under that day's prediction", "statement": "With an exact solver, on every trading day MinRisk has the least predicted risk within the limits, MaxDiverse the largest diversification ratio of the long-only portfolios within the upper bound, RiskParity equal risk contributions, MeanVariance the largest (uncertainty-adjusted) expected return within the limits and the annual volatility target, fully invested with cash; the returns earned are those of the next row (plus cash at the risk-free rate by position). MaxDiverse without an upper bound never runs.", "quantifier": "every history, predictor of symmetric matrices, day, competing portfolio", "why_tests_cant": "optimum over a continuum for all days", "anchors": ["experiments/utils/portfolio_backtests.py:MinRisk", "experiments/utils/portfolio_backtests.py:MaxDiverse", "experiments/utils/portfolio_backtests.py:RiskParity", "experiments/utils/portfolio_backtests.py:MeanVariance"]}
{"id": "C110", "title": "Backtests do not look ahead", "statement": "The weights of a date depend only on the predictions of that date; with causal predictors, changing the returns after a row changes no weight of a date up to that row (the rolling window predictor is causal).", "quantifier": "every pair of histories, causal predictors, strategies", "why_tests_cant": "for all continuations", "anchors": ["experiments/utils/portfolio_backtests.py:_get_causal", "experiments/utils/portfolio_backtests.py:PortfolioBacktest"]}
{"id": "C111", "title": "Backtest results are keyed by name and independent", "statement": "The keys of the result are the distinct names of the predictors in order of first appearance; a name used twice keeps the trader of the last predictor with it; fewer names than predictors never succeeds: a run that enough names would let through ends with IndexError, as does mean variance with fewer forecasts than predictors (TypeError without any); each entry is what a backtest of its predictor alone gives.", "quantifier": "every list of predictors and names", "why_tests_cant": "for all lists", "anchors": ["experiments/utils/portfolio_backtests.py:PortfolioBacktest"]}
{"id": "C112", "title": "What the printed table says", "statement": "create_table prints the rows of the traders not called PRESCIENT in order, diluted to the volatility target if it is given and not zero; with prescient a last row has PRESCIENT's numbers under the name of the last trader (KeyError after the rule if there is no PRESCIENT); a second table with another nonzero target prints the numbers of the first.", "quantifier": "all dictionaries of traders, targets, risk-free returns", "why_tests_cant": "depends on the history of calls", "anchors": ["experiments/utils/portfolio_backtests.py:create_table", "experiments/utils/portfolio_backtests.py:_create_table_helper"]}
{"id": "C113", "title": "The ridge weights are the optimum of the stated regression", "statement": "ReturnCombinator._get_weights returns the one minimiser of the squared error with row weights that halve every weighted_hf rows and sum to the number of rows, plus alpha times the scaled squares of the weights; it raises LinAlgError exactly if some nonzero combination of predictors vanishes on all rows and is not penalised, ValueError if the numbers of returns and rows differ.", "quantifier": "all returns, predictions, scales >= 0, alpha >= 0", "why_tests_cant": "optimum over a continuum", "anchors": ["experiments/utils/return_combination.py:ReturnCombinator._get_weights"]}
{"id": "C114", "title": "ReturnCombinator.fit predicts every row after the first memory rows", "statement": "For predictions on consecutive rows of the returns, fit returns one prediction per row from the memory-th on, in order: the predictors of that row times the ridge weights of the memory rows before; it succeeds exactly if no window is singular, always for alpha > 0 if every predictor was nonzero once in the first memory rows.", "quantifier": "every history, predictors, memory >= 1, alpha >= 0", "why_tests_cant": "for all histories", "anchors": ["experiments/utils/return_combination.py:ReturnCombinator.fit"]}
{"id": "C115", "title": "ReturnCombinator.fit does not look ahead", "statement": "The predicted return of a row depends only on the predictions up to that row and the returns before it.", "quantifier": "every pair of histories", "why_tests_cant": "for all continuations", "anchors": ["experiments/utils/return_combination.py:ReturnCombinator.fit"]}
{"id": "C116", "title": "The penalty of a predictor is the decayed average of its past squares", "statement": "The scale of row t is the average of the squares before row t with weights that shrink by 250/251 per row: the value called halflife is used as centre of mass, so a row weighs half after 173 to 174 rows, not 250; the first row has none.", "quantifier": "every prediction history", "why_tests_cant": "for all histories", "anchors": ["experiments/utils/return_combination.py:ReturnCombinator._get_scales"]}
{"id": "C117", "title": "feature_engineer splits predictions into positive and negative parts without loss", "statement": "Row labels are kept; column k holds max(v,0), column K+k holds min(v,0), missing stays missing; the two sum to v and at most one is nonzero.", "quantifier": "every table of predictions with missing values", "why_tests_cant": "for all inputs", "anchors": ["experiments/utils/return_combination.py:feature_engineer"]}
{"id": "C118", "title": "Lagged and averaged predictors, and the chain to the prediction, are causal", "statement": "daily_predictors has one column per different lag with the return of row t-lag (missing if there is none); ewma_predictors raises ValueError for a half-life that is not positive, else has one column per different half-life with the average of the returns before row t; predictions by fit on ewma_predictors depend only on returns before the row.", "quantifier": "every history, lags, half-lives", "why_tests_cant": "for all histories and continuations", "anchors": ["experiments/utils/return_combination.py:daily_predictors", "experiments/utils/return_combination.py:ewma_predictors", "experiments/utils/return_combination.py:ReturnCombinator.fit"]}
{"id": "C119", "title": "The lasso combination is optimal on each window", "statement": "With an exact solver the weights of row t minimise squared error plus alpha times the sum of absolute weights over the memory rows before t; this holds exactly if the correlations with the residual are within alpha/2 and attained where a weight is not zero; all weights are zero exactly if alpha is large enough; for alpha > 0 a solution exists; fitted values are unique; both functions agree; no look-ahead; ewma_return_combination on the output of ewma_predictors and the same returns raises ValueError.", "quantifier": "every history, alpha, memory, competing weights", "why_tests_cant": "optimum over a continuum", "anchors": ["experiments/utils/return_combination.py:_combinator_problem", "experiments/utils/return_combination.py:ReturnCombinatorOld.fit", "experiments/utils/return_combination.py:ewma_return_combination"]}
{"id": "C120", "title": "tune_alpha reports each alpha's own correlation and error", "statement": "The lists have one entry per alpha in order; entry j is the fit with alpha j alone: weights, correlation (in [-1,1], nan if one side is constant, not affected by shifting and scaling predictions) and root mean squared error (zero exactly for right predictions, nan without predictions) over all predicted dates and assets.", "quantifier": "all alphas, histories", "why_tests_cant": "for all inputs", "anchors": ["experiments/utils/return_combination.py:tune_alpha"]}
{"id": "C121", "title": "construct_rho is a causal multiple of the standard deviation", "statement": "The table has the rows of the returns, zero on the first two; on row t it is n_devs times the unbiased standard deviation (weights halving every 125 rows) of the asset's returns before row t; never negative for n_devs >= 0, zero exactly for constant returns, shift invariant, scales with the absolute value; an empty table raises IndexError.", "quantifier": "every finite return history, n_devs", "why_tests_cant": "for all histories; a recursion over all rows", "anchors": ["experiments/utils/trading_model.py:construct_rho"]}
{"id": "C122", "title": "Workers of mean_variance and risk_parity solve each date with that date's data", "statement": "A mean_variance backtest hands the worker pool one task per date; however the pool cuts them into chunks and whatever the shared parameters held before, the problem of date t is solved with that date's whitener, expected returns (0 for cash) and uncertainties; the results come back in the order of the dates. The same holds for the whitener of risk_parity.", "quantifier": "every number of dates, every chunking of the pool, every initial parameter state", "why_tests_cant": "all schedules of a worker pool over shared mutable parameters", "anchors": ["experiments/utils/trading_model.py:Trader.solve_mean_variance", "experiments/utils/trading_model.py:Trader.solve_risk_parity", "experiments/utils/trading_model.py:Trader.backtest"]}
{"id": "C123", "title": "Trader.backtest: which calls succeed and what a failed call leaves", "statement": "With a solver that never fails, a call returns normally exactly if the uncertainties (if given) have a row for every date and the arguments its type needs are there: none for eq_weighted and risk_parity, no C_speedup for min_risk, kappa too for robust_min_risk, expected returns and sigma_des for mean_variance, an upper bound for max_diverse; vol_cont, max_sharpe and unknown names always raise; a missing bound raises KeyError, the other missing arguments AssertionError. A successful call leaves one row per date, the (for risk_parity and max_diverse normalised) solution of that date's own problem; robust_min_risk uses the volatilities of the first date. A failed call has changed the portfolio type and the adjustment factor but not the weights: after any sequence of calls the weights are those of the last successful call, type and factor those of the last call. So a failed mean_variance or vol_cont call makes get_total_returns of earlier weights without cash raise ValueError.", "quantifier": "every argument combination and every sequence of calls, failing or not", "why_tests_cant": "all histories of a mutable object including exceptions", "anchors": ["experiments/utils/trading_model.py:Trader.backtest", "experiments/utils/trading_model.py:Trader.get_total_returns"]}
{"id": "C124", "title": "The vectorised helpers agree with the library", "statement": "With a gap after the r-th eigenvalue and 1 <= r <= n, the vectorised _regularize_correlation gives the library's low-rank plus diagonal matrix for every matrix of the stack; with volatilities, correlations and the Engle formula of the vectorised file this is regularize_covariance. It accepts every integer rank: the result is symmetric, keeps the diagonal and definiteness; r >= n changes nothing, 0 keeps the diagonal only, -k means n-k; only an empty stack raises ValueError. Realised variances are the diagonals of the realised covariances.", "quantifier": "all stacks of symmetric matrices, all integer ranks, every correct eigensolver", "why_tests_cant": "for all matrices and solvers", "anchors": ["experiments/utils/iterated_ewma_vec.py:_regularize_correlation", "experiments/utils/iterated_ewma_vec.py:_refactor_to_corr", "experiments/utils/iterated_ewma_vec.py:_get_realized_covs", "experiments/utils/iterated_ewma_vec.py:_get_realized_vars"]}
{"id": "C125", "title": "realized_ewma averages the realised covariances of the labels before", "statement": "Without clipping, the matrix of label k (from the second on) is the average, with weights that halve every halflife labels, of the realised covariances of the labels before k, whatever min_periods is; all are positive semidefinite; adding a constant per label changes nothing and scaling returns by c scales them by c squared. A label with one row raises TypeError at the call, an empty table IndexError, clipping with min_periods None or 0 AssertionError before the first item.", "quantifier": "every table with repeated labels, half-life > 0, min_periods", "why_tests_cant": "a recursion over all labels", "anchors": ["experiments/utils/experiment_utils.py:realized_ewma", "experiments/utils/experiment_utils.py:realized_covariance", "experiments/utils/iterated_ewma_vec.py:ewma"]}
{"id": "C126", "title": "yearly_SR reports one annualised Sharpe ratio per calendar year", "statement": "With plot=False the result has every year from the first to the last year with more than 100 rows, in order; such a year has sqrt(252) times mean over standard deviation (ddof 1) of exactly its own returns, a year between with at most 100 rows is nan, a constant year is infinite with the sign of its returns, or nan if they are 0; leverage c > 0 and the order of the rows do not matter; ValueError exactly if the numbers of returns and labels differ.", "quantifier": "every index, calendar and returns", "why_tests_cant": "for all histories and calendars", "anchors": ["experiments/utils/experiment_utils.py:yearly_SR"]}
{"id": "C127", "title": "Optimality of the combination weights can be checked with K numbers", "statement": "The marginal score of an expert at weights w is, over the window, the sum of the ratios of its diagonal precision entries to the blend's minus the inner product of its standardised returns with the blend's. Weights on the simplex maximise the window likelihood exactly if no marginal score exceeds the weighted average (which is assets times window minus the blend's sum of squared standardised returns); experts below the average get weight zero. If the excess is at most d, no mixture is more than d better. Results of solve with an exact solver pass the test, and no other weights do.", "quantifier": "every panel, window, time, weights", "why_tests_cant": "optimum over a continuum", "anchors": ["cvx/covariance/combination.py:_CombinationProblem", "cvx/covariance/combination.py:_CovarianceCombination.solve"]}
{"id": "C128", "title": "An inexact solver gives nearly optimal predictions", "statement": "If the solver returns feasible weights whose objective is within d of the best, then every result of solve is at most d less likely on the window than any mixture and any single expert; the squared error of weight k is at most 2d times entry kk of the inverse window Gram matrix; and for every e there is a d such that every predicted mean and covariance is entrywise within e of the exact one, for all times and requests.", "quantifier": "every panel, tolerance, solver history", "why_tests_cant": "all solvers within a tolerance; a limit", "anchors": ["cvx/covariance/combination.py:_CovarianceCombination.solve", "cvx/covariance/combination.py:_CovarianceCombination._solve"]}
{"id": "C129", "title": "The whole method does not look ahead", "statement": "Build from_ewmas(returns, pairs) once from some returns and once from these and later ones. If the window is shorter than the list of predictions for the first returns, and solve(window) on the longer history yields something, the items of the shorter run (times, means, covariances, weights by label) are the first items of the longer one; if the longer run ends normally so does the shorter, with one item per prediction from the window on. If the longer construction succeeds, the shorter one succeeds or raises IndexError because no row enters yet.", "quantifier": "all return histories (with missing entries), all continuations, pairs, arguments, windows, deterministic solvers", "why_tests_cant": "a statement about all continuations of a history", "anchors": ["cvx/covariance/combination.py:from_ewmas", "cvx/covariance/combination.py:_CovarianceCombination.solve", "cvx/covariance/ewma.py:iterated_ewma"]}
{"id": "C130", "title": "The whole method does not depend on units", "statement": "If the returns of asset i are multiplied by d_i (not zero, also negative), from_ewmas succeeds or raises the same exception, and solve yields the same times and labelled weights, means times d_i and covariances times d_i d_j, and fails in the same cases.", "quantifier": "all histories (with missing entries), factors, pairs, arguments, windows, requested times", "why_tests_cant": "for all inputs and rescalings", "anchors": ["cvx/covariance/combination.py:from_ewmas", "cvx/covariance/combination.py:_CovarianceCombination.solve", "cvx/covariance/ewma.py:iterated_ewma"]}
{"id": "C131", "title": "Only the experts matter, not how the pairs are listed", "statement": "The experts are the last pairs with their labels. Two lists of pairs with the same experts give the same times, means, covariances and the same weight for each label, only the order of the labels may differ, and fail in the same cases. In particular a rearrangement of pairs with distinct labels changes nothing, also not whether from_ewmas succeeds.", "quantifier": "all histories, lists of pairs (with repeats), arguments, windows, requested times", "why_tests_cant": "for all inputs and rearrangements", "anchors": ["cvx/covariance/combination.py:from_ewmas", "cvx/covariance/combination.py:_CovarianceCombination.solve", "cvx/covariance/combination.py:_CombinationProblem.weights"]}
{"id": "C132", "title": "What the whole method yields", "statement": "If from_ewmas(returns, pairs) succeeds with at least two results per expert, every result of solve(window, times) with an exact solver is for one of the requested times, at which a full window of returns is available without missing entries; its weights are labelled with the experts' labels, lie on the simplex and maximise the likelihood of the window's returns under the blended one-step-earlier iterated_ewma predictions; its mean and covariance are the blend, with these weights, of the iterated_ewma predictions of that time. Without missing returns and degenerate windows there is exactly one result per prediction from the window on; with a degenerate window LinAlgError before the first result.", "quantifier": "all histories (with missing entries), lists of pairs, arguments, windows, requested times", "why_tests_cant": "for all inputs; optimum over a continuum", "anchors": ["cvx/covariance/combination.py:from_ewmas", "cvx/covariance/combination.py:_CovarianceCombination.solve", "cvx/covariance/combination.py:_CombinationProblem", "cvx/covariance/ewma.py:iterated_ewma"]}
{"id": "C133", "title": "solve accepts every integer window", "statement": "With increasing times, window None or 0 means all of the history, a larger one than the history is capped, and a positive one means exactly that many predictions (the indexing never leaves the lists, the sums are never empty). A negative window never gives a result: solve raises before the first item, IndexError if the returns are there and the request is a valid one.", "quantifier": "every integer window, object, request, solver", "why_tests_cant": "for all integers and histories", "anchors": ["cvx/covariance/combination.py:_CovarianceCombination.solve"]}
{"id": "C134", "title": "solve needs sorted times", "statement": "If the times of the predictions (in the order of the first expert's dictionary, without the first) are neither increasing nor decreasing, solve never gives a result, and raises if no times are requested; for decreasing times this holds for windows of at least 2, while with window 1 it works as for increasing ones.", "quantifier": "every order of the index, window, request, solver", "why_tests_cant": "for all orders of the index", "anchors": ["cvx/covariance/combination.py:_CovarianceCombination.solve", "cvx/covariance/combination.py:_A"]}
{"id": "C135", "title": "L1 smoothing is an optimal trade-off over all matrices", "statement": "For a non-empty dictionary of positive semidefinite covariances and lamda0 >= 0, L1_smoothing returns the same dates; the first matrix is unchanged and every later one is the unique minimiser, over ALL matrices B (not only those on a line), of half the squared Frobenius distance to the unsmoothed matrix plus lamda0 times the distance to the previous smoothed one. So it is within lamda0 of the unsmoothed one, moves by max(distance - lamda0, 0) along the segment, never more than the unsmoothed sequence does; symmetry, semidefiniteness and definiteness are kept; lamda0 = 0 and constant sequences change nothing; later dates do not matter; the update flag is 1 exactly where the matrix moves. An empty dictionary, a negative lamda0 with two dates and a matrix to move to that is not semidefinite raise.", "quantifier": "every dictionary, dimension, lamda0, exact solver", "why_tests_cant": "an optimum over a continuum of matrices, by induction over the dates", "anchors": ["experiments/extensions/smoothing.ipynb:L1_smoothing", "experiments/extensions/smoothing.ipynb:get_next"]}
{"id": "C136", "title": "EWMA smoothing of covariances", "statement": "ewma_smoothing returns, for every date but the first, the half-life weighted average of all covariances up to and including that date. Bounds in the semidefinite order, semidefiniteness and definiteness carry over, constant matrices are unchanged, later dates do not matter; the first date has no smoothed matrix.", "quantifier": "every dictionary of finite matrices, positive half-life", "why_tests_cant": "for all histories", "anchors": ["experiments/extensions/smoothing.ipynb:ewma_smoothing"]}
{"id": "C137", "title": "Relative change of a covariance sequence", "statement": "frob_difference returns for every date but the first the Frobenius distance from the previous matrix divided by the norm of the previous matrix: not negative, zero exactly where nothing changed, independent of the unit of the returns. After a zero matrix it is nan (zero again) or +inf; an empty dictionary raises ValueError.", "quantifier": "every dictionary of finite matrices", "why_tests_cant": "for all histories", "anchors": ["experiments/extensions/smoothing.ipynb:frob_difference"]}
{"id": "C138", "title": "Generative mode draws from the half-life average of data and samples", "statement": "In the generative mode _ewma_cov yields for every row the half-life weighted average of the outer products up to it, then sample i drawn from a normal distribution whose covariance is the half-life average of the outer products of all rows and of the samples before it, each counted as a further row (with genarative_data: of the rows given before it). These covariances are positive semidefinite. More samples than rows of genarative_data raise IndexError after as many samples as rows; min_periods >= 2 raises ValueError before anything is yielded.", "quantifier": "every table of finite returns, positive half-life, number of samples, sampler", "why_tests_cant": "an invariant over any number of updates", "anchors": ["experiments/extensions/generative_mode.ipynb:_ewma_cov", "experiments/extensions/generative_mode.ipynb:_general"]}
{"id": "C139", "title": "Sampling experiment", "statement": "run_sampling_experiment returns the training table unchanged, followed by the samples at the first test dates in order, sample i drawn from the covariance fitted to the training table and the samples before it; it succeeds exactly if all fits and draws do and there are enough test dates.", "quantifier": "every fit, sampler, table, number of samples", "why_tests_cant": "for all histories", "anchors": ["experiments/extensions/generative_mode.ipynb:run_sampling_experiment"]}
{"id": "C140", "title": "The prescient predictor", "statement": "The dictionary prescient of the experiment notebooks has exactly the dates of the returns as keys. A date whose calendar quarter has at least two rows gets the sample covariance of all rows of the quarter, past and future, plus the outer product of their mean, which is the second moment matrix plus the sample covariance divided by the number of rows, a positive semidefinite matrix; dates of the same quarter get the same matrix. A date alone in its quarter gets a matrix of nans.", "quantifier": "every table of finite returns, every calendar", "why_tests_cant": "for all tables", "anchors": ["experiments/factor_portfolios.ipynb:prescient", "experiments/industry_portfolios.ipynb:prescient", "experiments/extensions/smoothing.ipynb:prescient"]}
{"id": "C141", "title": "How far the prescient predictor is from the best one", "statement": "If the second moment matrix of the rows of a quarter is positive definite (and there are at least two), it alone maximises the zero-mean Gaussian log-likelihood of the quarter among ALL positive definite covariances held over the quarter. The prescient matrix is positive definite and strictly worse unless the sample covariance is zero, in total by at most n N / (2 (N - 1)); so the log-likelihood of the quarter under the prescient matrix minus that under any other positive definite matrix is at least minus that.", "quantifier": "every table of finite returns, date, covariance", "why_tests_cant": "an optimum over a continuum of matrices", "anchors": ["experiments/factor_portfolios.ipynb:prescient", "experiments/factor_portfolios.ipynb:regrets"]}
{"id": "C142", "title": "The prescient predictor with means", "statement": "The variant with means predicts the mean and the unbiased sample covariance of all rows of the quarter. If the latter is positive definite, the mean with (N - 1)/N times it has a larger Gaussian log-likelihood than ALL other means and positive definite covariances; the prediction is short of it by n N / 2 (log(N / (N - 1)) - 1/N), whatever the returns.", "quantifier": "every table of finite returns, date, mean, covariance", "why_tests_cant": "an optimum over a continuum", "anchors": ["experiments/extensions/nonzero_means.ipynb:prescient"]}
{"id": "C143", "title": "Covariances survive being saved and read", "statement": "from_upper_triangular_to_full turns a list of n (n + 1) / 2 numbers, for any n, into the symmetric n x n matrix whose upper triangle, row by row, is the list, and raises ValueError for a list of any other length. from_csv_to_cov after save_cov_to_csv gives back the same dates in the same order with the symmetric matrices that agree with the saved ones on and above the diagonal; nothing saved under another name changes; another number of assets raises ValueError. After any series of calls a name that was never saved raises FileNotFoundError, and otherwise the last save under the name decides.", "quantifier": "all lists, all dictionaries of matrices of any size, all states of the files, all histories of saves", "why_tests_cant": "for all sizes (the size is recovered by a rounded square root)", "anchors": ["experiments/extensions/large_universes.ipynb:save_cov_to_csv", "experiments/extensions/large_universes.ipynb:from_upper_triangular_to_full", "experiments/extensions/large_universes.ipynb:from_csv_to_cov"]}
{"id": "C144", "title": "Full covariances as factor models", "statement": "For a dictionary of symmetric matrices get_choleskys returns two dictionaries with the same dates if all matrices are positive definite, and raises LinAlgError otherwise. For every date F is lower triangular with positive diagonal, d is zero, and F F^T + diag(d) is the covariance.", "quantifier": "every dictionary of symmetric matrices", "why_tests_cant": "for all matrices", "anchors": ["experiments/extensions/large_universes.ipynb:get_choleskys"]}
{"id": "C145", "title": "tune_returns cuts each row at its own quantiles", "statement": "With 0 <= lower <= upper <= 1 every row is cut at its linearly interpolated quantiles of these levels: entries between them keep their values, lower ones become the lower quantile and larger ones the upper; labels and order are kept. Fewer than lower (n - 1) + 1 entries of a row are raised, fewer than (1 - upper)(n - 1) + 1 lowered, and no two assets change their order. Exchanged arguments give the same result, levels outside [0, 1] raise ValueError.", "quantifier": "every table of numbers, all levels", "why_tests_cant": "for all rows of any length", "anchors": ["experiments/industry_portfolios.ipynb:tune_returns"]}
{"id": "C146", "title": "tune_returns does not depend on units, origin or order", "statement": "tune_returns commutes with x -> a x + b (a >= 0), with every reordering of the assets, and - with the levels 1 - upper and 1 - lower - with a change of sign; larger predictions are never tuned to smaller ones; each row is tuned on its own.", "quantifier": "every table, levels, a, b, permutation", "why_tests_cant": "for all rows of any length", "anchors": ["experiments/industry_portfolios.ipynb:tune_returns"]}
{"id": "C147", "title": "tune_returns2 marks the extreme entries of a row", "statement": "tune_returns2 gives 1 to the entries above the 0.9-quantile of their row, -1 to those below the 0.1-quantile and 0 to the others; fewer than (n - 1)/10 + 1 entries are 1, and as few -1; adding a constant to a row does not change the result, so signs of the predictions play no role.", "quantifier": "every table of numbers", "why_tests_cant": "for all rows of any length", "anchors": ["experiments/extensions/nonzero_means.ipynb:tune_returns2"]}
{"id": "C148", "title": "Moving autocorrelations", "statement": "Without missing entries get_moving_autocorrelations is the half-life average of the products over the roots of the half-life averages of the squares: in [-1, 1], nan while all returns or predictions are zero, independent of the units. With the returns of the day before as predictions, as the notebook uses it, it is only bounded by the root of the ratio of the sums of weights of s + 2 and s + 1 rows, which exceeds 1; whenever the second return of an asset is larger in absolute value than the first (not zero) the second value lies outside [-1, 1]. With missing entries every average runs over the entries that are there, weighted by their age in rows; the value is nan until a return and a prediction are there in the same row, and when an average of squares is 0; if they are missing in the same rows it lies in [-1, 1].", "quantifier": "every table of returns, half-life", "why_tests_cant": "Cauchy-Schwarz for all histories", "anchors": ["experiments/industry_portfolios.ipynb:get_moving_autocorrelations"]}
{"id": "C149", "title": "Sign predictions pick the ten largest and the ten smallest", "statement": "With at least twenty columns and entries that are smaller than 1 and not -1, get_sign_prediction turns each row into ones for its ten largest positive entries (all, if fewer), minus ones for its ten smallest negative ones and zeros elsewhere, however np.argsort orders ties. In any case the entries are -1, 0 and 1; fewer than ten columns raise ValueError; ten columns, or twenty and more with all entries above 1, give zeros.", "quantifier": "every table of numbers, every correct argsort", "why_tests_cant": "for all rows and all orders of ties", "anchors": ["experiments/industry_portfolios.ipynb:get_sign_prediction"]}
{"id": "C150", "title": "What CM-IEWMA predicts", "statement": "The CM-IEWMA cell of the notebooks (experts from iterated EWMAs, first one regularised, combined over a window) on returns without missing entries, not all 0 in the first min_periods_vola rows: it predicts once, in order, for every row from min_periods_vola + min_periods_cov - 2 + window on. The prediction for a row is positive definite: the blend, with weights on the simplex, of the iterated EWMA covariances of the returns up to the row (the diagonal of the one labelled like the first pair times 1 + lamda), and these are positive definite; with an exact solver the weights maximise the Gaussian likelihood of the returns of the last window rows, each under the blend of the experts of the row before. With a solver that finds the optimum the cell runs through exactly if all experts are finite and positive definite after the warm-up and no window is degenerate. Otherwise it raises LinAlgError (experts or a window that are not positive definite), the first exception of the solver other than SolverError, or AttributeError if it fails with SolverError only.", "quantifier": "every history of returns, half-lives, minimum numbers of rows, window, lamda, number of assets, solver", "why_tests_cant": "for all histories and all solvers", "anchors": ["experiments/extensions/generative_mode.ipynb:fit_cm_iewma", "experiments/industry_portfolios.ipynb:cm_iewma"]}
{"id": "C151", "title": "CM-IEWMA does not look ahead", "statement": "If the cell runs on a longer history that agrees with a shorter one on the rows of the shorter one (which has room for the whole window), it runs on the shorter one and its predictions are the first predictions of the longer run.", "quantifier": "every pair of histories with a common beginning, every solver", "why_tests_cant": "about pairs of executions", "anchors": ["experiments/extensions/generative_mode.ipynb:fit_cm_iewma"]}
{"id": "C152", "title": "Returns sampled from CM-IEWMA", "statement": "fit_cm_iewma returns a positive definite blend of the experts of the last row, with weights that (exact solver) maximise the likelihood of the last ten returns (fewer if there are fewer after the warm-up). In run_sampling_experiment with it (at least 135 training rows, increasing dates) every sample is drawn from a positive definite covariance, the one fitted to the table before it; and CM-IEWMA run afterwards on the table with any number of samples predicts for the row before each of them exactly the covariance that sample was drawn from.", "quantifier": "every history, sampler, solver and list of test dates", "why_tests_cant": "about all draws, and relates different executions", "anchors": ["experiments/extensions/generative_mode.ipynb:fit_cm_iewma", "experiments/extensions/generative_mode.ipynb:run_sampling_experiment"]}
{"id": "C153", "title": "CM-IEWMA does not depend on units", "statement": "If the returns of each asset are multiplied by a number d_i other than 0 (also negative), the cell succeeds in the same cases (with solvers that find the optimum), for the same dates, and its covariances are multiplied by d_i d_j.", "quantifier": "every history and all factors", "why_tests_cant": "about pairs of executions", "anchors": ["experiments/extensions/generative_mode.ipynb:fit_cm_iewma"]}
{"id": "C154", "title": "Experts from pandas' exponentially weighted covariances", "statement": "For returns without missing entries, the experts of the second README example have an entry for every row from number min_periods (at least the second) on and none before: the unbiased covariance of all rows up to it with weights that halve every half-life. The variance it gives any portfolio is the variance of the returns of the portfolio; it is symmetric and positive semidefinite, positive definite exactly if no portfolio but the empty one has had constant returns so far; adding constants to returns changes nothing, units factor out. So with min_periods at most the number of assets the example raises LinAlgError, whatever the returns. Half-lives that are not positive raise ValueError.", "quantifier": "every history of returns, half-life, min_periods, number of assets", "why_tests_cant": "an invariant of a recursion, for all histories", "anchors": ["README.md:General covariance combination", "cvx/covariance/combination.py:from_sigmas", "tests/test_from_sigmas.py"]}
{"id": "C155", "title": "The second README example", "statement": "The example (any number of half-lives, any min_periods and window) predicts once, in order, for every row from the first with experts plus the window on: the blend, with weights on the simplex, of the exponentially weighted covariances of the row, a positive definite matrix; with an exact solver the weights maximise the likelihood of the returns of the window under the blends of the row before each. It runs through (with a solver that finds the optimum) exactly if no portfolio has constant returns on the rows up to the first expert and no window is degenerate. Later rows never change earlier predictions. Otherwise it raises LinAlgError (experts or a window that are not positive definite), AttributeError if the first failure of the solver is a SolverError, or else the exception of the solver.", "quantifier": "every history of returns, half-lives, min_periods, window, number of assets and experts, solver", "why_tests_cant": "for all histories and all solvers, and about pairs of executions", "anchors": ["README.md:General covariance combination", "cvx/covariance/combination.py:_CovarianceCombination.solve"]}
{"id": "C156", "title": "The second README example does not depend on units", "statement": "If the returns of each asset are multiplied by a number d_i other than 0 (also negative), the example predicts for the same dates (with solvers that find the optimum), and its covariances are multiplied by d_i d_j.", "quantifier": "every history and all factors", "why_tests_cant": "about pairs of executions", "anchors": ["README.md:General covariance combination", "cvx/covariance/combination.py:_CovarianceCombination.solve"]}
{"id": "C157", "title": "Returns of the demo notebook from prices with gaps", "statement": "prices.pct_change().dropna(axis=0, how='all')[columns] on positive prices, some missing: a row for every day but the first on which some asset (also one not selected) had a price before; the return is the last known price over the last known price of the day before, minus one - 0 where the price is missing, missing where there is no earlier price. The returns compound to the prices across gaps, do not depend on currency or size of shares, and later prices never change earlier returns.", "quantifier": "every table of positive prices with any gaps, any columns", "why_tests_cant": "for all histories and patterns of gaps", "anchors": ["book/marimo/demo.py:returns"]}
{"id": "C158", "title": "The table of weights of the demo notebook", "statement": "The demo (any prices, columns, pairs, min_periods, clip bound, mean, window) makes a table with one row for each time of the experts from the window on, in order, and one column for each label: weights that are nonnegative with sum 1 and, with an exact solver, the unique maximizers of the likelihood of the window; no return of a window is missing. The table does not depend on currency or size of shares; with later prices it only gets more rows. Otherwise it raises what from_ewmas raises, LinAlgError (a missing return in a window, or a window without a unique optimum), AttributeError if the first failure of the solver is a SolverError, or else the exception of the solver.", "quantifier": "every table of positive prices with any gaps, all arguments, every solver with feasible weights", "why_tests_cant": "for all histories and solvers, and about pairs of executions", "anchors": ["book/marimo/demo.py:weights", "cvx/covariance/combination.py:from_ewmas"]}
{"id": "C159", "title": "The portfolio problems have a solution", "statement": "For a positive definite covariance, min_risk, vol_cont and robust_min_risk have exactly one solution if any portfolio is within the limits (with the standard ones: if there are at least seven assets), max_diverse exactly one if the upper bound times the number of assets is at least one, risk_parity always exactly one; mean_variance has a solution exactly if a portfolio with cash is within its limits, i.e. for limits that allow not to invest, exactly if the volatility target is not negative.", "quantifier": "every positive definite covariance, number of assets, limits", "why_tests_cant": "existence and uniqueness in a continuum", "anchors": ["experiments/utils/trading_model.py:Trader.backtest"]}
{"id": "C160", "title": "When a backtest goes through", "statement": "With symmetric predictions and a solver that solves every solvable problem exactly, a backtest of EqWeighted, MinRisk, MaxDiverse or RiskParity goes through exactly if there is a trading day, every predictor has a name and a positive definite prediction for every trading day, and the limits leave room for a portfolio; MeanVariance (limits that allow not to invest) exactly if besides there are expected returns (and uncertainties, if given) for every trading day and the target is not negative.", "quantifier": "every history, list of predictors, strategy, limits", "why_tests_cant": "for all histories and predictors", "anchors": ["experiments/utils/portfolio_backtests.py:MinRisk.backtest", "experiments/utils/portfolio_backtests.py:RiskParity.backtest", "experiments/utils/trading_model.py:Trader.backtest"]}
{"id": "C161", "title": "Weights do not depend on the units of the predictions or the solver", "statement": "If every predicted matrix is multiplied by a positive number (another one for every predictor and date; variances per year instead of per day), backtests of EqWeighted, MinRisk, MaxDiverse and RiskParity give the same dates, weights and returns, with any exact solvers, and go through in the same cases (with solvers that solve every solvable problem).", "quantifier": "every pair of backtests that differ by positive factors only, all factors", "why_tests_cant": "about pairs of executions", "anchors": ["experiments/utils/portfolio_backtests.py:MinRisk.backtest", "experiments/utils/trading_model.py:Trader.backtest"]}
{"id": "C162", "title": "The order of the assets does not matter to a backtest", "statement": "If the columns of the returns and the rows and columns of the predictions are reordered, the weights of EqWeighted, MinRisk, MaxDiverse and RiskParity are reordered alike, dates and portfolio returns stay the same, and the backtest goes through in the same cases.", "quantifier": "every backtest and permutation of the assets", "why_tests_cant": "about pairs of executions", "anchors": ["experiments/utils/portfolio_backtests.py:MinRisk.backtest", "experiments/utils/trading_model.py:Trader.backtest"]}
{"id": "C163", "title": "The tables of the experiment notebooks", "statement": "In the tables with a volatility target, on every trading day the portfolio gets the share of the money that makes its predicted annual volatility the target, the rest is cash; the assets earn the returns of the row after the day, cash earns the risk-free rate of the day itself. Reported are 252 times the mean of the returns in excess of that rate, sqrt(252) times the standard deviation of the returns (not of the excess returns), the quotient and the drawdown, in the order of the names. MeanVariance alike with its own cash. If the backtest goes through, so does the table if the risk-free series is taken by the dates of the trader; if the series itself is given, exactly if no return between start and end is missing (else ValueError).", "quantifier": "every history of returns and risk-free rates, list of predictors, start and end, strategy, target other than 0, exact solver", "why_tests_cant": "for all histories and predictors", "anchors": ["experiments/industry_portfolios.ipynb:217-224", "experiments/industry_portfolios.ipynb:627-629", "experiments/utils/portfolio_backtests.py:create_table", "experiments/utils/trading_model.py:Trader.get_metrics"]}
{"id": "C164", "title": "From returns to a portfolio: no look-ahead", "statement": "Fitting CM-IEWMA to a table of returns and running EqWeighted, MinRisk, MaxDiverse or RiskParity on its predictions (start not before the first prediction): every row from the start to the one before the end is a trading day; the weights of day t are the ones the strategy is meant to hold (least predicted risk within the limits, and so on) under a positive definite covariance, the one that fitting on the rows up to t alone gives; they earn the returns of row t+1. Two tables of any lengths that agree up to row t give the same weights at t, whatever the solvers. It goes through exactly if the fit does and the limits leave room for a portfolio (solvers that find the optimum).", "quantifier": "every complete table of returns, pairs of half-lives, min_periods, window, start and end, strategy, limits", "why_tests_cant": "for all histories, and about pairs of executions", "anchors": ["experiments/industry_portfolios.ipynb:162-174", "experiments/utils/portfolio_backtests.py:MinRisk.backtest", "cvx/covariance/combination.py:from_sigmas"]}
{"id": "C165", "title": "From returns to a portfolio: units do not matter", "statement": "If all the returns are multiplied by a number k other than 0, fit and backtest (as before) go through too, with the same dates and weights, and the returns of the portfolio are multiplied by k; with a volatility target and no interest not even the returns change (k positive).", "quantifier": "every complete table of returns and factor, all arguments, solvers that find the optimum", "why_tests_cant": "about pairs of executions", "anchors": ["experiments/industry_portfolios.ipynb:162-174", "experiments/utils/portfolio_backtests.py:MinRisk.backtest", "experiments/utils/trading_model.py:Trader.dilute_with_cash"]}
{"id": "C166", "title": "Log-likelihoods and regrets of the experiment notebooks", "statement": "The log-likelihood cell scores the matrix predicted at each date on the return of the next date of the predictor, with the zero-mean Gaussian log-density, under that next date; nan matrices give nan, a date without a return raises KeyError, a singular matrix (but the last) LinAlgError, an empty predictor ValueError. The regret is the entry of PRESCIENT minus that of the predictor (KeyError without PRESCIENT). Quarterly means have one entry for every calendar quarter from the first to the last date: the mean over the dates in it, nan if there are none. 'A is better than B x of the time' is the share of the quarters in which A has a higher log-likelihood than B, whatever PRESCIENT is. The table has a row for each predictor but PRESCIENT with mean, population standard deviation and maximum of the quarterly means. Multiplying the returns of each asset by d_i other than 0 and the covariances by d_i d_j does not change the regrets.", "quantifier": "every table of returns without gaps, list of predictors on common dates, calendar", "why_tests_cant": "for all histories and predictors, and about pairs of executions", "anchors": ["experiments/industry_portfolios.ipynb:368-380", "experiments/industry_portfolios.ipynb:498-522", "experiments/industry_portfolios.ipynb:593-609", "experiments/utils/experiment_utils.py:log_likelihood"]}
{"id": "C167", "title": "The regret against PRESCIENT is one row late and not bounded below", "statement": "In the scores of PRESCIENT the first row of a quarter is scored with the matrix of the quarter before, only the other rows with that of their own quarter. So the bound of C141 for the regret of a constant prediction over a quarter holds up to the difference of those two scores of the first row only, and for every bound there are returns and a constant positive definite prediction with a mean quarterly regret below minus the bound.", "quantifier": "every table of returns without gaps and calendar; every bound", "why_tests_cant": "for all histories; existence for every bound", "anchors": ["experiments/industry_portfolios.ipynb:183-190", "experiments/industry_portfolios.ipynb:368-380"]}
{"id": "C168", "title": "CM-REWMA: combination of realized covariances", "statement": "From intraday returns (in chronological order, at least two rows per day, no gaps) the CM-REWMA cell predicts for every day from the second plus the window on: the average of the daily scatter matrices of the intraday returns up to the day, with weights that halve every half-life, one per half-life, blended with weights on the simplex that (exact solver) maximise the likelihood of the last daily returns under the blends of the day before each; positive definite. No look-ahead. It goes through exactly if no nonempty portfolio has the same return in all rows of the day on each of the first two days, and no window is degenerate; too few rows on the first two days: LinAlgError; a day with a single row: TypeError; no rows: IndexError.", "quantifier": "every table of intraday returns, half-lives, window, solver", "why_tests_cant": "for all histories, and about pairs of executions", "anchors": ["experiments/extensions/realized_covariance.ipynb:91-99", "experiments/utils/experiment_utils.py:realized_ewma", "cvx/covariance/combination.py:from_sigmas"]}
{"id": "C169", "title": "Daily from intraday returns", "statement": "The daily returns are the compounded returns of the rows of each day, every day once, in chronological order; the growth of each asset over all days is that over all rows, in whatever order they come. The order of the rows within the days makes no difference to the predictions of CM-REWMA (or its exception).", "quantifier": "every table of intraday returns", "why_tests_cant": "for all histories, and about pairs of executions", "anchors": ["experiments/extensions/realized_covariance.ipynb:55"]}
{"id": "C170", "title": "CM-IEWMA with means", "statement": "The cells that combine iterated EWMAs with means give three tables with the same dates: every row from the first one with predictions of the experts plus the window on, in order. The weights are on the simplex and, with an exact solver, maximize the likelihood of the returns of the window under the blends of the experts' means and covariances of the row before each; covariance (positive definite) and mean are those blends for the row itself. They use no later return: a shorter table of returns gives the first rows of the tables. With a solver that finds the optimum, the cell goes through exactly if the experts are finite and positive definite and no window is degenerate; otherwise it raises LinAlgError (or what the solver raises; AttributeError for a solver failure). Too short a list of half-lives raises IndexError, no experts KeyError.", "quantifier": "every complete table of returns, lists of half-lives, min_periods, window, number of experts, solver", "why_tests_cant": "for all histories and solvers, and about pairs of executions", "anchors": ["experiments/extensions/nonzero_means.ipynb:107-119", "experiments/extensions/nonzero_means.ipynb:971-988", "cvx/covariance/ewma.py:iterated_ewma", "cvx/covariance/combination.py:from_sigmas"]}
{"id": "C171", "title": "CM-IEWMA with means: shifts and units", "statement": "If a constant vector is added to all the returns, CM-IEWMA with means goes through in the same cases, with the same dates, weights and covariances, and means higher by that vector (any solver). If the returns of asset i are multiplied by d_i other than 0, dates and weights stay the same, covariances are multiplied by d_i d_j and means by d_i (solvers that find the optimum).", "quantifier": "every complete table of returns, vector, factors, all arguments", "why_tests_cant": "about pairs of executions", "anchors": ["experiments/extensions/nonzero_means.ipynb:971-988", "cvx/covariance/ewma.py:iterated_ewma", "cvx/covariance/combination.py:from_sigmas"]}
{"id": "C172", "title": "Bands of forecasts", "statement": "The cells that build expected returns with uncertainties: with the range band the forecast of every row and asset is the mean of the EWMAs with the given half-lives, its uncertainty half the difference of the largest and smallest. No centre has all the averages within less than that; they lie within 2(K-1)/K times the uncertainty of the forecast (4/3 for three), within the uncertainty itself exactly if their mean is midway between the largest and smallest; so with the half-lives 125, 250, 500 of the notebook one of the averages lies outside the band in row 2 whenever the first two returns differ. With the other band (clipped averages) the uncertainty is the largest distance of the averages from the base one, so the objective of mean_variance is at most the return that any of the averages predicts for the same weights; for the range band of three averages this holds with 4/3 of the uncertainties. No later return is used; multiplying the returns of asset i by d_i and adding m_i gives d_i times the forecasts plus m_i and |d_i| times the uncertainties (range band). No half-life or one that is not positive raises ValueError.", "quantifier": "every table of returns without gaps, list of half-lives, clipping levels, weights", "why_tests_cant": "for all histories, and about pairs of executions", "anchors": ["experiments/industry_portfolios.ipynb:1230-1240", "experiments/industry_portfolios.ipynb:1258-1278", "experiments/utils/trading_model.py:mean_variance"]}
{"id": "C173", "title": "Yearly weights of the experts and effective half-life", "statement": "The cells that show the weights by year: the dictionary has an entry, on the simplex, for every date with a result. The table has a row for every calendar year from the first to the last of these dates whose last day lies between start and end (so the year of the end only if the end is its last day): the average of the weights over the dates of the year, again on the simplex, nan if there are none. The effective half-life of a year is the average over its dates of the weighted half-lives, so between the least and the greatest half-life, but 0 for a year without dates, and these zeros count in the mean half-life. Not one half-life per expert: ValueError; no weights at all: TypeError.", "quantifier": "every combination of experts, solver, calendar, start and end, half-lives", "why_tests_cant": "for all histories, solvers and calendars", "anchors": ["experiments/industry_portfolios.ipynb:174", "experiments/industry_portfolios.ipynb:251", "experiments/industry_portfolios.ipynb:275-277", "cvx/covariance/combination.py:_CovarianceCombination.solve"]}
{"id": "C174", "title": "The order of the rows", "statement": "Rows in increasing order of the index: iterated_ewma goes through them one by one. In any other order (distinct labels) the volatilities and means of the returns are still formed in the order of the rows, but with min_periods_vola above 1 the division by the volatilities sorts the rows by label, so the covariances are formed and the results come in the order of the index. Newest row first this means: the results come oldest first, and every result depends on the newest return (without clip_at and mean, the volatility of an asset changes at every date if the size of its newest return changes). With min_periods_vola at most 1 nothing is sorted.", "quantifier": "every frame of finite returns or (nan_to_num) with NaN, every order of the rows, all positive half-lives, all other parameters", "why_tests_cant": "for all histories and orders, and about pairs of executions", "anchors": ["cvx/covariance/ewma.py:iterated_ewma", "cvx/covariance/ewma.py:volatility", "cvx/covariance/ewma.py:center"]}
{"id": "C175", "title": "Random returns: what the EWMA estimates", "statement": "If the returns are random (any joint distribution with finite moments), the expected mean estimate is the weighted average of the expected returns (unbiased if they are constant), and the expected value of every entry of an exponentially weighted second-moment matrix is the weighted average of the expected products of the returns; if these are the same in all rows, the estimate is unbiased whatever the half-life and the row. The expected square of a volatility is the weighted average of the expected squared returns, and its expected value is at most the root of that. If the products are uncorrelated over time with variance v, the estimate has variance v divided by the effective number of observations, which is 1 in the first row, grows with every row, is at most the number of rows and has the limit (1+b)/(1-b), b = 2^(-1/halflife): the estimate does not become arbitrarily precise.", "quantifier": "every probability space and random table of returns with finite moments, every positive half-life, min_periods, row and pair of assets", "why_tests_cant": "about expectations over all outcomes", "anchors": ["cvx/covariance/ewma.py:_ewma_cov", "cvx/covariance/ewma.py:volatility", "cvx/covariance/ewma.py:_ewma_mean"]}
{"id": "C176", "title": "The scores are proper", "statement": "For a random return with any distribution with finite second moments: the expected log-likelihood of a predicted positive definite matrix (with a given mean) is highest for the true second moments about that mean and for no other matrix; over all pairs of mean and positive definite matrix it is highest for the true mean and the true covariance and for no other pair. The expected MSE of a predicted matrix is that of the true second moments plus the squared Frobenius distance to them. So in expectation no other prediction can beat the truth, for non-Gaussian returns too.", "quantifier": "every probability space and random return with finite moments, every predicted mean and matrix, every scale", "why_tests_cant": "about expectations over all outcomes", "anchors": ["experiments/utils/experiment_utils.py:log_likelihood", "experiments/utils/experiment_utils.py:MSE"]}
{"id": "C177", "title": "What a correct prediction buys", "statement": "The variance of the return of a portfolio is the quadratic form of the true covariance matrix. If on a trading day the covariance of the (random) next returns is the predicted one, MinRisk holds the portfolio of least variance within the limits; if the predicted variance of every portfolio is between lo and hi times the true one, its variance is at most hi/lo times the least. If also the mean is the predicted one, MeanVariance (without uncertainties) has an annualised volatility of at most the target and the highest expected return of all portfolios within limits and target. With dilution by cash the annualised standard deviation of each row's return is the target times the ratio of true to predicted standard deviation, so exactly the target if the prediction is correct.", "quantifier": "every backtest with an exact solver, trading day, distribution of the next returns with finite second moments, competing portfolio", "why_tests_cant": "about expectations over all outcomes and all competing portfolios", "anchors": ["experiments/utils/trading_model.py:backtest", "experiments/utils/trading_model.py:dilute_with_cash", "experiments/utils/portfolio_backtests.py:MinRisk", "experiments/utils/portfolio_backtests.py:MeanVariance"]}
{"id": "C178", "title": "Backtests on random histories", "statement": "Let the table of returns be random (finitely many outcomes) and the predictors causal. If after every row the expected returns of the next row are zero whatever the history, the expected return of every row of every backtest is zero (cash earning nothing), and so is the expected value of the mean return it reports: no strategy, predictor, limit or solver makes money on average. If after every row the predicted matrix is that of the second moments of the next returns, the expected squared return of MinRisk is in every row at most that of any other way to choose portfolios within the limits from the history, and after dilution with cash the expected squared return is the target squared over 252.", "quantifier": "every finite probability space of histories, list of causal predictors, strategy, solver, row", "why_tests_cant": "about all histories and all competing strategies at once", "anchors": ["experiments/utils/portfolio_backtests.py:backtest", "experiments/utils/trading_model.py:get_total_returns", "experiments/utils/trading_model.py:dilute_with_cash"]}
{"id": "C179", "title": "The MGARCH predictors", "statement": "The cells that read the predictors computed in R: with one packed row of n (n + 1) / 2 numbers per day from the 250th day of the returns on, the table has one symmetric matrix per row of the files, keyed in order by the days from the 250th on, and ten thousand times its upper triangle is the row; if the rows are the packed covariances of a hundred times the returns, the table holds the covariances of the returns, exactly. How the rows are spread over files does not matter. No file or a row of another length (other than one) raise ValueError, more rows than days IndexError.", "quantifier": "every list of files, index of distinct labels, number of assets", "why_tests_cant": "for all contents of the files and all indexes", "anchors": ["experiments/industry_portfolios.ipynb:139-152", "experiments/factor_portfolios.ipynb:140-148", "experiments/stock_portfolios.ipynb:138-146", "experiments/utils/experiment_utils.py:from_row_matrix_to_covariance"]}
{"id": "C180", "title": "Trading in percent", "statement": "A trader with its returns multiplied by c > 0, the covariances by c^2 and the adjust factor by c: with the target and the risk-free rates multiplied by c, get_total_returns leaves the same weights and c times the returns and get_metrics the same four numbers, or both raise the same exception. With excess=True, where the rates must be fractions, the cash of a diluted portfolio earns c times too little: the mean excess return is lower by exactly 252 (1 - 1/c) times the mean interest on the cash, and the risk is that of the returns in the new units. With a target multiplied by k instead of c the predicted volatility is k / c times the target.", "quantifier": "every trader, c > 0, target, risk-free rates", "why_tests_cant": "about pairs of executions, for all histories", "anchors": ["experiments/utils/trading_model.py:get_total_returns", "experiments/utils/trading_model.py:get_metrics", "experiments/utils/trading_model.py:dilute_with_cash", "experiments/extensions/large_universes.ipynb:541-546", "experiments/extensions/large_universes.ipynb:623-627"]}
{"id": "C181", "title": "Generators are lazy and independent", "statement": "Calling solve does nothing. What a generator returns depends only on the calls of next on it and on the changes of its data, not on other calls of solve or what is done with other generators. Whatever the caller does in between (further calls of solve, next on any of the generators in any order, changes of the frame of returns, of the list times, of the keys of the dictionary of covariances as long as their number stays the same), the k-th next of a generator returns the k-th item of solve() exhausted at once on the returns and times as they are at its first next, then raises its exception, if any, once, then StopIteration. The weights are labelled with the keys the dictionary has at that next, in the order of that moment. With more keys than the constructor has seen the first next raises IndexError instead of returning a result, with fewer ValueError; later ones ValueError in both cases. iterated_ewma yields the results for the frame as it is at the first next, whatever is done to the frame before or later.", "quantifier": "every sequence of operations (schedule) on one object with any number of generators, every solver, window, times, data", "why_tests_cant": "for all schedules and histories of changes", "anchors": ["cvx/covariance/combination.py:solve", "cvx/covariance/combination.py:_CombinationProblem", "cvx/covariance/combination.py:_CovarianceCombination", "cvx/covariance/ewma.py:iterated_ewma"]}
{"id": "C182", "title": "The vectorised iterated_ewma of the experiments never returns", "statement": "Every call of experiments/utils/iterated_ewma_vec.iterated_ewma with a frame of numbers raises TypeError and returns nothing, whatever the frame (also an empty one), half-lives, warm-ups, mean, low_rank and clip_at are: it takes the square root of what ewma returns, and ewma is a generator function, whose call gives a generator and runs none of its code. The cause is that call alone: with a function ewma that returns arrays the code goes on, with the square roots of what that function makes of the squared returns.", "quantifier": "all frames of finite numbers (any number of rows and columns), all half-lives, warm-ups, values of mean and clip_at, all continuations after the first use of ewma", "why_tests_cant": "A test shows one call that raises. That no arguments and no data, empty frames included, get past that line is a statement about every call.", "anchors": ["experiments/utils/iterated_ewma_vec.py: iterated_ewma, ewma"]}
{"id": "C183", "title": "The table of quarterly mean squared errors", "statement": "The cell that compares the predictors by MSE prints for each of them, in order, the mean, the sample standard deviation and the maximum of the quarterly errors. The error of a quarter is the mean of the squared Frobenius distances between the matrices predicted at the dates of the quarter and the outer products of the returns of the rows after them; a prediction without a next row, or whose next row has a missing entry, is left out, and so is a quarter without any other prediction. One quarter gives nan as standard deviation, none nan for all three. (The table of regrets of the same notebooks divides by the number of quarters instead and books a prediction in the quarter of the return.) The cell stops at the first predictor that raises: TypeError if it is empty, KeyError for a date the returns do not have, IndexError without a name. Multiplying the returns by k and the covariances by k^2 multiplies all three numbers by k^4; the order of the assets does not matter.", "quantifier": "all tables of returns with dates in order and missing entries, all lists of predictors on dates of the table, calendars, names, all factors and permutations", "why_tests_cant": "A test compares printed numbers for one data set. Which predictions enter which quarter, that missing returns drop out and what a change of units does hold for every table.", "anchors": ["experiments/industry_portfolios.ipynb: cell at line 332", "experiments/stock_portfolios.ipynb: cell at line 321", "experiments/factor_portfolios.ipynb: cell at line 345", "experiments/extensions/realized_covariance.ipynb: cell at line 236", "experiments/utils/experiment_utils.py: MSE"]}
{"id": "C184", "title": "Daily returns compounded to yearly ones", "statement": "The cell that compounds daily returns (and the risk-free rate) gives one row per calendar year, from the first to the last year of the table, in order. One plus the entry of a year is the product of one plus the returns of that year: missing returns count as zero, and a year without any row or return gives exactly 0, not nan. The product over the years is the product over all days, so a dollar ends at the same value. Daily returns above -100% give yearly ones above -100%, with logarithms that add up; the result is at most exp of the sum of the returns minus one, and at least the sum if none is negative.", "quantifier": "all tables of returns with missing entries, all assignments of years to the rows, all assets", "why_tests_cant": "A test compounds one table. That nothing is lost or counted twice whatever the years, gaps and missing entries is a statement about all tables.", "anchors": ["experiments/extensions/nonzero_means.ipynb: cell at line 907"]}
{"id": "C185", "title": "The frame of portfolio values mixes up the traders", "statement": "The frame all_Vs of six traders with T values each has T rows, but it is made by reshape(-1,6) of the traders' histories and not by a transpose: counted row by row, cell c holds the value of trader c // T at time c % T. All values are there once, but the columns are not the histories of the traders they are named after: from T = 2 on the second cell of the first row is the second value of the first trader, and from T = 6 on the first row is all his; only T = 1 is right. Histories of different lengths, another number of names than six and a number of values not divisible by six raise ValueError, nothing else does.", "quantifier": "all numbers of days, all histories of portfolio values, all lists of names", "why_tests_cant": "The shape of the frame is right for every T, so a test of the shape passes; which value is in which cell is a statement about all lengths and histories.", "anchors": ["experiments/extensions/nonzero_means.ipynb: cell at line 749"]}
{"id": "C186", "title": "How often and how far smoothed covariances move", "statement": "For a sequence of T + 1 positive semidefinite matrices smoothed with L1_smoothing the list called mean_days_between_updates holds the share of the T days on which the smoothed matrix changes, and mean_updates_every its reciprocal, the days per change: inf if it never changes, nan if T = 0 (the two names are swapped). The smoothed sequence covers at most the distance of the unsmoothed one over any stretch of days, and does not move at all if this one stays within lamda of its start. Two sequences of inputs give outputs that differ, at any time, by at most the sum of the differences up to then. Multiplying the matrices and lamda by k > 0 multiplies the result by k and leaves the updates as they are. The normalised average regrets are the averages divided by the one of 'No smoothing', which gets 1; a series without any value gets nan, and if 'No smoothing' is one all do; without a series of that name the cell raises KeyError.", "quantifier": "all sequences of positive semidefinite matrices, all lamda >= 0, k > 0, all exact solvers; all dictionaries of regrets with missing values", "why_tests_cant": "A test runs one sequence with one lamda; the bounds on movement, the continuity in the data and the change of units concern all of them.", "anchors": ["experiments/extensions/smoothing.ipynb: L1_smoothing, get_next", "experiments/extensions/smoothing.ipynb: cells at lines 248, 736"]}
{"id": "C187", "title": "Rounding errors of the EWMAs do not accumulate", "statement": "In an arithmetic whose operations have relative error u and absolute error eta, with u + eta small enough for the half-life h (1/(15000 h^2) is, for h >= 1) and the largest number large enough for the data, the EWMA mean, second moment matrix, variance and volatility of a finite table with entries at most M in size are computed without overflow or NaN, for the same rows as in exact arithmetic. Every mean differs from the exact half-life weighted average by at most K ((u + eta) M + eta), every second moment and variance by at most 3 K ((u + eta) M^2 + eta), where K depends on h only (at most 9000 h^2 for h >= 1), not on the number of rows. Where from row min_periods - 1 on the variance exceeds its bound, the volatility differs from the exact one by at most that bound divided by the volatility, plus 2 u times the volatility, plus eta.", "quantifier": "all arithmetics with such errors (in particular p bits rounded to nearest), all tables of any length and width, all half-lives, min_periods, rows, assets", "why_tests_cant": "a test compares a few hundred rows with a tolerance; that the error stays bounded over histories of any length, for any data and any way of rounding, is not observable", "anchors": ["cvx/covariance/ewma.py:_general", "cvx/covariance/ewma.py:_ewma_mean", "cvx/covariance/ewma.py:_ewma_cov", "cvx/covariance/ewma.py:_variance", "cvx/covariance/ewma.py:volatility"]}
{"id": "C188", "title": "iterated_ewma is stable under rounding, for histories of any length", "statement": "For given half-lives, a bound on the returns and positive lower bounds on the volatilities (from row min_periods_vola - 1 on) and on the second moments of the volatility-adjusted returns there are constants K, u0, B such that in every arithmetic with relative error u and absolute error eta, u + eta <= u0, and largest number at least B, iterated_ewma without clipping yields results for exactly the same rows as in exact arithmetic, all of them finite numbers, and every mean, volatility and covariance differs from the exact one by at most K (u + eta). K, u0 and B do not depend on the number of rows or assets, the returns, min_periods, or the arithmetic; with mean=True as well as with mean=False.", "quantifier": "all arithmetics with such errors, all finite tables of any length and width within the bounds, all half-lives, min_periods, mean", "why_tests_cant": "a test compares two runs on one table; that errors do not grow with the length of the history concerns all tables and all ways of rounding", "anchors": ["cvx/covariance/ewma.py:iterated_ewma", "cvx/covariance/ewma.py:_general", "cvx/covariance/ewma.py:center", "cvx/covariance/ewma.py:volatility"]}
{"id": "C189", "title": "What the volatility remembers, with and without winsorisation", "statement": "Take two histories of complete returns for which volatility(returns, halflife, min_periods, clip_at) is run with the same positive half-life, min_periods and nonzero clip_at (rows below: rows of the result). (a) If on every row up to t the returns of an asset are at least as large in absolute value in the second history, so is its volatility at t (winsorised or not). (b) If the histories of an asset agree after row s and its volatility at s is at most l >= 1 times as large in the second, it is at most l times as large at every later row. (c) Without clip_at, if the histories agree after row s, the difference of the squared volatilities has shrunk at row t at least by the factor 2^(-(t-s)/halflife). (d) With clip_at > 1 nothing of the kind holds: for every half-life, min_periods and factor l > 0 there are two bounded histories which agree after row max(0, min_periods) and whose volatilities stay between positive bounds while the second is exactly l times the first on every row, however long the history: the first returns may influence the winsorised volatility for ever.", "quantifier": "all return histories of any length, half-lives, min_periods, clip_at, assets and rows; (d): all l and all lengths", "why_tests_cant": "a test sees finitely many rows of one history; (c) and (d) are about all later rows, and (d) needs a history built for the purpose", "anchors": ["cvx/covariance/ewma.py: volatility, _variance, _general"]}
{"id": "C190", "title": "Adding and leaving out experts", "statement": "Let the same problem be combined with all experts and with some of them (exact solver, same window). If solve goes through with all experts it goes through with some of them, with results for the same times. At every time the window likelihood with all experts is at least the one with some; it is larger by at most d if the marginal score (C127) of no left-out expert exceeds the average of the others by more than d; for d = 0 both results have the same mean and covariance and the left-out experts get weight zero. Conversely experts that get weight zero at a time can be left out without changing the mean, the covariance or the other weights of that time.", "quantifier": "all panels, subsets of experts, windows, requests, times", "why_tests_cant": "a statement about two runs and all subsets of experts; a test compares a few", "anchors": ["cvx/covariance/combination.py: from_sigmas, _CovarianceCombination.solve, _CombinationProblem"]}
{"id": "C191", "title": "iterated_ewma is well conditioned without the mean, not with it", "statement": "Let every return be changed by a factor between 1/rho and rho (rho >= 1; different factors for different returns). With mean=False, whatever the half-lives, min_periods and clip_at, iterated_ewma gives results for the same times (or raises IndexError for both); every volatility changes at most by the factor rho, every correlation by at most rho^8 - 1, every covariance by at most (rho^10 - 1) times the product of the two volatilities, and a covariance is nan for one exactly if it is for the other; the bounds do not depend on the length of the history. With mean=True there is no such bound: for every rho > 1 and M there are two-row histories, one return changed by a factor rho, for which the volatility changes by more than the factor M.", "quantifier": "all pairs of histories of any length within the factor, all parameters with mean=False; the negative part: all half-lives, rho, M", "why_tests_cant": "a statement about pairs of histories and worst cases over all perturbations and lengths", "anchors": ["cvx/covariance/ewma.py: iterated_ewma, volatility, clip, center, _general"]}
{"id": "C192", "title": "The combination depends continuously on its data", "statement": "The results of solve depend continuously on the covariances, the means and the returns: for given data and every e > 0 there is d > 0 such that for all data entrywise within d of the given ones (a) from_sigmas accepts them, even if the nearby covariances are not exactly symmetric; (b) every request that succeeds with the given data succeeds with the nearby data and yields the same number of items for the same times; (c) every weight, mean and covariance entry differs by less than e; (d) (c) still holds if the nearby problem is only solved to tolerance d. One d serves all requests with the same window.", "quantifier": "All panels of positive definite covariances, windows, requests that succeed, e > 0, all nearby data and all exact (in (d): almost exact) solvers.", "why_tests_cant": "A test can perturb one data set by a few amounts; that no arbitrarily small perturbation makes the weights jump is a statement about all perturbations of all data, and rests on the uniqueness of the optimum.", "anchors": ["cvx/covariance/combination.py:from_sigmas", "cvx/covariance/combination.py:_CovarianceCombination.solve", "cvx/covariance/combination.py:_CombinationProblem"]}
{"id": "C193", "title": "The whole method with experts computed with rounding", "statement": "Let from_ewmas succeed on complete returns in exact arithmetic (no clipping, every volatility in use positive). For every window and e > 0 there are an accuracy and a largest number such that in every arithmetic that rounds at least as accurately and does not overflow below that number, however it rounds, every expert's iterated_ewma succeeds with finite numbers only and for the same times; from_sigmas accepts these rounded means and covariances; and every request for which solve succeeds on the exact experts succeeds on the rounded ones, with items for the same times and every weight (same labels), mean and covariance entry within e. (The combination stage itself is exact here; for its tolerance see C128 and C192.)", "quantifier": "all complete return tables with increasing times, pair lists, min_periods, mean on or off, windows, requests that succeed, e > 0, all arithmetics at least as accurate", "why_tests_cant": "a statement about every sufficiently accurate arithmetic: that rounding cannot make an expert unusable or the weights jump; a test sees one arithmetic on one table", "anchors": ["cvx/covariance/combination.py:from_ewmas", "cvx/covariance/combination.py:from_sigmas", "cvx/covariance/combination.py:_CovarianceCombination.solve", "cvx/covariance/ewma.py:iterated_ewma"]}
{"id": "C194", "title": "The whole method depends continuously on the returns", "statement": "(a) Let iterated_ewma yield covariances that are numbers, every volatility in use (rows from min_periods_vola - 1 on) being positive; missing entries, clip_at and mean are allowed. For every e > 0 there is d > 0 such that for every table with the same times and missing entries whose other entries differ by at most d, iterated_ewma yields results for the same times with every mean, covariance and volatility within e. (b) Let from_ewmas succeed under the same condition on the volatilities of all pairs. For every window and e > 0 there is d > 0 such that for all such nearby tables from_ewmas succeeds with the same labels, and every request of solve that succeeds with the given table succeeds with the other one, with items for the same times and every weight, mean and covariance within e. (c) The condition on the volatilities cannot be dropped: for all half-lives and clip_at there is a table for which iterated_ewma yields one result while for tables arbitrarily close to it it yields two.", "quantifier": "all tables with increasing times, missing entries, half-lives, min_periods, clip_at, mean, pair lists, windows, requests that succeed, e > 0, all nearby tables; (c) all half-lives and clip_at", "why_tests_cant": "a test can perturb one table by a few amounts; that no arbitrarily small revision of the data makes the predictions jump concerns all perturbations of all tables", "anchors": ["cvx/covariance/combination.py:from_ewmas", "cvx/covariance/combination.py:_CovarianceCombination.solve", "cvx/covariance/ewma.py:iterated_ewma", "cvx/covariance/ewma.py:volatility", "cvx/covariance/ewma.py:clip"]}
{"id": "C195", "title": "How far revised returns move the weights", "statement": "Let two combination problems have the same times and expert covariances, while returns and predicted means may differ (revised data), and let exact solvers yield results with weights w and w' at the same time. With G, G' the Gram matrices of the standardised returns over the window, (a) (w' - w)^T G (w' - w) <= (w' - w)^T (G - G') w'; hence if no entry of the Gram matrix changes by more than eta, sum_k |w'_k - w_k| <= eta (sum_k sqrt((G^-1)_kk))^2. (b) If the data differ only in the return (or the predicted mean) of one date, whose squared standardised length (r - m)^T S^-1 (r - m) is at most M for every expert before and after, and v^T G v >= lam * window * |v|^2 for all v, the weights change by at most 2 M K^2 / (lam * window) in total: one return has an influence of order 1/window.", "quantifier": "all pairs of problems with the same times and covariances, windows, requests, results at a common time, exact solvers, all eta, M, lam", "why_tests_cant": "an upper bound on the worst case over all revisions of all data sets and all window lengths; a test sees single revisions", "anchors": ["cvx/covariance/combination.py:from_sigmas", "cvx/covariance/combination.py:_CovarianceCombination.solve", "cvx/covariance/combination.py:_CombinationProblem"]}
{"id": "C196", "title": "The combination learns the best blend", "statement": "Let K experts predict fixed covariances S_k (positive definite) and means mu_k, and let the returns be independent and identically distributed with finite second moments, such that no non-trivial combination of the experts' standardised returns vanishes almost surely. (a) Exactly one vector w of weights on the simplex maximises the expected log-likelihood of the blend, and with probability one solve() on the first N returns (window=None, exact solver) yields exactly one result for all large N, at the last time, whose weights, covariance and mean tend to w, the blended covariance and the blended mean as N grows. (b) If some blend has the true mean and the true covariance, w is that blend: the truth is found if it can be expressed, and if one expert is right its weight tends to one. (c) If all experts share one mean m (0 without means), right or wrong, and some blend equals the true second moments about m, w is that blend. The returns need not be normally distributed.", "quantifier": "all fixed experts, all distributions of the returns with finite second moments that tell the experts apart, almost every history, exact and complete solvers, every e > 0", "why_tests_cant": "a limit over histories of any length and a statement about almost every history under every distribution; a simulation sees finitely many finite histories of a few distributions", "anchors": ["cvx/covariance/combination.py:from_sigmas", "cvx/covariance/combination.py:_CovarianceCombination.solve", "cvx/covariance/combination.py:_CombinationProblem"]}
{"id": "C197", "title": "How far another covariance prediction moves the portfolios", "statement": "Backtests of two covariance predictors over the same dates and limits, exact solvers. On every trading day, for the predicted covariances S (positive definite) and S': (a) the MinRisk portfolios w, w' satisfy (w' - w)^T S (w' - w) <= (w' - w)^T (S - S') w'; if no covariance differs by more than eta, the weights differ by at most eta (sum |w'_i|) (sum sqrt((S^-1)_ii))^2 in total, and the variance of w' under S is at most the least one plus eta ((sum |w_i|)^2 + (sum |w'_i|)^2). So a short limit bounds the cost of an estimation error. (b) The RiskParity portfolios scaled to unit predicted risk, y and y', satisfy the same inequality and differ by at most eta (sum |y'_i|) (sum sqrt((S^-1)_ii))^2 in total.", "quantifier": "all pairs of backtests that go through, predictors, limits, trading days with positive (semi)definite predictions, all eta", "why_tests_cant": "a bound on the worst case over all pairs of predictions; a test compares single pairs", "anchors": ["experiments/utils/portfolio_backtests.py:MinRisk", "experiments/utils/portfolio_backtests.py:RiskParity", "experiments/utils/trading_model.py:min_risk", "experiments/utils/trading_model.py:risk_parity"]}
{"id": "C198", "title": "Learning the best blend does not need exact solutions", "statement": "Experts and returns as in C196; w the weights that maximise the expected log-likelihood. (a) For every e > 0 there is a tolerance delta > 0 per observation such that with probability one, for all large N, with every solver whose weights are feasible and whose objective is within delta N of the optimum, each result of solve() on the first N returns is made at the last time and has weights, covariance and mean within e of those of the blend with weights w. (b) With a solver of any fixed tolerance d, the results tend to that blend with probability one.", "quantifier": "all fixed experts, distributions of the returns with finite second moments that tell the experts apart, almost every history, all solvers of the given tolerance (warm starts included), every e > 0 and d", "why_tests_cant": "a limit over histories of any length, for every solver that stops early in any way; a test runs one solver on finite histories", "anchors": ["cvx/covariance/combination.py:from_sigmas", "cvx/covariance/combination.py:_CovarianceCombination.solve", "cvx/covariance/combination.py:_CombinationProblem.solve"]}
{"id": "C199", "title": "How fast the combination learns the best blend", "statement": "Experts and returns as in C196, with finite fourth moments of the returns; w the best weights. (a) There is a constant C, depending on the experts and the distribution only, such that for every window length W, number of returns N and time t the probability that solve(window=W) with an exact solver yields a result at t with sum_k |weights_k - w_k| >= e is at most C / (W e^2). (b) For every e > 0 there is C such that, for all W <= t <= N, solve(window=W, times=[t]) with an exact and complete solver yields exactly one result, with weights, covariance and mean within e of the best blend's, except with probability at most C / W.", "quantifier": "all fixed experts, distributions with finite fourth moments that tell the experts apart, window lengths, times, numbers of returns, e > 0", "why_tests_cant": "a bound on a probability for all window lengths and distributions; a simulation estimates it for a few", "anchors": ["cvx/covariance/combination.py:from_sigmas", "cvx/covariance/combination.py:_CovarianceCombination.solve", "cvx/covariance/combination.py:_CombinationProblem"]}
{"id": "C200", "title": "How far factor regularisation moves the covariances", "statement": "regularize_covariance(sigmas, r) of positive semidefinite covariances S with positive variances, 1 <= r <= n, with C the result. If the correlation matrix M of S is within c of a matrix B of rank at most r, in the sense that w^T (M - B) w <= c |w|^2 for all w, then no correlation changes by more than c (|C_ij - S_ij| <= c sqrt(S_ii S_jj)) and for no portfolio w does the variance change by more than c sum_i S_ii w_i^2. The sum of the squared changes of the correlations is at most the squared Frobenius distance of M from any matrix of rank at most r. In any case the bounds hold with c = n / (r + 1).", "quantifier": "all dictionaries of positive semidefinite covariances with positive variances, ranks, matrices B, portfolios, correct eigenvalue routines", "why_tests_cant": "a worst-case error bound over all covariances and portfolios; tests look at single matrices", "anchors": ["cvx/covariance/regularization.py:regularize_covariance", "cvx/covariance/regularization.py:_regularize_correlation"]}
{"id": "C201", "title": "How the regularised covariances depend on the covariances", "statement": "regularize_covariance(sigmas, r) of positive semidefinite covariances S, S' with positive variances, 1 <= r <= n, with results C, C' (the two calls may use different eigenvalue routines). (a) If the r-th largest eigenvalue of the correlation matrix of S exceeds the next one by g > 0 (no condition for r = n), the correlations of C and C' differ by at most 1 + 2 n / g times what those of S and S' differ by (Frobenius distances), and the variances are those of S and S'. (b) So where these two eigenvalues differ the result is continuous: for every e > 0 there is d > 0 such that covariances with entries within d have results with entries within e. (c) Where they agree it need not be: with one factor for two assets of variances a and c, the covariance b > 0, however small, becomes (sqrt(a c) + b) / 2, and -b becomes the negative of that.", "quantifier": "all pairs of positive semidefinite covariances with positive variances, ranks, gaps g, correct eigenvalue routines; all variances and covariances of two assets", "why_tests_cant": "a Lipschitz bound for all pairs of matrices, and a jump at matrices that random tests never hit", "anchors": ["cvx/covariance/regularization.py:regularize_covariance", "cvx/covariance/regularization.py:_regularize_correlation"]}
{"id": "C202", "title": "EM regularisation is continuous, and what repeating it leads to", "statement": "For positive definite Sigma and positive idiosyncratic variances: (a) em_regularize_covariance depends continuously on Sigma and on the initial model: for every e > 0 there is d > 0 such that inputs within d give loadings and variances within e. (b) Called again and again, each time with the model of the last call, it never fails, the likelihoods do not decrease and tend to a finite limit, and loadings and variances stay bounded. (c) Every limit point of these models with positive variances solves the maximum-likelihood equations and its likelihood is the limit of the likelihoods. (d) If the variances stay away from zero, for every e > 0 all but finitely many of the models are within e of a solution of these equations.", "quantifier": "all positive definite covariances, initial models with positive variances, numbers of calls, subsequences, e > 0", "why_tests_cant": "statements about limits of infinitely many calls and about all nearby inputs; a test makes finitely many calls with single inputs", "anchors": ["cvx/covariance/regularization.py:em_regularize_covariance", "cvx/covariance/regularization.py:_em_low_rank_approximation", "cvx/covariance/regularization.py:_e_step", "cvx/covariance/regularization.py:_m_step"]}
{"id": "C203", "title": "From returns to portfolio weights: a small revision of the returns has a small effect", "statement": "Let CM-IEWMA be fitted to a table of returns in which every asset has a return other than 0 among the first min_periods_vola rows. (a) If the fit goes through, its predictions are continuous: for every e > 0 there is d > 0 such that, for every table with the same labels whose returns are all within d, the fit goes through too (with solvers that find the optimum), predicts for the same dates, and every predicted covariance is entrywise within e. (b) If a backtest of EqWeighted, MinRisk, MaxDiverse or RiskParity on these predictions goes through as well (start not before the first prediction), then for every e > 0 there is d > 0 such that for every table whose returns are all within d the whole run goes through, trades on the same days, holds on every day in every asset a weight within e of the given one, and earns on every day within e of the given portfolio return.", "quantifier": "every table of returns of any size whose assets all move in the warm-up, half-life pairs with any labels, warm-ups, window, lambda, dates of the backtest, the four risk-only strategies with any limits, tolerance e, every nearby table and all optimal solvers", "why_tests_cant": "about all nearby histories at once; data vendors revise returns, and a test can only try single revisions", "anchors": ["experiments/industry_portfolios.ipynb", "cvx/covariance/ewma.py:iterated_ewma", "cvx/covariance/combination.py:CovarianceCombination.solve", "experiments/utils/portfolio_backtests.py:backtest", "experiments/utils/trading_model.py:min_risk", "experiments/utils/trading_model.py:max_diverse", "experiments/utils/trading_model.py:risk_parity"]}
{"id": "C204", "title": "iterated_ewma can be run online, but not from its results", "statement": "The results of iterated_ewma are those of a method that goes through the rows once and keeps, between two rows, two counts, two vectors of means, the variances and one matrix: the same results in the same order, and IndexError exactly if no row enters the covariance. So two tables with the same kept numbers after t rows and the same rows from then on give the same results from row t on. The results themselves are not enough to go on from: two tables can give the same mean, covariance and volatility for a row, have the same next row, and give different results for it.", "quantifier": "all tables (with and without missing entries counted as 0), labels, half-lives, min_periods, winsorisation levels, with and without the mean, every row t", "why_tests_cant": "a test compares two finite runs; that nothing else of the past is used is a statement about all pairs of histories", "anchors": ["cvx/covariance/ewma.py:iterated_ewma", "cvx/covariance/ewma.py:_ewma_cov", "cvx/covariance/ewma.py:volatility", "cvx/covariance/ewma.py:center"]}
{"id": "C205", "title": "CM-IEWMA can be run online with bounded memory", "statement": "With exact solvers, when the run of the CM-IEWMA cell on a table with more than `window` rows after the warm-up succeeds, its predictions are those of a method that goes through the rows once and keeps, between two rows, only: for each expert two counts, a vector of means, the variances and one matrix (with the mean of the adjusted returns); the last predictions of the experts; and the last `window` rows, each with what the experts had predicted for it. The weights at a row are the maximiser, over the simplex, of the log-likelihood of the kept rows under the blends of what had been predicted for them, and the prediction is the blend of the experts' present predictions with these weights; labels and order are those of the rows. What is kept never exceeds `window` rows, however long the history is. Two histories that leave the same things kept after t rows and continue with the same returns give the same predictions from then on.", "quantifier": "all numbers of assets, tables of real returns with increasing labels and a return other than 0 within the first min_periods_vola rows, whose run succeeds, half-life pairs, warm-ups, windows, variance factors, and all positions at which the history is cut", "why_tests_cant": "That the whole pipeline (experts, blocks, window, optimisation, blend) has no hidden dependence on older rows is a statement about every history and every cut; a test compares two histories.", "anchors": ["experiments/extensions/generative_mode.ipynb:fit_cm_iewma", "experiments/industry_portfolios.ipynb:cm_iewma", "cvx/covariance/ewma.py:iterated_ewma", "cvx/covariance/combination.py:CovarianceCombination.solve"]}
{"id": "C206", "title": "How fast iterated_ewma forgets the past, and when it does not", "statement": "(a) Without clip_at, with mean=True as well as with mean=False: fix the half-lives, any H longer than all of them, a bound on the returns and positive lower bounds on the volatilities (from row min_periods_vola - 1 on) and on the second moments of the volatility-adjusted returns. There is a constant K such that any two histories within the bounds that agree from row s on give results for the same rows, and at every row t the means, volatilities and covariances of the two differ at most by K 2^(-(t-s)/H). K does not depend on the histories, their length, the number of assets, s, or min_periods. (b) With clip_at > 1 (mean=False) this fails: for every l > 0 there are two bounded histories that agree after row max(0, min_periods_vola), with volatilities between positive bounds, such that in every result every volatility of the second is l times that of the first, however long the histories are.", "quantifier": "all pairs of finite histories of any length and width within the bounds, all cuts s, half-lives, min_periods, mean; (b): all l, half-lives, min_periods and clip levels > 1", "why_tests_cant": "that the influence of old rows dies out at a given rate, uniformly in the history, is a statement about all pairs of histories of every length", "anchors": ["cvx/covariance/ewma.py:iterated_ewma", "cvx/covariance/ewma.py:_general", "cvx/covariance/ewma.py:_ewma_cov", "cvx/covariance/ewma.py:volatility"]}
{"id": "C207", "title": "How soon CM-IEWMA forgets the past", "statement": "Fix the arguments of the CM-IEWMA cell (with lamda >= 0) and bounds on the histories: returns at most M in absolute value, volatilities at least v0, second moments of the volatility-adjusted returns at least d0, determinants of the experts' covariances at least p0 and, over the window of each predicted row, the Gram determinant of the experts' standardised returns at least g0 (all positive). Then for every tolerance e there is a number N such that, for any two histories within the bounds, of any length, which agree from row s on, and any successful runs with exact solvers, the predictions for every row from s + N on (with a full window) differ by less than e in every entry: a data error, or where the history starts, stops mattering after a number of rows that does not depend on the data.", "quantifier": "all arguments with positive half-lives and periods and lamda >= 0, all positive bounds, all tolerances; all pairs of histories within the bounds, of any length and with any labels, agreeing from any row on; all exact solvers", "why_tests_cant": "the number of rows has to serve infinitely many pairs of histories of any length at once; the weights are the solution of an optimisation problem, so a test cannot see how their change is bounded", "anchors": ["cvx/covariance/ewma.py:iterated_ewma", "cvx/covariance/combination.py:CovarianceCombination.solve", "experiments/extensions/generative_mode.ipynb:fit_cm_iewma"]}
{"id": "C208", "title": "What a longer history changes in iterated_ewma", "statement": "Fix the half-lives of iterated_ewma (without clipping, with or without centring), a rate H longer than all of them, and bounds: returns at most M in absolute value, volatilities at least v0 and second moments of the volatility-adjusted returns at least d0, for the whole history and for the history without its first k rows. Then there is a constant K such that every row with a prediction from the shorter history also has one from the whole history, and the two means, volatilities and covariances differ by at most K 2^(-j/H) in every entry, j being the number of rows since row min_periods_vola - 1 of the shorter history. K depends neither on the history, its length or the number of assets nor on how many rows are left out: predicting from a truncated history is safe after a warm-up that can be fixed in advance.", "quantifier": "all valid arguments without clipping, all H longer than the half-lives, all positive bounds; all histories within the bounds, of any length, with any labels and any number of assets; all numbers of rows left out", "why_tests_cant": "one constant has to serve infinitely many histories and every number of rows left out; a test compares a few truncations of a few histories", "anchors": ["cvx/covariance/ewma.py:iterated_ewma", "cvx/covariance/ewma.py:_ewma_mean", "cvx/covariance/ewma.py:_ewma_cov"]}
{"id": "C209", "title": "What a longer history changes in CM-IEWMA", "statement": "Fix the arguments of the CM-IEWMA cell (with lamda >= 0) and bounds as in C207 (returns, volatilities, second moments, determinants of the experts and Gram determinants of the windows), for the whole history and for the history without its first k rows. Then for every tolerance e there is a number N such that, for every history within the bounds, of any length, every number k of rows left out and any successful runs with exact solvers, the two predictions for every row from row N of the shorter history on (with a full window) differ by less than e in every entry. N depends neither on the history nor on k: running CM-IEWMA on a truncated history is safe after a warm-up that can be fixed in advance.", "quantifier": "all arguments with positive half-lives and periods and lamda >= 0, all positive bounds, all tolerances; all histories within the bounds, of any length and with any labels, and all numbers of rows left out; all exact solvers", "why_tests_cant": "one number of rows has to serve infinitely many histories and every number of rows left out; the weights are the solution of an optimisation problem, so a test cannot see how their change is bounded", "anchors": ["cvx/covariance/ewma.py:iterated_ewma", "cvx/covariance/combination.py:CovarianceCombination.solve", "experiments/extensions/generative_mode.ipynb:fit_cm_iewma"]}
