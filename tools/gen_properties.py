#!/usr/bin/env python3
"""Writes /verif/properties.jsonl. Append new entries at the end; ids are never reused."""
import json, os
E = "cvx/covariance/ewma.py"; C = "cvx/covariance/combination.py"; R = "cvx/covariance/regularization.py"
P = []
def p(title, statement, quantifier, why, *anchors):
    P.append(dict(id=f"C{len(P)+1:02d}", title=title, statement=statement, quantifier=quantifier,
                  why_tests_cant=why, anchors=list(anchors)))

# ---------------- ewma.py ----------------
p("EWMA is the bias-corrected half-life weighted average",
  "For finite data and a positive half-life h, the EWMA mean returned by center(..., mean_adj=True) at row t is sum_{k<=t} 2^(-(t-k)/h) x_k divided by sum_{k<=t} 2^(-(t-k)/h), per asset; and volatility() without clipping squares to the same weighted average of x_k^2.",
  "every frame of finite returns of every length and width, every positive half-life, every row and asset",
  "the recursion must equal the closed form after any number of updates; tests sample one data file",
  f"{E}:_general", f"{E}:_ewma_mean", f"{E}:center", f"{E}:volatility")
p("iterated_ewma never looks ahead",
  "Appending rows to the returns frame never changes what iterated_ewma yields for the earlier rows: the results of a truncated frame are a prefix of the results of the full frame.",
  "every frame (finite or NaN entries), every truncation point, every parameter setting",
  "look-ahead is a statement about all continuations of a history",
  f"{E}:iterated_ewma")
p("iterated_ewma: which rows get a result",
  "The yielded times are always a sublist of the index. For finite returns (or nan_to_num=True) they are exactly the rows from min_periods_vola-1 on that are informative, minus the first min_periods_cov-1 of those: some asset has a nonzero (centred) return in that row, or a nonzero volatility, which means a nonzero return in some row so far - with clip_at only one within the first min_periods_vola+1 rows counts for the volatility. No informative row: IndexError. If every row has a nonzero return and mean=False, the first result is for row (min_periods_vola-1)+ + (min_periods_cov-1)+ and every later row has one.",
  "every frame, all min_periods (including 0 and negative), every clip_at",
  "boundary (off-by-one) behaviour for all min_periods/length combinations",
  f"{E}:iterated_ewma", f"{E}:_general", f"{E}:clip")
p("iterated_ewma: too little data",
  "If the frame has fewer than min_periods_vola rows, iterated_ewma raises IndexError instead of yielding nothing; a half-life of 0 always raises an exception, TypeError or IndexError; otherwise IndexError (no row enters the covariance estimation) is the only exception (no KeyError from label lookups).",
  "every frame and every parameter setting",
  "absence of an exception on all inputs",
  f"{E}:iterated_ewma", f"{E}:_general")
p("Covariance diagonal is the squared volatility",
  "In every result each volatility is a non-negative number, and the diagonal entry of the covariance is exactly its square or else the asset's whole row and column are NaN; an entry is NaN only if one of its two assets is. With mean=False an asset is NaN exactly if its returns vanish in all rows from min_periods_vola-1 up to the result's.",
  "every frame of finite returns or with nan_to_num=True, every parameter setting, every yielded result",
  "holds for all data in exact arithmetic; tests look at one final matrix",
  f"{E}:iterated_ewma.scale_cov")
p("Covariances are symmetric",
  "Every yielded covariance matrix is symmetric (NaN entries in symmetric positions).",
  "every frame including NaN/inf entries, every parameter setting, every result",
  "for all inputs", f"{E}:iterated_ewma", f"{E}:_ewma_cov")
p("Covariances are positive semidefinite with correlations in [-1,1]",
  "Restricted to the assets that are not NaN, every yielded covariance is positive semidefinite, and |cov_ij| <= volatility_i * volatility_j.",
  "every frame of finite returns or nan_to_num=True, all parameters, every result",
  "PSD-ness for all histories", f"{E}:iterated_ewma", f"{E}:_ewma_cov")
p("Per-asset scale equivariance",
  "Multiplying the returns of each asset i by a non-zero constant c_i multiplies cov_ij by c_i*c_j, volatility_i by |c_i| and mean_i by c_i, and changes no time stamp.",
  "every frame including NaN/inf entries, every non-zero scale vector, every parameter setting",
  "metamorphic relation over all inputs", f"{E}:iterated_ewma")
p("Asset order does not matter to iterated_ewma",
  "Permuting the columns of the returns permutes the rows and columns of each covariance, the volatility and the mean accordingly and changes nothing else.",
  "every frame, every permutation, every parameter setting",
  "metamorphic relation over all inputs", f"{E}:iterated_ewma")
p("NaN returns are treated as zero returns",
  "With nan_to_num=True the results equal those for the frame in which every NaN was replaced by 0.0 beforehand (whatever nan_to_num is then).",
  "every frame, every parameter setting", "for all NaN patterns", f"{E}:iterated_ewma")
p("nan_to_num=False: one NaN poisons the asset forever",
  "With nan_to_num=False, once an asset has a NaN return its volatility and its whole row and column of the covariance (and with mean=True its mean) are NaN in the result of that row and every later one.",
  "every frame, every NaN position, every later row", "for all continuations of the history", f"{E}:iterated_ewma", f"{E}:_general")
p("Winsorised volatility update has bounded influence",
  "With clip_at=c, after warm-up a single new return, however large, raises the asset's squared volatility by at most the factor 1 + a_t*(c^2-1)^+ where a_t=(1-b)/(1-b^(t+1)), b=2^(-1/h); and it never exceeds what the unclipped update gives for c>=1.",
  "every frame of finite returns, every c other than 0, half-life and row past the warm-up",
  "the bound is over all possible new returns", f"{E}:_general", f"{E}:volatility")
p("Winsorised volatility can get stuck at zero",
  "With clip_at set, an asset whose (filled) returns are all zero through row min_periods_vola keeps volatility exactly 0 in every later row whatever its returns are.",
  "every continuation of the history", "for all continuations; it is a trap for newly listed assets that tests do not exercise",
  f"{E}:_general", f"{E}:volatility")
p("Inactive winsorisation changes nothing",
  "If no squared return past the warm-up exceeds clip_at^2 times the previous squared volatility then volatility(..., clip_at) equals volatility(..., None).",
  "every frame of finite returns, every clip_at, half-life",
  "for all data", f"{E}:_general", f"{E}:volatility")
p("clip() bounds entries, keeps NaN and drops only empty rows",
  "clip(data, c) leaves every entry in [-|c|,|c|] or NaN, leaves entries already inside unchanged, drops exactly the rows that are entirely NaN, and is idempotent; with c None or 0 entries are unchanged.",
  "every frame incl. NaN/inf, every finite c or None", "for all inputs", f"{E}:clip")
p("center() decomposes the returns",
  "With mean_adj=True on finite data, centred + mean equals the returns in every row, no row but the first min_periods-1 is dropped, and row 0 of the centred returns (if kept) is zero; with mean_adj=False the returns come back unchanged with zero mean.",
  "every frame of finite returns, every half-life, width >= 1", "for all inputs", f"{E}:center")
p("Reported mean",
  "With mean=False every yielded mean is zero; with mean=True it is the EWMA mean of the returns plus volatility times the EWMA mean of the clipped volatility-adjusted returns at that time.",
  "every frame, every parameter setting, every result", "for all inputs", f"{E}:iterated_ewma.scale_mean")
p("Mean-adjusted estimate is shift invariant",
  "With mean=True, adding a constant vector to all returns changes neither the yielded times, nor volatility, nor covariance, and shifts the mean by that vector.",
  "every frame of finite returns, every constant vector, every parameter setting",
  "metamorphic relation over all inputs", f"{E}:iterated_ewma", f"{E}:center")
p("Zero and None mean the same for optional parameters",
  "clip_at=0 behaves as clip_at=None, and mu_halflife1/2 = 0 or None behave as vola_halflife/cov_halflife.",
  "every frame and all other parameters", "for all inputs", f"{E}:iterated_ewma", f"{E}:volatility", f"{E}:clip")
p("Volatility is within the range of past absolute returns",
  "Without clipping, volatility at row t lies between the smallest and the largest |return| of the asset seen up to t, and is strictly positive once any return was non-zero.",
  "every frame of finite returns, all half-lives, rows and assets", "for all data", f"{E}:volatility")
p("Half-life meaning and forgetting",
  "The weight given to an observation relative to one made h rows later is exactly one half for integer half-life h, and the influence of the first row on the EWMA at row t is 2^(-t/h)/sum_k 2^(-k/h) and tends to 0 as t grows.",
  "every half-life and row", "for all histories", f"{E}:_general")
# ---------------- combination.py ----------------
p("Weights lie on the simplex",
  "If the solver meets its contract, every result of solve() has weights >= 0 summing to 1, one per expert in the order the experts were given.",
  "every set of experts, returns, window, times", "for all problem data", f"{C}:_CombinationProblem", f"{C}:_CovarianceCombination.solve")
p("Combined covariance is symmetric positive definite",
  "For any simplex weights the combined covariance is well defined (no LinAlgError), symmetric and positive definite. With a solver whose weights are on the simplex, a LinAlgError of solve is raised before the solver is called, so it does not depend on the weights.",
  "all positive definite expert covariances, all weights on the simplex, all sizes", "for all data", f"{C}:_CovarianceCombination._solve")
p("Experts are blended in Cholesky factors of the precision",
  "The Cholesky factor of the inverse of the result covariance is exactly the weighted sum of the Cholesky factors of the inverses of the expert covariances at result.time.",
  "all expert matrices, all weights", "uniqueness of the factor for all data", f"{C}:_cholesky_precision", f"{C}:_CovarianceCombination._solve")
p("Agreeing experts are reproduced",
  "If all experts predict the same covariance (and mean) at time t then the result at t is that covariance (and mean) whatever the weights; in particular one expert is returned unchanged.",
  "all matrices, means and weights", "for all data", f"{C}:_CovarianceCombination._solve")
p("Result mean",
  "Without means the result mean is zero; with means it solves L^T m = sum_k w_k L_k^T mu_k, and lies at mu when all expert means equal mu and covariances agree.",
  "all data", "for all data", f"{C}:_nu", f"{C}:_CovarianceCombination._solve")
p("The optimisation objective is the window log-likelihood",
  "For any weights with positive combined diagonals the maximised objective equals, up to the constant window*n/2*log(2*pi), the Gaussian log-likelihood of the last `window` returns under the combined one-step-ahead predictions made the row before each of them.",
  "all data, windows, weights", "identity over all data", f"{C}:_CombinationProblem._objective", f"{C}:_A", f"{C}:_B_t_col")
p("The blend is at least as good as every expert",
  "With an exact solver the window log-likelihood of the combined predictor is >= that of each single expert and of any other fixed mixture.",
  "all data, every expert", "for all data", f"{C}:_CovarianceCombination.solve")
p("Weights are uniquely determined",
  "The combination problem that is solved has at most one optimal weight vector, so an exact solver's answer at a time does not depend on warm starts, previous solves or the solver.",
  "all data for which solve() gets to the solver, all solver histories", "for all histories of parameter updates", f"{C}:_CombinationProblem", f"{C}:_CovarianceCombination.solve")
p("solve() never looks ahead",
  "If two data sets agree up to time t and both calls of solve(window) reach t, they yield the same item at t. (Later data can prevent a call from reaching t only by a singular window Gram matrix, which raises before the first item, see C37.)",
  "all data, all windows, all later data", "for all continuations", f"{C}:_CovarianceCombination.solve")
p("solve() only uses the window",
  "The weights at time t depend only on the last `window` returns up to t and the expert predictions made in the rows just before each of them.",
  "all pairs of data sets agreeing on the window", "for all pairs of inputs", f"{C}:_CovarianceCombination.solve")
p("solve(window): schedule of results",
  "If no window is degenerate (else LinAlgError, C37) and the solver raises nothing but SolverError, solve(window) yields exactly one item per expert time from the (window+1)-th expert time on, in index order; window None, 0 or larger than the history yields exactly one item, for the last time.",
  "all histories and windows", "off-by-one for all lengths", f"{C}:_CovarianceCombination.solve")
p("solve(times) agrees with solve()",
  "If no window is degenerate and the solver finds the optima: for consecutive times preceded by at least window-1 available times, solve(window, times) yields exactly the results solve(window) yields at those times.",
  "all histories, windows and consecutive time ranges", "for all ranges", f"{C}:_CovarianceCombination.solve")
p("solve(times) with too little history silently drops times",
  "Without degenerate windows and solver exceptions: if fewer than window-1 available times precede times[0] the first window-1 requested times get no result, even those for which solve(window) has one.",
  "all histories, windows and such ranges", "negative slice index corner case", f"{C}:_CovarianceCombination.solve")
p("solve(times) rejects bad requests",
  "times that are not consecutive available times raise AssertionError, an unknown first time raises KeyError and an empty list raises IndexError, before anything is yielded.",
  "all requests", "for all requests", f"{C}:_CovarianceCombination.solve")
p("A solver failure is isolated",
  "If the solver raises SolverError at some times, exactly those positions yield None and all other positions yield what they would have yielded.",
  "all failure patterns", "all crash points", f"{C}:_CovarianceCombination.solve")
p("Degenerate windows abort before the first result",
  "If at any requested time the window Gram matrix is singular (for example two identical experts, or more experts than window*assets), solve() raises LinAlgError before yielding anything.",
  "all data", "all data incl. degenerate", f"{C}:_CovarianceCombination.solve")
p("Constructor validation",
  "from_sigmas succeeds iff (means, if given, cover the same times per expert) and all experts cover the same times and all expert matrices have a positive definite inverse (lower triangle); otherwise it raises AssertionError/KeyError/AttributeError/LinAlgError.",
  "all inputs", "for all inputs", f"{C}:_CovarianceCombination.__init__")
p("Expert order does not matter",
  "Permuting the experts permutes the weights and leaves mean and covariance unchanged (exact solver).",
  "all data and permutations", "metamorphic", f"{C}:_CovarianceCombination.solve")
p("Combination is scale equivariant",
  "Expressing asset i in other units (factor d_i != 0, its own for each asset) in returns, means and covariances leaves the weights unchanged, scales the result mean by d_i and the covariance by d_i d_j, and fails in the same cases (exact solver).",
  "all data, all factors d_i != 0, all windows and requests", "metamorphic", f"{C}:_CovarianceCombination.solve")
p("from_ewmas is from_sigmas on the iterated EWMA experts",
  "When from_ewmas(returns, pairs) succeeds it is what from_sigmas builds from the dictionaries of iterated_ewma covariances and means, one expert per distinct pair label (the last pair with that label; a repeated pair adds no expert), all finite and positive definite and with the same times. It succeeds if every pair gives finite positive definite covariances; otherwise it raises IndexError (a pair without usable rows) or LinAlgError (a covariance with NaN or not positive definite).",
  "all returns and pair lists", "for all inputs", f"{C}:from_ewmas", f"{C}:_map_nested_dicts")
# ---------------- regularization.py ----------------
p("Factor regularisation keeps the variances",
  "regularize_covariance returns, per time and in order, a symmetric matrix with the same diagonal as the input.",
  "all covariances with positive diagonal, all ranks 1..n, any valid eigendecomposition", "for all matrices", f"{R}:regularize_covariance", f"{R}:_regularize_correlation")
p("Factor regularisation keeps positive (semi)definiteness",
  "If the input covariance is PSD with positive variances the output is PSD, and positive definite if the input is. (The diagonal correction is >= 0, see C45.)",
  "all PSD inputs and ranks", "for all matrices", f"{R}:regularize_covariance")
p("Full rank regularisation is the identity",
  "With r = n (or when all dropped eigenvalues are zero) regularize_covariance returns its input.",
  "all inputs", "for all matrices", f"{R}:regularize_covariance")
p("Low-rank format represents the same matrix",
  "For PSD input, with low_rank_format=True, F F^T + diag(d) equals the dense output, F has r columns, and d >= 0.",
  "all PSD inputs and ranks", "for all matrices", f"{R}:regularize_covariance")
p("EM regularisation stays well defined",
  "For positive definite Sigma and positive initial d every EM iteration (any number) is well defined and keeps d > 0.",
  "all inputs and all iteration counts", "induction over iterations", f"{R}:_e_step", f"{R}:_m_step", f"{R}:_em_low_rank_approximation")
p("EM never decreases the likelihood",
  "Each EM iteration does not decrease the Gaussian log-likelihood -logdet(FF^T+D) - tr(Sigma (FF^T+D)^-1).",
  "all inputs and all iteration counts", "inequality for all data", f"{R}:_e_step", f"{R}:_m_step", f"{R}:em_regularize_covariance")
p("EM fixes exact factor models",
  "If Sigma = F F^T + diag(d) already, em_regularize_covariance returns exactly F and d.",
  "all F, d > 0", "for all data", f"{R}:_e_step", f"{R}:_m_step", f"{R}:em_regularize_covariance")
X = "experiments/utils/"
p("rolling_window double counts the first return",
  "rolling_window(returns, memory)[t] equals (r_0 r_0^T + sum of the last min(t+1,memory) outer products)/min(t+2,memory) for t>=1: the first return never leaves the estimate.",
  "all returns and memories >= 2, all rows", "closed form for all lengths", f"{X}experiment_utils.py:rolling_window")
p("Old and new EWMA recursions agree",
  "The dictionary ewma() of the experiments yields, from the second key on, exactly the values the library recursion yields (also with clipping).",
  "all data, half-lives, clip_at", "for all histories", f"{X}iterated_ewma_vec.py:ewma", f"{X}iterated_ewma_vec.py:get_next_ewma", f"{E}:_general")
p("Maximum drawdown",
  "compute_max_drawdown returns the largest (V_s - V_t)/V_s over s <= t, which lies in [0,1) for positive values.",
  "all histories of positive values, any length", "for all histories", f"{X}trading_model.py:Trader.compute_max_drawdown")
p("Portfolio growth",
  "get_portfolio_growth gives V_t = prod_{s<=t} (1 + r_s/adjust_factor).",
  "all return histories", "for all histories", f"{X}trading_model.py:Trader.get_portfolio_growth")
p("Cash dilution hits the volatility target",
  "After dilute_with_cash(sigma) every diluted weight vector is fully invested whenever the portfolio was, and its predicted annual volatility is sigma; calling it twice changes nothing.",
  "all weights and covariances with positive risk", "for all data", f"{X}trading_model.py:Trader.dilute_with_cash", f"{X}trading_model.py:Trader.get_vol_cont_w")
p("Packed covariance rows",
  "from_row_to_covariance returns a symmetric matrix whose upper triangle, read row by row, is the given row.",
  "all n and rows", "for all sizes", f"{X}experiment_utils.py:from_row_to_covariance")
p("CCP state round trip",
  "Building (F,d) from a freshly initialised CCP state reproduces the covariance FF^T + diag(d), and E - GG^T is its inverse.",
  "all F and d>0", "for all data", f"{X}ccp_regularize.py:_State.__init__", f"{X}ccp_regularize.py:_State.build")
p("Whitener measures risk",
  "The risk expression optimised by the Trader, the norm of L_inv w, is the predicted standard deviation sqrt(w^T Sigma w).",
  "all covariances and weights", "for all data", f"{X}trading_model.py:_get_L_inv", f"{X}trading_model.py:Trader.backtest")
p("Functional correctness of iterated_ewma",
  "iterated_ewma yields exactly: for each row t >= min_periods_vola-1 with a non-zero volatility or centred return (its first min_periods_cov-1 such rows skipped), volatility = square root of the (winsorised) half-life average of squared centred returns, covariance = volatilities times the correlation of the half-life averaged outer products of the clipped, volatility-adjusted, centred returns, and the corresponding mean; IndexError when there is no such row.",
  "every frame of finite returns or (nan_to_num) with NaN, distinct labels, all positive half-lives, all other parameters",
  "complete input/output behaviour for all inputs",
  f"{E}:iterated_ewma", f"{E}:volatility", f"{E}:center", f"{E}:clip", f"{E}:_ewma_cov")
p("An entry of the estimate depends on its own assets only",
  "If asset i has a non-zero centred return within the first min_periods_vola rows, then the yielded times, its volatility and mean and its covariance with asset j are the same for any two frames agreeing on columns i and j.",
  "every pair of frames agreeing on two columns, every parameter setting", "quantifies over all changes of the other columns",
  f"{E}:iterated_ewma")
p("First covariance in mean mode is NaN",
  "With mean=True and min_periods_cov <= 1 the covariance of the first result is NaN in every entry.",
  "every frame and every other parameter", "for all inputs", f"{E}:iterated_ewma", f"{E}:center")
p("Only the order of the time labels matters",
  "Replacing the index labels of the returns by others in the same order (rows in any order) changes nothing but the times of the results; neither does replacing increasing labels by any others that increase.",
  "every frame, every order-preserving relabelling, every parameter setting, any arithmetic (floating point included)", "for all relabellings",
  f"{E}:iterated_ewma", f"{E}:_generator2frame")
p("A missing return aborts solve()",
  "If the returns frame lacks a row for one of the expert times after the first, solve() raises KeyError before yielding anything, whatever window and times are.",
  "every experts' dictionaries, every frame, every window and request", "for all inputs", f"{C}:_CovarianceCombination.solve", f"{C}:_B_t_col")
p("The combination depends on the order of the assets",
  "Cholesky factors depend on the order of the assets, so relabelling the assets can change the combined covariance: with the same weights there are experts for which combining and reordering do not commute.",
  "existence of a counterexample (negative property); for diagonal experts the order is irrelevant", "a proof that the natural invariance fails",
  f"{C}:_CovarianceCombination._solve", f"{C}:_cholesky_precision")
p("Regularisation does not depend on the eigenvectors chosen",
  "If the r-th eigenvalue of every correlation matrix is larger than the next one, regularize_covariance returns the same matrices whichever orthonormal eigenvectors LAPACK returns.",
  "every dictionary with that gap, any two eigenvalue routines meeting the contract", "quantifies over all eigenvalue routines",
  f"{R}:regularize_covariance", f"{R}:_regularize_correlation")
p("Regularisation commutes with changes of units, signs and asset order",
  "Multiplying each asset by a positive factor multiplies the regularised covariance accordingly (every input, rank and format); with the eigenvalue gap the same holds for sign changes and for reordering the assets.",
  "every dictionary, rank, format, scaling, sign pattern and permutation", "relation between runs, for all inputs",
  f"{R}:regularize_covariance")
p("The factor part is the best rank-r approximation",
  "For a PSD covariance no matrix of rank <= r is closer in Frobenius norm to the correlation matrix than the correlations of the factor part F F^T.",
  "every PSD covariance with positive variances, every rank, every competitor", "optimality over all competitors",
  f"{R}:_regularize_correlation", f"{R}:regularize_covariance")
p("EM regularisation commutes with changes of units",
  "Multiplying each asset by a non-zero factor (in the matrices and the initial models) multiplies the loadings by the factor and the idiosyncratic variances by its square.",
  "every input, every non-zero scaling", "relation between runs, for all inputs", f"{R}:em_regularize_covariance")
p("EM regularisation does not depend on the rotation of the factors",
  "Rotating the initial loadings by an orthogonal matrix rotates the resulting loadings and leaves d and F F^T + diag(d) unchanged.",
  "every input, every orthogonal matrix", "relation between runs, for all inputs", f"{R}:em_regularize_covariance")
p("Regularisation rejects bad input",
  "A rank outside 1..n raises ValueError at the first matrix; a matrix with a variance <= 0 raises ValueError after all matrices before it have been yielded.",
  "every dictionary, rank and format", "for all inputs and positions", f"{R}:regularize_covariance", f"{R}:_regularize_correlation")
p("from_ewmas needs min_periods_cov >= number of assets",
  "from_ewmas can only succeed with a non-empty history if min_periods_cov is at least the number of assets (plus one with mean=True), because a covariance of iterated_ewma is finite and positive definite exactly if no volatility is zero and no portfolio has zero adjusted return in all rows so far.",
  "every returns frame, pair list, parameters", "a rank argument for all data", f"{C}:from_ewmas", f"{E}:iterated_ewma")
p("Missing returns abort solve",
  "If the window of any requested time contains a return with a missing entry, solve raises LinAlgError before the first result; missing returns outside the requested windows have no effect.",
  "every history, window, request and set of missing entries", "for all positions of the missing entries", f"{C}:_CovarianceCombination.solve", f"{C}:from_ewmas")
p("add_to_diagonal",
  "add_to_diagonal(Sigmas, lamda) multiplies every variance by 1+lamda and changes nothing else; the argument itself is changed, so calls compound; with lamda > 0 and positive variances PSD inputs become positive definite.",
  "every dictionary and lamda", "for all inputs, and a composition law", f"{X}experiment_utils.py:add_to_diagonal")
p("Turnover",
  "turnover(weights) is 100*252 times the mean over consecutive rows of ||w_{t+1}-w_t||_1/||w_t||_1; it is zero exactly if the weights never change, does not change if all weights are multiplied by a constant, and is at most 50400 for long-only fully invested weights.",
  "every history of at least two weight rows none of which is zero (numpy gives nan or inf otherwise), any non-zero constant", "for all histories", f"{X}experiment_utils.py:turnover")
p("Log-likelihood of predictions",
  "For positive definite predictions log_likelihood returns for each row the Gaussian log-density of that row minus n log(scale); a singular prediction fails the call; the sequential variant computes the same values and returns None.",
  "every history, predictions and scale", "for all inputs", f"{X}experiment_utils.py:_single_log_likelihood", f"{X}experiment_utils.py:log_likelihood", f"{X}experiment_utils.py:log_likelihood_sequential")
p("Evaluation is aligned with the next return",
  "log_likelihood_low_rank and log_likelihood_regularized score the prediction made at t by the Gaussian log-density of the return in the row after t (restricted to the assets not missing there), and skip a time exactly if there is no later row or its first asset is missing there.",
  "every history, missing pattern and prediction dictionary", "alignment for all positions", f"{X}experiment_utils.py:log_likelihood_low_rank", f"{X}experiment_utils.py:log_likelihood_regularized")
p("Realised covariance and volatilities",
  "_realized_covariance gives for each date, in order of first appearance, the sum of the outer products of the returns of that date minus the outer product of their sum divided by their number; a date with a single row raises TypeError; every result is PSD and its variances are at most the squared realized_volas, with equality exactly if the returns of the date sum to zero.",
  "every multiset of dated rows", "for all histories", f"{X}experiment_utils.py:_realized_covariance", f"{X}experiment_utils.py:realized_volas")
p("MSE and empirical distribution",
  "MSE gives for each prediction time the squared Frobenius distance of the prediction and the outer product of the return of the next row (nan if there is none or it has missing entries); ecdf returns the sorted data with the k-th smallest paired with k/n.",
  "all inputs", "for all inputs", f"{X}experiment_utils.py:MSE", f"{X}experiment_utils.py:ecdf")
p("Diluted weights are never refreshed",
  "After a diluted evaluation of a Trader, a later backtest of the same object with any type, weights and volatility target, evaluated with dilution, reports the returns of the first portfolio diluted to the first target.",
  "every object, every later backtest and target", "quantifies over all later call histories", f"{X}trading_model.py:Trader.dilute_with_cash", f"{X}trading_model.py:Trader.get_total_returns", f"{X}trading_model.py:Trader.backtest")
p("vol_cont and diluted mean_variance fail",
  "A vol_cont backtest raises ValueError for every number of dates and assets and leaves the object marked as diluted, so that every later diluted evaluation raises AttributeError; a diluted evaluation of a mean_variance portfolio raises ValueError.",
  "every object, number of dates and assets, later calls", "for all sizes and histories", f"{X}trading_model.py:Trader.get_vol_cont_w", f"{X}trading_model.py:Trader.backtest", f"{X}trading_model.py:Trader.get_total_returns")
p("Returns and metrics",
  "Undiluted returns are the weighted sums of the rows; get_metrics reports 252 times the mean, sqrt(252) times the standard deviation, their quotient and the drawdown of the growth; with excess=True the risk is that of the raw returns, so for adjust_factor other than 1 and a zero risk-free rate the two modes contradict each other by exactly that factor.",
  "every history, weights, adjust_factor > 0 (ratios: non-constant returns, numpy gives nan or inf otherwise)", "for all histories", f"{X}trading_model.py:Trader.get_metrics", f"{X}trading_model.py:Trader.get_total_returns")
p("Risk-adjusted returns",
  "get_risk_adj_returns(sigma) scales the returns so that their annual standard deviation is exactly sigma and their Sharpe ratio is unchanged; the risk-adjusted growth compounds them.",
  "every return history with non-zero variance, every sigma", "for all histories", f"{X}trading_model.py:Trader.get_risk_adj_returns", f"{X}trading_model.py:Trader.get_risk_adj_portfolio_growth")
p("The default constraint list is shared between backtests",
  "A backtest without the argument cons is feasible for exactly the weights that meet its own constraints provided the constraints of every earlier such backtest of the session are satisfiable; one infeasible earlier call (e.g. at most six assets with the standard bounds) makes every later one infeasible.",
  "every session history", "quantifies over all earlier calls", f"{X}trading_model.py:Trader.backtest")
p("Which parameters the worker pool uses",
  "For every way the pool cuts the dates into chunks, min_risk and max_diverse solve the problem of each date with that date's parameters, but robust_min_risk uses the volatilities of the first date for every date.",
  "every number of dates, every chunking", "quantifies over all schedules", f"{X}trading_model.py:Trader.backtest", f"{X}trading_model.py:Trader.solve_min_risk", f"{X}trading_model.py:Trader.solve_max_diverse")
p("max_diverse maximises the diversification ratio",
  "If the solver solves its problem, the weights of max_diverse are long-only, fully invested, within the upper bound, and have the largest diversification ratio of all such portfolios.",
  "every positive definite covariance and bound", "optimality over all competitors", f"{X}trading_model.py:Trader.backtest", f"{X}trading_model.py:Trader.solve_max_diverse")
p("risk_parity equalises risk contributions",
  "Positive weights solve the risk parity problem exactly if every asset's contribution w_i (Sigma w)_i is 4/n; there is at most one solution; the returned (normalised) weights are positive, sum to one and have equal risk contributions.",
  "every positive definite covariance", "optimality over all competitors", f"{X}trading_model.py:Trader.backtest", f"{X}trading_model.py:Trader.solve_risk_parity")
p("Trader constructor",
  "With matching labels and positive definite covariances the constructor succeeds and stores a whitener per date measuring that date's predicted risk; other labels raise AssertionError; the argument rhos can never be used.",
  "every set of labels and covariances", "for all inputs", f"{X}trading_model.py:Trader.__init__", f"{X}trading_model.py:_get_L_inv")
p("mean_variance with uncertainty is a worst case",
  "With rhos the objective is the worst expected return over all expected returns within rho of the forecast; feasible weights have predicted annual volatility at most sigma_des * adjust_factor.",
  "all weights, forecasts, uncertainties", "optimum over a continuum of scenarios", f"{X}trading_model.py:Trader.backtest", f"{X}trading_model.py:Trader.solve_mean_variance")
p("robust_min_risk is not the worst-case variance",
  "The worst variance over entrywise perturbations kappa sigma_i sigma_j is the variance plus kappa (sigma^T |w|)^2; the objective adds that term to the standard deviation instead, and there are portfolios it orders the other way.",
  "all covariances, weights, kappa; existence of a counterexample", "optimum over a continuum, and a negative result", f"{X}trading_model.py:Trader.backtest")
p("The convex-concave objective is the likelihood",
  "For a state describing a positive definite precision matrix and a positive definite covariance matrix, objective() is minus the factor-model log-likelihood of what build() returns; for a symmetric covariance matrix that is not positive definite it raises LinAlgError.",
  "every state and covariance matrix", "an identity between two formulas, for all inputs", f"{X}ccp_regularize.py:_State.objective", f"{X}ccp_regularize.py:_State.build")
p("The convex-concave procedure never gets worse",
  "With a solver that solves its convex problem, any number of iterate() calls from a valid factor model keeps a valid model whose likelihood never falls; it stands still exactly if the model solves the maximum-likelihood equations, and otherwise the likelihood rises strictly.",
  "every covariance matrix, start, number of iterations", "for all inputs and iteration counts", f"{X}ccp_regularize.py:_State.iterate", f"{X}ccp_regularize.py:_State._build_problem")
p("The gradients of the proximal gradient variant",
  "_grad_e and _grad_G return the gradient of -log det(diag(e) - G G^T) at every point of its domain.",
  "every point and direction", "derivatives in every direction", f"{X}ccp_regularize.py:_grad_e", f"{X}ccp_regularize.py:_grad_G", f"{X}ccp_regularize.py:_common_factor")
p("The proximal gradient variant: fixed points and failure",
  "A pass of the gradient loop leaves a point unchanged exactly if it minimises the convex problem; but the fixed step size overshoots: for one asset and no factor, whenever the variance exceeds d + 1/d of the start d, iterate() ends with a negative idiosyncratic variance.",
  "every covariance matrix and point; all one-asset instances", "for all inputs", f"{X}ccp_regularize.py:_solve_proximal_gradient", f"{X}ccp_regularize.py:_State2.iterate")
p("EM stops exactly at stationary points of the likelihood",
  "A pass of the EM iteration returns its argument exactly if the argument solves the maximum-likelihood equations, i.e. the likelihood has derivative zero in every direction; otherwise the likelihood rises strictly.",
  "every covariance matrix and factor model with positive idiosyncratic variances", "for all inputs, derivatives in every direction", f"{R}:_em_low_rank_approximation", f"{R}:em_regularize_covariance")
p("em_low_rank_log_likelihood scores the EM models",
  "If regularize_covariance gives factor models with positive idiosyncratic variances, em_low_rank_log_likelihood scores, with the rules of log_likelihood_low_rank, one factor model per time in the same order, each at least as likely for that time's covariance as the truncated eigenvalue model.",
  "every history and dictionary of positive definite matrices", "for all histories", f"{X}experiment_utils.py:em_low_rank_log_likelihood")
p("What the portfolio limits mean",
  "The portfolios min_risk may choose are exactly the fully invested ones within the bounds holding at most (short_lim-1)/2 short and (short_lim+1)/2 long; with the standard bounds there is one exactly if there are at least seven assets; in mean_variance cash is what the positions leave and holding only cash is always allowed.",
  "all weights, limits and numbers of assets", "for all inputs", f"{X}trading_model.py:Trader.backtest")
p("low_rank_iterated_ewma has the times, means and variances of iterated_ewma",
  "For rank between 1 and n-1 and finite returns, the results of low_rank_iterated_ewma are, in order, for the times of iterated_ewma with the same arguments, with the same mean and volatility, and the squared loadings plus the idiosyncratic variance of every asset are the asset's variance in iterated_ewma, idiosyncratic variances never negative. If no volatility-adjusted return is zero (e.g. no return is zero and mean=False), no result is missing.",
  "every finite return history without an asset of zero volatility in an informative row, all parameters, every rank 1..n-1", "for all histories; the truncation error accumulates", f"{X}low_rank_ewma.py:low_rank_iterated_ewma", f"{X}low_rank_ewma.py:_ewma_low_rank")
p("The factor part of low_rank_iterated_ewma never overstates risk",
  "The covariance of iterated_ewma minus F F^T of low_rank_iterated_ewma is positive semidefinite at every time: the variance of any portfolio through the factors is at most the portfolio's full variance.",
  "every such history (finite, no zero volatility in an informative row), time with finite variances, and portfolio", "for all portfolios after any number of truncations", f"{X}low_rank_ewma.py:low_rank_iterated_ewma", f"{X}low_rank_ewma.py:_low_rank_sum")
p("low_rank_iterated_ewma is exact where it can be",
  "If the volatility-adjusted returns so far span at most rank dimensions (in particular during the first rank informative rows), the factor part is the covariance of iterated_ewma and the idiosyncratic variances are zero.",
  "every such history (finite, no zero volatility in an informative row) and rank 1..n-1", "for all histories", f"{X}low_rank_ewma.py:_ewma_low_rank", f"{X}low_rank_ewma.py:_low_rank_sum")
p("Each low-rank update is a best approximation",
  "_low_rank_sum keeps the diagonal of F F^T + diag(d) + r r^T, never lowers an idiosyncratic variance, and its factor part is, among all matrices of rank at most the rank, closest to F F^T + r r^T in correlation units (Frobenius norm).",
  "every factor model, return, competing matrix", "optimum over a continuum", f"{X}low_rank_ewma.py:_low_rank_sum")
p("What stops low_rank_iterated_ewma",
  "Rank 0 raises IndexError before the first result; rank at least the number of assets raises TypeError at the second informative row (one result, if min_periods_cov allows it); otherwise it can stop early only at a row in which some asset's volatility-adjusted return is zero, and the results of the rows before that are still produced.",
  "every finite return history without an asset of zero volatility in an informative row, every rank", "for all histories and crash points", f"{X}low_rank_ewma.py:low_rank_iterated_ewma", f"{X}low_rank_ewma.py:_low_rank_sum")
p("low_rank_iterated_ewma does not look ahead",
  "Appending rows to the returns (missing values allowed, distinct times) only appends results; every result carries a time of the returns.",
  "every history, extension, rank, parameters", "for all extensions", f"{X}low_rank_ewma.py:low_rank_iterated_ewma", f"{X}low_rank_ewma.py:_ewma_low_rank")
p("The factor model covers every date after the first memory rows once",
  "For increasing labels, memory >= 3k+8 and factor returns that are not all zero in the first k rows, construct_cmiewma_factor_model yields one item per row from row memory to the last, in order, unless it raises (then it stops at the end of a block); it raises nothing exactly if in every block pca, the experts, the window Gram matrices and the solver succeed; an exception is the one of the first block that fails: of pca, LinAlgError for an expert or a window that is not finite or not positive definite, else of the solver (AttributeError if it fails with SolverError); the exposures of an item come from pca of the memory rows before its block.",
  "every return history, update_frequency, memory, pairs, pca, solver", "for all histories and crash points", f"{X}factor_model.py:construct_cmiewma_factor_model", f"{X}factor_model.py:construct_factor_covariance")
p("What an item of the factor model is",
  "The factor covariance is positive definite, a blend with weights on the simplex of the iterated EWMAs of the factor returns (the first pair's variances raised by 5 %), and with an exact solver the weights maximise the 10-row likelihood; the diagonal is the half-life-21 average of the squared residuals up to the date, never negative; the asset covariance is positive semidefinite, positive definite if every asset had a residual; a portfolio's variance is the factor part plus the idiosyncratic part.",
  "every history, item, portfolio", "for all histories; optimum over a continuum", f"{X}factor_model.py:construct_cmiewma_factor_model", f"{X}factor_model.py:construct_factor_covariance")
p("The factor model does not look ahead",
  "If two histories agree up to a row, the items the two runs yield for that row are equal, whatever follows it, even within the same block.",
  "every pair of histories, pca, solver", "for all continuations", f"{X}factor_model.py:construct_cmiewma_factor_model")
p("factor_log_likelihood scores against the next day",
  "Each item is scored by the Gaussian log-density of the next row's return with mean 0 and the item's covariance; nan exactly for the last row or a missing entry; KeyError for a time that is not in the returns.",
  "every history and list of items with positive definite covariances", "for all histories", f"{X}factor_model.py:factor_log_likelihood")
p("Factors and residuals are orthogonal",
  "With orthonormal exposures the residuals have no factor component, squared lengths split into factor and residual part, and the modelled covariance of the factors is the factor covariance plus the idiosyncratic part; from_factor_to_full_covariance maps each time to exposure^T F exposure + diag.",
  "all exposures and returns", "for all inputs", f"{X}factor_model.py:construct_cmiewma_factor_model", f"{X}factor_model.py:from_factor_to_full_covariance")
p("A backtest pairs each date's prediction with the next row's returns",
  "In every result of a backtest, every trader has one row for each row of the returns from start_date up to, not including, end_date whose next row is complete, in order; it holds the next row's returns and the covariance predicted under the date's own label by the predictor the trader is named after.",
  "every return history with distinct labels, predictors, dates, strategies", "for all histories and missing-value patterns", f"{X}portfolio_backtests.py:_get_causal", f"{X}portfolio_backtests.py:PortfolioBacktest")
p("When a backtest can be made and when it goes through",
  "The constructor accepts exactly predictors whose keys are labels of the returns, mean predictors covering the last predictor's keys and dates among the last predictor's keys (defaults: its first and last key). Otherwise it raises AssertionError, or IndexError for a last predictor without dates and no given dates. A run succeeds exactly if every predictor has a name (and expected returns, for mean variance) and every trading day has a prediction, a whitener and solved weights; a missing date raises KeyError; for symmetric predictions every trading day's covariance must be positive definite, even for equal weights.",
  "every history, predictor list, dates, strategies", "for all inputs", f"{X}portfolio_backtests.py:PortfolioBacktest.__init__", f"{X}portfolio_backtests.py:_get_causal")
p("EqWeighted earns the average return whatever the predictor",
  "EqWeighted holds 1/n of every asset on every trading day and earns the average of the next row's returns; all traders of a result agree.",
  "every history and predictor", "for all histories", f"{X}portfolio_backtests.py:EqWeighted")
p("Each strategy is optimal day by day under that day's prediction",
  "With an exact solver, on every trading day MinRisk has the least predicted risk within the limits, MaxDiverse the largest diversification ratio of the long-only portfolios within the upper bound, RiskParity equal risk contributions, MeanVariance the largest (uncertainty-adjusted) expected return within the limits and the annual volatility target, fully invested with cash; the returns earned are those of the next row (plus cash at the risk-free rate by position). MaxDiverse without an upper bound never runs.",
  "every history, predictor of symmetric matrices, day, competing portfolio", "optimum over a continuum for all days", f"{X}portfolio_backtests.py:MinRisk", f"{X}portfolio_backtests.py:MaxDiverse", f"{X}portfolio_backtests.py:RiskParity", f"{X}portfolio_backtests.py:MeanVariance")
p("Backtests do not look ahead",
  "The weights of a date depend only on the predictions of that date; with causal predictors, changing the returns after a row changes no weight of a date up to that row (the rolling window predictor is causal).",
  "every pair of histories, causal predictors, strategies", "for all continuations", f"{X}portfolio_backtests.py:_get_causal", f"{X}portfolio_backtests.py:PortfolioBacktest")
p("Backtest results are keyed by name and independent",
  "The keys of the result are the distinct names of the predictors in order of first appearance; a name used twice keeps the trader of the last predictor with it; fewer names than predictors never succeeds: a run that enough names would let through ends with IndexError, as does mean variance with fewer forecasts than predictors (TypeError without any); each entry is what a backtest of its predictor alone gives.",
  "every list of predictors and names", "for all lists", f"{X}portfolio_backtests.py:PortfolioBacktest")
p("What the printed table says",
  "create_table prints the rows of the traders not called PRESCIENT in order, diluted to the volatility target if it is given and not zero; with prescient a last row has PRESCIENT's numbers under the name of the last trader (KeyError after the rule if there is no PRESCIENT); a second table with another nonzero target prints the numbers of the first.",
  "all dictionaries of traders, targets, risk-free returns", "depends on the history of calls", f"{X}portfolio_backtests.py:create_table", f"{X}portfolio_backtests.py:_create_table_helper")
p("The ridge weights are the optimum of the stated regression",
  "ReturnCombinator._get_weights returns the one minimiser of the squared error with row weights that halve every weighted_hf rows and sum to the number of rows, plus alpha times the scaled squares of the weights; it raises LinAlgError exactly if some nonzero combination of predictors vanishes on all rows and is not penalised, ValueError if the numbers of returns and rows differ.",
  "all returns, predictions, scales >= 0, alpha >= 0", "optimum over a continuum", f"{X}return_combination.py:ReturnCombinator._get_weights")
p("ReturnCombinator.fit predicts every row after the first memory rows",
  "For predictions on consecutive rows of the returns, fit returns one prediction per row from the memory-th on, in order: the predictors of that row times the ridge weights of the memory rows before; it succeeds exactly if no window is singular, always for alpha > 0 if every predictor was nonzero once in the first memory rows.",
  "every history, predictors, memory >= 1, alpha >= 0", "for all histories", f"{X}return_combination.py:ReturnCombinator.fit")
p("ReturnCombinator.fit does not look ahead",
  "The predicted return of a row depends only on the predictions up to that row and the returns before it.",
  "every pair of histories", "for all continuations", f"{X}return_combination.py:ReturnCombinator.fit")
p("The penalty of a predictor is the decayed average of its past squares",
  "The scale of row t is the average of the squares before row t with weights that shrink by 250/251 per row: the value called halflife is used as centre of mass, so a row weighs half after 173 to 174 rows, not 250; the first row has none.",
  "every prediction history", "for all histories", f"{X}return_combination.py:ReturnCombinator._get_scales")
p("feature_engineer splits predictions into positive and negative parts without loss",
  "Row labels are kept; column k holds max(v,0), column K+k holds min(v,0), missing stays missing; the two sum to v and at most one is nonzero.",
  "every table of predictions with missing values", "for all inputs", f"{X}return_combination.py:feature_engineer")
p("Lagged and averaged predictors, and the chain to the prediction, are causal",
  "daily_predictors has one column per different lag with the return of row t-lag (missing if there is none); ewma_predictors raises ValueError for a half-life that is not positive, else has one column per different half-life with the average of the returns before row t; predictions by fit on ewma_predictors depend only on returns before the row.",
  "every history, lags, half-lives", "for all histories and continuations", f"{X}return_combination.py:daily_predictors", f"{X}return_combination.py:ewma_predictors", f"{X}return_combination.py:ReturnCombinator.fit")
p("The lasso combination is optimal on each window",
  "With an exact solver the weights of row t minimise squared error plus alpha times the sum of absolute weights over the memory rows before t; this holds exactly if the correlations with the residual are within alpha/2 and attained where a weight is not zero; all weights are zero exactly if alpha is large enough; for alpha > 0 a solution exists; fitted values are unique; both functions agree; no look-ahead; ewma_return_combination on the output of ewma_predictors and the same returns raises ValueError.",
  "every history, alpha, memory, competing weights", "optimum over a continuum", f"{X}return_combination.py:_combinator_problem", f"{X}return_combination.py:ReturnCombinatorOld.fit", f"{X}return_combination.py:ewma_return_combination")
p("tune_alpha reports each alpha's own correlation and error",
  "The lists have one entry per alpha in order; entry j is the fit with alpha j alone: weights, correlation (in [-1,1], nan if one side is constant, not affected by shifting and scaling predictions) and root mean squared error (zero exactly for right predictions, nan without predictions) over all predicted dates and assets.",
  "all alphas, histories", "for all inputs", f"{X}return_combination.py:tune_alpha")
p("construct_rho is a causal multiple of the standard deviation",
  "The table has the rows of the returns, zero on the first two; on row t it is n_devs times the unbiased standard deviation (weights halving every 125 rows) of the asset's returns before row t; never negative for n_devs >= 0, zero exactly for constant returns, shift invariant, scales with the absolute value; an empty table raises IndexError.",
  "every finite return history, n_devs", "for all histories; a recursion over all rows", f"{X}trading_model.py:construct_rho")
p("Workers of mean_variance and risk_parity solve each date with that date's data",
  "A mean_variance backtest hands the worker pool one task per date; however the pool cuts them into chunks and whatever the shared parameters held before, the problem of date t is solved with that date's whitener, expected returns (0 for cash) and uncertainties; the results come back in the order of the dates. The same holds for the whitener of risk_parity.",
  "every number of dates, every chunking of the pool, every initial parameter state", "all schedules of a worker pool over shared mutable parameters", f"{X}trading_model.py:Trader.solve_mean_variance", f"{X}trading_model.py:Trader.solve_risk_parity", f"{X}trading_model.py:Trader.backtest")
p("Trader.backtest: which calls succeed and what a failed call leaves",
  "With a solver that never fails, a call returns normally exactly if the uncertainties (if given) have a row for every date and the arguments its type needs are there: none for eq_weighted and risk_parity, no C_speedup for min_risk, kappa too for robust_min_risk, expected returns and sigma_des for mean_variance, an upper bound for max_diverse; vol_cont, max_sharpe and unknown names always raise; a missing bound raises KeyError, the other missing arguments AssertionError. A successful call leaves one row per date, the (for risk_parity and max_diverse normalised) solution of that date's own problem; robust_min_risk uses the volatilities of the first date. A failed call has changed the portfolio type and the adjustment factor but not the weights: after any sequence of calls the weights are those of the last successful call, type and factor those of the last call. So a failed mean_variance or vol_cont call makes get_total_returns of earlier weights without cash raise ValueError.",
  "every argument combination and every sequence of calls, failing or not", "all histories of a mutable object including exceptions", f"{X}trading_model.py:Trader.backtest", f"{X}trading_model.py:Trader.get_total_returns")
p("The vectorised helpers agree with the library",
  "With a gap after the r-th eigenvalue and 1 <= r <= n, the vectorised _regularize_correlation gives the library's low-rank plus diagonal matrix for every matrix of the stack; with volatilities, correlations and the Engle formula of the vectorised file this is regularize_covariance. It accepts every integer rank: the result is symmetric, keeps the diagonal and definiteness; r >= n changes nothing, 0 keeps the diagonal only, -k means n-k; only an empty stack raises ValueError. Realised variances are the diagonals of the realised covariances.",
  "all stacks of symmetric matrices, all integer ranks, every correct eigensolver", "for all matrices and solvers", f"{X}iterated_ewma_vec.py:_regularize_correlation", f"{X}iterated_ewma_vec.py:_refactor_to_corr", f"{X}iterated_ewma_vec.py:_get_realized_covs", f"{X}iterated_ewma_vec.py:_get_realized_vars")
p("realized_ewma averages the realised covariances of the labels before",
  "Without clipping, the matrix of label k (from the second on) is the average, with weights that halve every halflife labels, of the realised covariances of the labels before k, whatever min_periods is; all are positive semidefinite; adding a constant per label changes nothing and scaling returns by c scales them by c squared. A label with one row raises TypeError at the call, an empty table IndexError, clipping with min_periods None or 0 AssertionError before the first item.",
  "every table with repeated labels, half-life > 0, min_periods", "a recursion over all labels", f"{X}experiment_utils.py:realized_ewma", f"{X}experiment_utils.py:realized_covariance", f"{X}iterated_ewma_vec.py:ewma")
p("yearly_SR reports one annualised Sharpe ratio per calendar year",
  "With plot=False the result has every year from the first to the last year with more than 100 rows, in order; such a year has sqrt(252) times mean over standard deviation (ddof 1) of exactly its own returns, a year between with at most 100 rows is nan, a constant year is infinite with the sign of its returns, or nan if they are 0; leverage c > 0 and the order of the rows do not matter; ValueError exactly if the numbers of returns and labels differ.",
  "every index, calendar and returns", "for all histories and calendars", f"{X}experiment_utils.py:yearly_SR")
p("Optimality of the combination weights can be checked with K numbers",
  "The marginal score of an expert at weights w is, over the window, the sum of the ratios of its diagonal precision entries to the blend's minus the inner product of its standardised returns with the blend's. Weights on the simplex maximise the window likelihood exactly if no marginal score exceeds the weighted average (which is assets times window minus the blend's sum of squared standardised returns); experts below the average get weight zero. If the excess is at most d, no mixture is more than d better. Results of solve with an exact solver pass the test, and no other weights do.",
  "every panel, window, time, weights", "optimum over a continuum", f"{C}:_CombinationProblem", f"{C}:_CovarianceCombination.solve")
p("An inexact solver gives nearly optimal predictions",
  "If the solver returns feasible weights whose objective is within d of the best, then every result of solve is at most d less likely on the window than any mixture and any single expert; the squared error of weight k is at most 2d times entry kk of the inverse window Gram matrix; and for every e there is a d such that every predicted mean and covariance is entrywise within e of the exact one, for all times and requests.",
  "every panel, tolerance, solver history", "all solvers within a tolerance; a limit", f"{C}:_CovarianceCombination.solve", f"{C}:_CovarianceCombination._solve")
p("The whole method does not look ahead",
  "Build from_ewmas(returns, pairs) once from some returns and once from these and later ones. If the window is shorter than the list of predictions for the first returns, and solve(window) on the longer history yields something, the items of the shorter run (times, means, covariances, weights by label) are the first items of the longer one; if the longer run ends normally so does the shorter, with one item per prediction from the window on. If the longer construction succeeds, the shorter one succeeds or raises IndexError because no row enters yet.",
  "all return histories (with missing entries), all continuations, pairs, arguments, windows, deterministic solvers", "a statement about all continuations of a history", f"{C}:from_ewmas", f"{C}:_CovarianceCombination.solve", f"{E}:iterated_ewma")
p("The whole method does not depend on units",
  "If the returns of asset i are multiplied by d_i (not zero, also negative), from_ewmas succeeds or raises the same exception, and solve yields the same times and labelled weights, means times d_i and covariances times d_i d_j, and fails in the same cases.",
  "all histories (with missing entries), factors, pairs, arguments, windows, requested times", "for all inputs and rescalings", f"{C}:from_ewmas", f"{C}:_CovarianceCombination.solve", f"{E}:iterated_ewma")
p("Only the experts matter, not how the pairs are listed",
  "The experts are the last pairs with their labels. Two lists of pairs with the same experts give the same times, means, covariances and the same weight for each label, only the order of the labels may differ, and fail in the same cases. In particular a rearrangement of pairs with distinct labels changes nothing, also not whether from_ewmas succeeds.",
  "all histories, lists of pairs (with repeats), arguments, windows, requested times", "for all inputs and rearrangements", f"{C}:from_ewmas", f"{C}:_CovarianceCombination.solve", f"{C}:_CombinationProblem.weights")
p("What the whole method yields",
  "If from_ewmas(returns, pairs) succeeds with at least two results per expert, every result of solve(window, times) with an exact solver is for one of the requested times, at which a full window of returns is available without missing entries; its weights are labelled with the experts' labels, lie on the simplex and maximise the likelihood of the window's returns under the blended one-step-earlier iterated_ewma predictions; its mean and covariance are the blend, with these weights, of the iterated_ewma predictions of that time. Without missing returns and degenerate windows there is exactly one result per prediction from the window on; with a degenerate window LinAlgError before the first result.",
  "all histories (with missing entries), lists of pairs, arguments, windows, requested times", "for all inputs; optimum over a continuum", f"{C}:from_ewmas", f"{C}:_CovarianceCombination.solve", f"{C}:_CombinationProblem", f"{E}:iterated_ewma")
p("solve accepts every integer window",
  "With increasing times, window None or 0 means all of the history, a larger one than the history is capped, and a positive one means exactly that many predictions (the indexing never leaves the lists, the sums are never empty). A negative window never gives a result: solve raises before the first item, IndexError if the returns are there and the request is a valid one.",
  "every integer window, object, request, solver", "for all integers and histories", f"{C}:_CovarianceCombination.solve")
p("solve needs sorted times",
  "If the times of the predictions (in the order of the first expert's dictionary, without the first) are neither increasing nor decreasing, solve never gives a result, and raises if no times are requested; for decreasing times this holds for windows of at least 2, while with window 1 it works as for increasing ones.",
  "every order of the index, window, request, solver", "for all orders of the index", f"{C}:_CovarianceCombination.solve", f"{C}:_A")
N = "experiments/extensions/"
p("L1 smoothing is an optimal trade-off over all matrices",
  "For a non-empty dictionary of positive semidefinite covariances and lamda0 >= 0, L1_smoothing returns the same dates; the first matrix is unchanged and every later one is the unique minimiser, over ALL matrices B (not only those on a line), of half the squared Frobenius distance to the unsmoothed matrix plus lamda0 times the distance to the previous smoothed one. So it is within lamda0 of the unsmoothed one, moves by max(distance - lamda0, 0) along the segment, never more than the unsmoothed sequence does; symmetry, semidefiniteness and definiteness are kept; lamda0 = 0 and constant sequences change nothing; later dates do not matter; the update flag is 1 exactly where the matrix moves. An empty dictionary, a negative lamda0 with two dates and a matrix to move to that is not semidefinite raise.",
  "every dictionary, dimension, lamda0, exact solver", "an optimum over a continuum of matrices, by induction over the dates", f"{N}smoothing.ipynb:L1_smoothing", f"{N}smoothing.ipynb:get_next")
p("EWMA smoothing of covariances",
  "ewma_smoothing returns, for every date but the first, the half-life weighted average of all covariances up to and including that date. Bounds in the semidefinite order, semidefiniteness and definiteness carry over, constant matrices are unchanged, later dates do not matter; the first date has no smoothed matrix.",
  "every dictionary of finite matrices, positive half-life", "for all histories", f"{N}smoothing.ipynb:ewma_smoothing")
p("Relative change of a covariance sequence",
  "frob_difference returns for every date but the first the Frobenius distance from the previous matrix divided by the norm of the previous matrix: not negative, zero exactly where nothing changed, independent of the unit of the returns. After a zero matrix it is nan (zero again) or +inf; an empty dictionary raises ValueError.",
  "every dictionary of finite matrices", "for all histories", f"{N}smoothing.ipynb:frob_difference")
p("Generative mode draws from the half-life average of data and samples",
  "In the generative mode _ewma_cov yields for every row the half-life weighted average of the outer products up to it, then sample i drawn from a normal distribution whose covariance is the half-life average of the outer products of all rows and of the samples before it, each counted as a further row (with genarative_data: of the rows given before it). These covariances are positive semidefinite. More samples than rows of genarative_data raise IndexError after as many samples as rows; min_periods >= 2 raises ValueError before anything is yielded.",
  "every table of finite returns, positive half-life, number of samples, sampler", "an invariant over any number of updates", f"{N}generative_mode.ipynb:_ewma_cov", f"{N}generative_mode.ipynb:_general")
p("Sampling experiment",
  "run_sampling_experiment returns the training table unchanged, followed by the samples at the first test dates in order, sample i drawn from the covariance fitted to the training table and the samples before it; it succeeds exactly if all fits and draws do and there are enough test dates.",
  "every fit, sampler, table, number of samples", "for all histories", f"{N}generative_mode.ipynb:run_sampling_experiment")
X2 = "experiments/"
p("The prescient predictor",
  "The dictionary prescient of the experiment notebooks has exactly the dates of the returns as keys. A date whose calendar quarter has at least two rows gets the sample covariance of all rows of the quarter, past and future, plus the outer product of their mean, which is the second moment matrix plus the sample covariance divided by the number of rows, a positive semidefinite matrix; dates of the same quarter get the same matrix. A date alone in its quarter gets a matrix of nans.",
  "every table of finite returns, every calendar", "for all tables", f"{X2}factor_portfolios.ipynb:prescient", f"{X2}industry_portfolios.ipynb:prescient", f"{N}smoothing.ipynb:prescient")
p("How far the prescient predictor is from the best one",
  "If the second moment matrix of the rows of a quarter is positive definite (and there are at least two), it alone maximises the zero-mean Gaussian log-likelihood of the quarter among ALL positive definite covariances held over the quarter. The prescient matrix is positive definite and strictly worse unless the sample covariance is zero, in total by at most n N / (2 (N - 1)); so the log-likelihood of the quarter under the prescient matrix minus that under any other positive definite matrix is at least minus that.",
  "every table of finite returns, date, covariance", "an optimum over a continuum of matrices", f"{X2}factor_portfolios.ipynb:prescient", f"{X2}factor_portfolios.ipynb:regrets")
p("The prescient predictor with means",
  "The variant with means predicts the mean and the unbiased sample covariance of all rows of the quarter. If the latter is positive definite, the mean with (N - 1)/N times it has a larger Gaussian log-likelihood than ALL other means and positive definite covariances; the prediction is short of it by n N / 2 (log(N / (N - 1)) - 1/N), whatever the returns.",
  "every table of finite returns, date, mean, covariance", "an optimum over a continuum", f"{N}nonzero_means.ipynb:prescient")
p("Covariances survive being saved and read",
  "from_upper_triangular_to_full turns a list of n (n + 1) / 2 numbers, for any n, into the symmetric n x n matrix whose upper triangle, row by row, is the list, and raises ValueError for a list of any other length. from_csv_to_cov after save_cov_to_csv gives back the same dates in the same order with the symmetric matrices that agree with the saved ones on and above the diagonal; nothing saved under another name changes; another number of assets raises ValueError. After any series of calls a name that was never saved raises FileNotFoundError, and otherwise the last save under the name decides.",
  "all lists, all dictionaries of matrices of any size, all states of the files, all histories of saves", "for all sizes (the size is recovered by a rounded square root)", f"{N}large_universes.ipynb:save_cov_to_csv", f"{N}large_universes.ipynb:from_upper_triangular_to_full", f"{N}large_universes.ipynb:from_csv_to_cov")
p("Full covariances as factor models",
  "For a dictionary of symmetric matrices get_choleskys returns two dictionaries with the same dates if all matrices are positive definite, and raises LinAlgError otherwise. For every date F is lower triangular with positive diagonal, d is zero, and F F^T + diag(d) is the covariance.",
  "every dictionary of symmetric matrices", "for all matrices", f"{N}large_universes.ipynb:get_choleskys")
p("tune_returns cuts each row at its own quantiles",
  "With 0 <= lower <= upper <= 1 every row is cut at its linearly interpolated quantiles of these levels: entries between them keep their values, lower ones become the lower quantile and larger ones the upper; labels and order are kept. Fewer than lower (n - 1) + 1 entries of a row are raised, fewer than (1 - upper)(n - 1) + 1 lowered, and no two assets change their order. Exchanged arguments give the same result, levels outside [0, 1] raise ValueError.",
  "every table of numbers, all levels", "for all rows of any length", f"{X2}industry_portfolios.ipynb:tune_returns")
p("tune_returns does not depend on units, origin or order",
  "tune_returns commutes with x -> a x + b (a >= 0), with every reordering of the assets, and - with the levels 1 - upper and 1 - lower - with a change of sign; larger predictions are never tuned to smaller ones; each row is tuned on its own.",
  "every table, levels, a, b, permutation", "for all rows of any length", f"{X2}industry_portfolios.ipynb:tune_returns")
p("tune_returns2 marks the extreme entries of a row",
  "tune_returns2 gives 1 to the entries above the 0.9-quantile of their row, -1 to those below the 0.1-quantile and 0 to the others; fewer than (n - 1)/10 + 1 entries are 1, and as few -1; adding a constant to a row does not change the result, so signs of the predictions play no role.",
  "every table of numbers", "for all rows of any length", f"{N}nonzero_means.ipynb:tune_returns2")
p("Moving autocorrelations",
  "Without missing entries get_moving_autocorrelations is the half-life average of the products over the roots of the half-life averages of the squares: in [-1, 1], nan while all returns or predictions are zero, independent of the units. With the returns of the day before as predictions, as the notebook uses it, it is only bounded by the root of the ratio of the sums of weights of s + 2 and s + 1 rows, which exceeds 1; whenever the second return of an asset is larger in absolute value than the first (not zero) the second value lies outside [-1, 1]. With missing entries every average runs over the entries that are there, weighted by their age in rows; the value is nan until a return and a prediction are there in the same row, and when an average of squares is 0; if they are missing in the same rows it lies in [-1, 1].",
  "every table of returns, half-life", "Cauchy-Schwarz for all histories", f"{X2}industry_portfolios.ipynb:get_moving_autocorrelations")
p("Sign predictions pick the ten largest and the ten smallest",
  "With at least twenty columns and entries that are smaller than 1 and not -1, get_sign_prediction turns each row into ones for its ten largest positive entries (all, if fewer), minus ones for its ten smallest negative ones and zeros elsewhere, however np.argsort orders ties. In any case the entries are -1, 0 and 1; fewer than ten columns raise ValueError; ten columns, or twenty and more with all entries above 1, give zeros.",
  "every table of numbers, every correct argsort", "for all rows and all orders of ties", f"{X2}industry_portfolios.ipynb:get_sign_prediction")
p("What CM-IEWMA predicts",
  "The CM-IEWMA cell of the notebooks (experts from iterated EWMAs, first one regularised, combined over a window) on returns without missing entries, not all 0 in the first min_periods_vola rows: it predicts once, in order, for every row from min_periods_vola + min_periods_cov - 2 + window on. The prediction for a row is positive definite: the blend, with weights on the simplex, of the iterated EWMA covariances of the returns up to the row (the diagonal of the one labelled like the first pair times 1 + lamda), and these are positive definite; with an exact solver the weights maximise the Gaussian likelihood of the returns of the last window rows, each under the blend of the experts of the row before. With a solver that finds the optimum the cell runs through exactly if all experts are finite and positive definite after the warm-up and no window is degenerate. Otherwise it raises LinAlgError (experts or a window that are not positive definite), the first exception of the solver other than SolverError, or AttributeError if it fails with SolverError only.",
  "every history of returns, half-lives, minimum numbers of rows, window, lamda, number of assets, solver", "for all histories and all solvers", f"{N}generative_mode.ipynb:fit_cm_iewma", f"{X2}industry_portfolios.ipynb:cm_iewma")
p("CM-IEWMA does not look ahead",
  "If the cell runs on a longer history that agrees with a shorter one on the rows of the shorter one (which has room for the whole window), it runs on the shorter one and its predictions are the first predictions of the longer run.",
  "every pair of histories with a common beginning, every solver", "about pairs of executions", f"{N}generative_mode.ipynb:fit_cm_iewma")
p("Returns sampled from CM-IEWMA",
  "fit_cm_iewma returns a positive definite blend of the experts of the last row, with weights that (exact solver) maximise the likelihood of the last ten returns (fewer if there are fewer after the warm-up). In run_sampling_experiment with it (at least 135 training rows, increasing dates) every sample is drawn from a positive definite covariance, the one fitted to the table before it; and CM-IEWMA run afterwards on the table with any number of samples predicts for the row before each of them exactly the covariance that sample was drawn from.",
  "every history, sampler, solver and list of test dates", "about all draws, and relates different executions", f"{N}generative_mode.ipynb:fit_cm_iewma", f"{N}generative_mode.ipynb:run_sampling_experiment")
p("CM-IEWMA does not depend on units",
  "If the returns of each asset are multiplied by a number d_i other than 0 (also negative), the cell succeeds in the same cases (with solvers that find the optimum), for the same dates, and its covariances are multiplied by d_i d_j.",
  "every history and all factors", "about pairs of executions", f"{N}generative_mode.ipynb:fit_cm_iewma")
p("Experts from pandas' exponentially weighted covariances",
  "For returns without missing entries, the experts of the second README example have an entry for every row from number min_periods (at least the second) on and none before: the unbiased covariance of all rows up to it with weights that halve every half-life. The variance it gives any portfolio is the variance of the returns of the portfolio; it is symmetric and positive semidefinite, positive definite exactly if no portfolio but the empty one has had constant returns so far; adding constants to returns changes nothing, units factor out. So with min_periods at most the number of assets the example raises LinAlgError, whatever the returns. Half-lives that are not positive raise ValueError.",
  "every history of returns, half-life, min_periods, number of assets", "an invariant of a recursion, for all histories", "README.md:General covariance combination", "cvx/covariance/combination.py:from_sigmas", "tests/test_from_sigmas.py")
p("The second README example",
  "The example (any number of half-lives, any min_periods and window) predicts once, in order, for every row from the first with experts plus the window on: the blend, with weights on the simplex, of the exponentially weighted covariances of the row, a positive definite matrix; with an exact solver the weights maximise the likelihood of the returns of the window under the blends of the row before each. It runs through (with a solver that finds the optimum) exactly if no portfolio has constant returns on the rows up to the first expert and no window is degenerate. Later rows never change earlier predictions. Otherwise it raises LinAlgError (experts or a window that are not positive definite), AttributeError if the first failure of the solver is a SolverError, or else the exception of the solver.",
  "every history of returns, half-lives, min_periods, window, number of assets and experts, solver", "for all histories and all solvers, and about pairs of executions", "README.md:General covariance combination", "cvx/covariance/combination.py:_CovarianceCombination.solve")
p("The second README example does not depend on units",
  "If the returns of each asset are multiplied by a number d_i other than 0 (also negative), the example predicts for the same dates (with solvers that find the optimum), and its covariances are multiplied by d_i d_j.",
  "every history and all factors", "about pairs of executions", "README.md:General covariance combination", "cvx/covariance/combination.py:_CovarianceCombination.solve")
p("Returns of the demo notebook from prices with gaps",
  "prices.pct_change().dropna(axis=0, how='all')[columns] on positive prices, some missing: a row for every day but the first on which some asset (also one not selected) had a price before; the return is the last known price over the last known price of the day before, minus one - 0 where the price is missing, missing where there is no earlier price. The returns compound to the prices across gaps, do not depend on currency or size of shares, and later prices never change earlier returns.",
  "every table of positive prices with any gaps, any columns", "for all histories and patterns of gaps", "book/marimo/demo.py:returns")
p("The table of weights of the demo notebook",
  "The demo (any prices, columns, pairs, min_periods, clip bound, mean, window) makes a table with one row for each time of the experts from the window on, in order, and one column for each label: weights that are nonnegative with sum 1 and, with an exact solver, the unique maximizers of the likelihood of the window; no return of a window is missing. The table does not depend on currency or size of shares; with later prices it only gets more rows. Otherwise it raises what from_ewmas raises, LinAlgError (a missing return in a window, or a window without a unique optimum), AttributeError if the first failure of the solver is a SolverError, or else the exception of the solver.",
  "every table of positive prices with any gaps, all arguments, every solver with feasible weights", "for all histories and solvers, and about pairs of executions", "book/marimo/demo.py:weights", f"{C}:from_ewmas")
p("The portfolio problems have a solution",
  "For a positive definite covariance, min_risk, vol_cont and robust_min_risk have exactly one solution if any portfolio is within the limits (with the standard ones: if there are at least seven assets), max_diverse exactly one if the upper bound times the number of assets is at least one, risk_parity always exactly one; mean_variance has a solution exactly if a portfolio with cash is within its limits, i.e. for limits that allow not to invest, exactly if the volatility target is not negative.",
  "every positive definite covariance, number of assets, limits", "existence and uniqueness in a continuum", f"{X}trading_model.py:Trader.backtest")
p("When a backtest goes through",
  "With symmetric predictions and a solver that solves every solvable problem exactly, a backtest of EqWeighted, MinRisk, MaxDiverse or RiskParity goes through exactly if there is a trading day, every predictor has a name and a positive definite prediction for every trading day, and the limits leave room for a portfolio; MeanVariance (limits that allow not to invest) exactly if besides there are expected returns (and uncertainties, if given) for every trading day and the target is not negative.",
  "every history, list of predictors, strategy, limits", "for all histories and predictors", f"{X}portfolio_backtests.py:MinRisk.backtest", f"{X}portfolio_backtests.py:RiskParity.backtest", f"{X}trading_model.py:Trader.backtest")
p("Weights do not depend on the units of the predictions or the solver",
  "If every predicted matrix is multiplied by a positive number (another one for every predictor and date; variances per year instead of per day), backtests of EqWeighted, MinRisk, MaxDiverse and RiskParity give the same dates, weights and returns, with any exact solvers, and go through in the same cases (with solvers that solve every solvable problem).",
  "every pair of backtests that differ by positive factors only, all factors", "about pairs of executions", f"{X}portfolio_backtests.py:MinRisk.backtest", f"{X}trading_model.py:Trader.backtest")
p("The order of the assets does not matter to a backtest",
  "If the columns of the returns and the rows and columns of the predictions are reordered, the weights of EqWeighted, MinRisk, MaxDiverse and RiskParity are reordered alike, dates and portfolio returns stay the same, and the backtest goes through in the same cases.",
  "every backtest and permutation of the assets", "about pairs of executions", f"{X}portfolio_backtests.py:MinRisk.backtest", f"{X}trading_model.py:Trader.backtest")
p("The tables of the experiment notebooks",
  "In the tables with a volatility target, on every trading day the portfolio gets the share of the money that makes its predicted annual volatility the target, the rest is cash; the assets earn the returns of the row after the day, cash earns the risk-free rate of the day itself. Reported are 252 times the mean of the returns in excess of that rate, sqrt(252) times the standard deviation of the returns (not of the excess returns), the quotient and the drawdown, in the order of the names. MeanVariance alike with its own cash. If the backtest goes through, so does the table if the risk-free series is taken by the dates of the trader; if the series itself is given, exactly if no return between start and end is missing (else ValueError).",
  "every history of returns and risk-free rates, list of predictors, start and end, strategy, target other than 0, exact solver", "for all histories and predictors", "experiments/industry_portfolios.ipynb:217-224", "experiments/industry_portfolios.ipynb:627-629", f"{X}portfolio_backtests.py:create_table", f"{X}trading_model.py:Trader.get_metrics")
p("From returns to a portfolio: no look-ahead",
  "Fitting CM-IEWMA to a table of returns and running EqWeighted, MinRisk, MaxDiverse or RiskParity on its predictions (start not before the first prediction): every row from the start to the one before the end is a trading day; the weights of day t are the ones the strategy is meant to hold (least predicted risk within the limits, and so on) under a positive definite covariance, the one that fitting on the rows up to t alone gives; they earn the returns of row t+1. Two tables of any lengths that agree up to row t give the same weights at t, whatever the solvers. It goes through exactly if the fit does and the limits leave room for a portfolio (solvers that find the optimum).",
  "every complete table of returns, pairs of half-lives, min_periods, window, start and end, strategy, limits", "for all histories, and about pairs of executions", "experiments/industry_portfolios.ipynb:162-174", f"{X}portfolio_backtests.py:MinRisk.backtest", f"{C}:from_sigmas")
p("From returns to a portfolio: units do not matter",
  "If all the returns are multiplied by a number k other than 0, fit and backtest (as before) go through too, with the same dates and weights, and the returns of the portfolio are multiplied by k; with a volatility target and no interest not even the returns change (k positive).",
  "every complete table of returns and factor, all arguments, solvers that find the optimum", "about pairs of executions", "experiments/industry_portfolios.ipynb:162-174", f"{X}portfolio_backtests.py:MinRisk.backtest", f"{X}trading_model.py:Trader.dilute_with_cash")
p("Log-likelihoods and regrets of the experiment notebooks",
  "The log-likelihood cell scores the matrix predicted at each date on the return of the next date of the predictor, with the zero-mean Gaussian log-density, under that next date; nan matrices give nan, a date without a return raises KeyError, a singular matrix (but the last) LinAlgError, an empty predictor ValueError. The regret is the entry of PRESCIENT minus that of the predictor (KeyError without PRESCIENT). Quarterly means have one entry for every calendar quarter from the first to the last date: the mean over the dates in it, nan if there are none. 'A is better than B x of the time' is the share of the quarters in which A has a higher log-likelihood than B, whatever PRESCIENT is. The table has a row for each predictor but PRESCIENT with mean, population standard deviation and maximum of the quarterly means. Multiplying the returns of each asset by d_i other than 0 and the covariances by d_i d_j does not change the regrets.",
  "every table of returns without gaps, list of predictors on common dates, calendar", "for all histories and predictors, and about pairs of executions", "experiments/industry_portfolios.ipynb:368-380", "experiments/industry_portfolios.ipynb:498-522", "experiments/industry_portfolios.ipynb:593-609", f"{X}experiment_utils.py:log_likelihood")
p("The regret against PRESCIENT is one row late and not bounded below",
  "In the scores of PRESCIENT the first row of a quarter is scored with the matrix of the quarter before, only the other rows with that of their own quarter. So the bound of C141 for the regret of a constant prediction over a quarter holds up to the difference of those two scores of the first row only, and for every bound there are returns and a constant positive definite prediction with a mean quarterly regret below minus the bound.",
  "every table of returns without gaps and calendar; every bound", "for all histories; existence for every bound", "experiments/industry_portfolios.ipynb:183-190", "experiments/industry_portfolios.ipynb:368-380")
p("CM-REWMA: combination of realized covariances",
  "From intraday returns (in chronological order, at least two rows per day, no gaps) the CM-REWMA cell predicts for every day from the second plus the window on: the average of the daily scatter matrices of the intraday returns up to the day, with weights that halve every half-life, one per half-life, blended with weights on the simplex that (exact solver) maximise the likelihood of the last daily returns under the blends of the day before each; positive definite. No look-ahead. It goes through exactly if no nonempty portfolio has the same return in all rows of the day on each of the first two days, and no window is degenerate; too few rows on the first two days: LinAlgError; a day with a single row: TypeError; no rows: IndexError.",
  "every table of intraday returns, half-lives, window, solver", "for all histories, and about pairs of executions", f"{N}realized_covariance.ipynb:91-99", f"{X}experiment_utils.py:realized_ewma", f"{C}:from_sigmas")
p("Daily from intraday returns",
  "The daily returns are the compounded returns of the rows of each day, every day once, in chronological order; the growth of each asset over all days is that over all rows, in whatever order they come. The order of the rows within the days makes no difference to the predictions of CM-REWMA (or its exception).",
  "every table of intraday returns", "for all histories, and about pairs of executions", f"{N}realized_covariance.ipynb:55")
p("CM-IEWMA with means",
  "The cells that combine iterated EWMAs with means give three tables with the same dates: every row from the first one with predictions of the experts plus the window on, in order. The weights are on the simplex and, with an exact solver, maximize the likelihood of the returns of the window under the blends of the experts' means and covariances of the row before each; covariance (positive definite) and mean are those blends for the row itself. They use no later return: a shorter table of returns gives the first rows of the tables. With a solver that finds the optimum, the cell goes through exactly if the experts are finite and positive definite and no window is degenerate; otherwise it raises LinAlgError (or what the solver raises; AttributeError for a solver failure). Too short a list of half-lives raises IndexError, no experts KeyError.",
  "every complete table of returns, lists of half-lives, min_periods, window, number of experts, solver", "for all histories and solvers, and about pairs of executions", f"{N}nonzero_means.ipynb:107-119", f"{N}nonzero_means.ipynb:971-988", f"{E}:iterated_ewma", f"{C}:from_sigmas")
p("CM-IEWMA with means: shifts and units",
  "If a constant vector is added to all the returns, CM-IEWMA with means goes through in the same cases, with the same dates, weights and covariances, and means higher by that vector (any solver). If the returns of asset i are multiplied by d_i other than 0, dates and weights stay the same, covariances are multiplied by d_i d_j and means by d_i (solvers that find the optimum).",
  "every complete table of returns, vector, factors, all arguments", "about pairs of executions", f"{N}nonzero_means.ipynb:971-988", f"{E}:iterated_ewma", f"{C}:from_sigmas")
p("Bands of forecasts",
  "The cells that build expected returns with uncertainties: with the range band the forecast of every row and asset is the mean of the EWMAs with the given half-lives, its uncertainty half the difference of the largest and smallest. No centre has all the averages within less than that; they lie within 2(K-1)/K times the uncertainty of the forecast (4/3 for three), within the uncertainty itself exactly if their mean is midway between the largest and smallest; so with the half-lives 125, 250, 500 of the notebook one of the averages lies outside the band in row 2 whenever the first two returns differ. With the other band (clipped averages) the uncertainty is the largest distance of the averages from the base one, so the objective of mean_variance is at most the return that any of the averages predicts for the same weights; for the range band of three averages this holds with 4/3 of the uncertainties. No later return is used; multiplying the returns of asset i by d_i and adding m_i gives d_i times the forecasts plus m_i and |d_i| times the uncertainties (range band). No half-life or one that is not positive raises ValueError.",
  "every table of returns without gaps, list of half-lives, clipping levels, weights", "for all histories, and about pairs of executions", "experiments/industry_portfolios.ipynb:1230-1240", "experiments/industry_portfolios.ipynb:1258-1278", f"{X}trading_model.py:mean_variance")
p("Yearly weights of the experts and effective half-life",
  "The cells that show the weights by year: the dictionary has an entry, on the simplex, for every date with a result. The table has a row for every calendar year from the first to the last of these dates whose last day lies between start and end (so the year of the end only if the end is its last day): the average of the weights over the dates of the year, again on the simplex, nan if there are none. The effective half-life of a year is the average over its dates of the weighted half-lives, so between the least and the greatest half-life, but 0 for a year without dates, and these zeros count in the mean half-life. Not one half-life per expert: ValueError; no weights at all: TypeError.",
  "every combination of experts, solver, calendar, start and end, half-lives", "for all histories, solvers and calendars", "experiments/industry_portfolios.ipynb:174", "experiments/industry_portfolios.ipynb:251", "experiments/industry_portfolios.ipynb:275-277", f"{C}:_CovarianceCombination.solve")
p("The order of the rows",
  "Rows in increasing order of the index: iterated_ewma goes through them one by one. In any other order (distinct labels) the volatilities and means of the returns are still formed in the order of the rows, but with min_periods_vola above 1 the division by the volatilities sorts the rows by label, so the covariances are formed and the results come in the order of the index. Newest row first this means: the results come oldest first, and every result depends on the newest return (without clip_at and mean, the volatility of an asset changes at every date if the size of its newest return changes). With min_periods_vola at most 1 nothing is sorted.",
  "every frame of finite returns or (nan_to_num) with NaN, every order of the rows, all positive half-lives, all other parameters", "for all histories and orders, and about pairs of executions", f"{E}:iterated_ewma", f"{E}:volatility", f"{E}:center")
p("Random returns: what the EWMA estimates",
  "If the returns are random (any joint distribution with finite moments), the expected mean estimate is the weighted average of the expected returns (unbiased if they are constant), and the expected value of every entry of an exponentially weighted second-moment matrix is the weighted average of the expected products of the returns; if these are the same in all rows, the estimate is unbiased whatever the half-life and the row. The expected square of a volatility is the weighted average of the expected squared returns, and its expected value is at most the root of that. If the products are uncorrelated over time with variance v, the estimate has variance v divided by the effective number of observations, which is 1 in the first row, grows with every row, is at most the number of rows and has the limit (1+b)/(1-b), b = 2^(-1/halflife): the estimate does not become arbitrarily precise.",
  "every probability space and random table of returns with finite moments, every positive half-life, min_periods, row and pair of assets", "about expectations over all outcomes", f"{E}:_ewma_cov", f"{E}:volatility", f"{E}:_ewma_mean")
p("The scores are proper",
  "For a random return with any distribution with finite second moments: the expected log-likelihood of a predicted positive definite matrix (with a given mean) is highest for the true second moments about that mean and for no other matrix; over all pairs of mean and positive definite matrix it is highest for the true mean and the true covariance and for no other pair. The expected MSE of a predicted matrix is that of the true second moments plus the squared Frobenius distance to them. So in expectation no other prediction can beat the truth, for non-Gaussian returns too.",
  "every probability space and random return with finite moments, every predicted mean and matrix, every scale", "about expectations over all outcomes", f"{X}experiment_utils.py:log_likelihood", f"{X}experiment_utils.py:MSE")
p("What a correct prediction buys",
  "The variance of the return of a portfolio is the quadratic form of the true covariance matrix. If on a trading day the covariance of the (random) next returns is the predicted one, MinRisk holds the portfolio of least variance within the limits; if the predicted variance of every portfolio is between lo and hi times the true one, its variance is at most hi/lo times the least. If also the mean is the predicted one, MeanVariance (without uncertainties) has an annualised volatility of at most the target and the highest expected return of all portfolios within limits and target. With dilution by cash the annualised standard deviation of each row's return is the target times the ratio of true to predicted standard deviation, so exactly the target if the prediction is correct.",
  "every backtest with an exact solver, trading day, distribution of the next returns with finite second moments, competing portfolio", "about expectations over all outcomes and all competing portfolios", f"{X}trading_model.py:backtest", f"{X}trading_model.py:dilute_with_cash", f"{X}portfolio_backtests.py:MinRisk", f"{X}portfolio_backtests.py:MeanVariance")
p("Backtests on random histories",
  "Let the table of returns be random (finitely many outcomes) and the predictors causal. If after every row the expected returns of the next row are zero whatever the history, the expected return of every row of every backtest is zero (cash earning nothing), and so is the expected value of the mean return it reports: no strategy, predictor, limit or solver makes money on average. If after every row the predicted matrix is that of the second moments of the next returns, the expected squared return of MinRisk is in every row at most that of any other way to choose portfolios within the limits from the history, and after dilution with cash the expected squared return is the target squared over 252.",
  "every finite probability space of histories, list of causal predictors, strategy, solver, row", "about all histories and all competing strategies at once", f"{X}portfolio_backtests.py:backtest", f"{X}trading_model.py:get_total_returns", f"{X}trading_model.py:dilute_with_cash")
p("The MGARCH predictors",
  "The cells that read the predictors computed in R: with one packed row of n (n + 1) / 2 numbers per day from the 250th day of the returns on, the table has one symmetric matrix per row of the files, keyed in order by the days from the 250th on, and ten thousand times its upper triangle is the row; if the rows are the packed covariances of a hundred times the returns, the table holds the covariances of the returns, exactly. How the rows are spread over files does not matter. No file or a row of another length (other than one) raise ValueError, more rows than days IndexError.",
  "every list of files, index of distinct labels, number of assets", "for all contents of the files and all indexes", "experiments/industry_portfolios.ipynb:139-152", "experiments/factor_portfolios.ipynb:140-148", "experiments/stock_portfolios.ipynb:138-146", f"{X}experiment_utils.py:from_row_matrix_to_covariance")
p("Trading in percent",
  "A trader with its returns multiplied by c > 0, the covariances by c^2 and the adjust factor by c: with the target and the risk-free rates multiplied by c, get_total_returns leaves the same weights and c times the returns and get_metrics the same four numbers, or both raise the same exception. With excess=True, where the rates must be fractions, the cash of a diluted portfolio earns c times too little: the mean excess return is lower by exactly 252 (1 - 1/c) times the mean interest on the cash, and the risk is that of the returns in the new units. With a target multiplied by k instead of c the predicted volatility is k / c times the target.",
  "every trader, c > 0, target, risk-free rates", "about pairs of executions, for all histories", f"{X}trading_model.py:get_total_returns", f"{X}trading_model.py:get_metrics", f"{X}trading_model.py:dilute_with_cash", f"{N}large_universes.ipynb:541-546", f"{N}large_universes.ipynb:623-627")
p("Generators are lazy and independent",
  "Calling solve does nothing. What a generator returns depends only on the calls of next on it and on the changes of its data, not on "
  "other calls of solve or what is done with other generators. Whatever the caller does in between (further calls of solve, next on any of the generators in any order, changes of the frame of returns, of the list times, of the keys of the dictionary of covariances as long as their number stays the same), the k-th next of a generator returns the k-th item of solve() exhausted at once on the returns and times as they are at its first next, then raises its exception, if any, once, then StopIteration. The weights are labelled with the keys the dictionary has at that next, in the order of that moment. With more keys than the constructor has seen the first next raises IndexError instead of returning a result, with fewer ValueError; later ones ValueError in both cases. iterated_ewma yields the results for the frame as it is at the first next, whatever is done to the frame before or later.",
  "every sequence of operations (schedule) on one object with any number of generators, every solver, window, times, data", "for all schedules and histories of changes", f"{C}:solve", f"{C}:_CombinationProblem", f"{C}:_CovarianceCombination", f"{E}:iterated_ewma")

p("The vectorised iterated_ewma of the experiments never returns",
  "Every call of experiments/utils/iterated_ewma_vec.iterated_ewma with a frame of numbers raises TypeError and returns nothing, "
  "whatever the frame (also an empty one), half-lives, warm-ups, mean, low_rank and clip_at are: it takes the square root of what "
  "ewma returns, and ewma is a generator function, whose call gives a generator and runs none of its code. The cause is that call "
  "alone: with a function ewma that returns arrays the code goes on, with the square roots of what that function makes of the "
  "squared returns.",
  "all frames of finite numbers (any number of rows and columns), all half-lives, warm-ups, values of mean and clip_at, all "
  "continuations after the first use of ewma",
  "A test shows one call that raises. That no arguments and no data, empty frames included, get past that line is a statement about "
  "every call.",
  X + "iterated_ewma_vec.py: iterated_ewma, ewma")

p("The table of quarterly mean squared errors",
  "The cell that compares the predictors by MSE prints for each of them, in order, the mean, the sample standard deviation and the "
  "maximum of the quarterly errors. The error of a quarter is the mean of the squared Frobenius distances between the matrices predicted "
  "at the dates of the quarter and the outer products of the returns of the rows after them; a prediction without a next row, or "
  "whose next row has a missing entry, is left out, and so is a quarter without any other prediction. One quarter gives nan as "
  "standard deviation, none nan for all three. (The table of regrets of the same notebooks divides by the number of quarters instead "
  "and books a prediction in the quarter of the return.) The cell stops at the first predictor that raises: TypeError if it is empty, KeyError for a "
  "date the returns do not have, IndexError without a name. Multiplying the returns by k and the covariances by k^2 multiplies all "
  "three numbers by k^4; the order of the assets does not matter.",
  "all tables of returns with dates in order and missing entries, all lists of predictors on dates of the table, calendars, names, all "
  "factors and permutations",
  "A test compares printed numbers for one data set. Which predictions enter which quarter, that missing returns drop out and what a "
  "change of units does hold for every table.",
  X2 + "industry_portfolios.ipynb: cell at line 332", X2 + "stock_portfolios.ipynb: cell at line 321", X2 + "factor_portfolios.ipynb: cell at line 345",
  N + "realized_covariance.ipynb: cell at line 236", X + "experiment_utils.py: MSE")

p("Daily returns compounded to yearly ones",
  "The cell that compounds daily returns (and the risk-free rate) gives one row per calendar year, from the first to the last year of the "
  "table, in order. One plus the entry of a year is the product of one plus the returns of that year: missing returns count as zero, and "
  "a year without any row or return gives exactly 0, not nan. The product over the years is the product over all days, so a dollar "
  "ends at the same value. Daily returns above -100% give yearly ones above -100%, with logarithms that add up; the result is at most exp of "
  "the sum of the returns minus one, and at least the sum if none is negative.",
  "all tables of returns with missing entries, all assignments of years to the rows, all assets",
  "A test compounds one table. That nothing is lost or counted twice whatever the years, gaps and missing entries is a statement about "
  "all tables.",
  N + "nonzero_means.ipynb: cell at line 907")

p("The frame of portfolio values mixes up the traders",
  "The frame all_Vs of six traders with T values each has T rows, but it is made by reshape(-1,6) of the traders' histories and not by a "
  "transpose: counted row by row, cell c holds the value of trader c // T at time c % T. All values are there once, but the columns are "
  "not the histories of the traders they are named after: from T = 2 on the second cell of the first row is the second value of the "
  "first trader, and from T = 6 on the first row is all his; only T = 1 is right. Histories of different lengths, another number of "
  "names than six and a number of values not divisible by six raise ValueError, nothing else does.",
  "all numbers of days, all histories of portfolio values, all lists of names",
  "The shape of the frame is right for every T, so a test of the shape passes; which value is in which cell is a statement about all "
  "lengths and histories.",
  N + "nonzero_means.ipynb: cell at line 749")

p("How often and how far smoothed covariances move",
  "For a sequence of T + 1 positive semidefinite matrices smoothed with L1_smoothing the list called mean_days_between_updates holds the share of the "
  "T days on which the smoothed matrix changes, and mean_updates_every its reciprocal, the days per change: inf if it never changes, nan if T = 0 "
  "(the two names are swapped). The smoothed sequence covers at most the distance of the unsmoothed one over any stretch of days, and does not move at all if "
  "this one stays within lamda of its start. Two sequences of inputs give outputs that differ, at any time, by at most the sum of the "
  "differences up to then. Multiplying the matrices and lamda by k > 0 multiplies the result by k and leaves the updates as "
  "they are. The normalised average regrets are the averages divided by the one of 'No smoothing', which gets 1; a series without any value gets nan, and if 'No smoothing' is one all do; without a series "
  "of that name the cell raises KeyError.",
  "all sequences of positive semidefinite matrices, all lamda >= 0, k > 0, all exact solvers; all dictionaries of regrets with missing values",
  "A test runs one sequence with one lamda; the bounds on movement, the continuity in the data and the change of units concern all of "
  "them.",
  N + "smoothing.ipynb: L1_smoothing, get_next", N + "smoothing.ipynb: cells at lines 248, 736")

p("Rounding errors of the EWMAs do not accumulate",
  "In an arithmetic whose operations have relative error u and absolute error eta, with u + eta small enough for the half-life h "
  "(1/(15000 h^2) is, for h >= 1) and the largest number large enough for the data, the EWMA mean, second moment matrix, variance and volatility "
  "of a finite table with entries at most M in size are computed without overflow or NaN, for the same rows as in exact arithmetic. Every mean "
  "differs from the exact half-life weighted average by at most K ((u + eta) M + eta), every second moment and variance by at most "
  "3 K ((u + eta) M^2 + eta), where K depends on h only (at most 9000 h^2 for h >= 1), not on the number of rows. Where from row min_periods - 1 on the variance exceeds its bound, "
  "the volatility differs from the exact one by at most that bound divided by the volatility, plus 2 u times the volatility, plus eta.",
  "all arithmetics with such errors (in particular p bits rounded to nearest), all tables of any length and width, all half-lives, min_periods, rows, assets",
  "a test compares a few hundred rows with a tolerance; that the error stays bounded over histories of any length, for any data and any way of rounding, is "
  "not observable",
  f"{E}:_general", f"{E}:_ewma_mean", f"{E}:_ewma_cov", f"{E}:_variance", f"{E}:volatility")

p("iterated_ewma is stable under rounding, for histories of any length",
  "For given half-lives, a bound on the returns and positive lower bounds on the volatilities (from row min_periods_vola - 1 on) and on the second moments of the "
  "volatility-adjusted returns there are constants K, u0, B such that in every arithmetic with relative error u and absolute error eta, u + eta <= u0, and "
  "largest number at least B, iterated_ewma without clipping yields results for exactly the same rows as in exact arithmetic, all of them finite numbers, and "
  "every mean, volatility and covariance differs from the exact one by at most K (u + eta). K, u0 and B do not depend on the number "
  "of rows or assets, the returns, min_periods, or the arithmetic; with mean=True as well as with mean=False.",
  "all arithmetics with such errors, all finite tables of any length and width within the bounds, all half-lives, min_periods, mean",
  "a test compares two runs on one table; that errors do not grow with the length of the history concerns all tables and all ways of rounding",
  f"{E}:iterated_ewma", f"{E}:_general", f"{E}:center", f"{E}:volatility")

p("What the volatility remembers, with and without winsorisation",
  "Take two histories of complete returns for which volatility(returns, halflife, min_periods, clip_at) is run with the same positive half-life, min_periods and nonzero clip_at (rows below: rows of the result). (a) If on every row up to t the returns of an asset are at least as large in absolute value in the second history, so is its volatility at t (winsorised or not). (b) If the histories of an asset agree after row s and its volatility at s is at most l >= 1 times as large in the second, it is at most l times as large at every later row. (c) Without clip_at, if the histories agree after row s, the difference of the squared volatilities has shrunk at row t at least by the factor 2^(-(t-s)/halflife). (d) With clip_at > 1 nothing of the kind holds: for every half-life, min_periods and factor l > 0 there are two bounded histories which agree after row max(0, min_periods) and whose volatilities stay between positive bounds while the second is exactly l times the first on every row, however long the history: the first returns may influence the winsorised volatility for ever.",
  "all return histories of any length, half-lives, min_periods, clip_at, assets and rows; (d): all l and all lengths",
  "a test sees finitely many rows of one history; (c) and (d) are about all later rows, and (d) needs a history built for the purpose",
  E+": volatility, _variance, _general")

p("Adding and leaving out experts",
  "Let the same problem be combined with all experts and with some of them (exact solver, same window). If solve goes through with all experts it goes through with some of them, with results for the same times. At every time the window likelihood with all experts is at least the one with some; it is larger by at most d if the marginal score (C127) of no left-out expert exceeds the average of the others by more than d; for d = 0 both results have the same mean and covariance and the left-out experts get weight zero. Conversely experts that get weight zero at a time can be left out without changing the mean, the covariance or the other weights of that time.",
  "all panels, subsets of experts, windows, requests, times",
  "a statement about two runs and all subsets of experts; a test compares a few",
  C+": from_sigmas, _CovarianceCombination.solve, _CombinationProblem")

p("iterated_ewma is well conditioned without the mean, not with it",
  "Let every return be changed by a factor between 1/rho and rho (rho >= 1; different factors for different returns). With mean=False, whatever the half-lives, min_periods and clip_at, iterated_ewma gives results for the same times (or raises IndexError for both); every volatility changes at most by the factor rho, every correlation by at most rho^8 - 1, every covariance by at most (rho^10 - 1) times the product of the two volatilities, and a covariance is nan for one exactly if it is for the other; the bounds do not depend on the length of the history. With mean=True there is no such bound: for every rho > 1 and M there are two-row histories, one return changed by a factor rho, for which the volatility changes by more than the factor M.",
  "all pairs of histories of any length within the factor, all parameters with mean=False; the negative part: all half-lives, rho, M",
  "a statement about pairs of histories and worst cases over all perturbations and lengths",
  E+": iterated_ewma, volatility, clip, center, _general")

p("The combination depends continuously on its data",
  "The results of solve depend continuously on the covariances, the means and the returns: for given data and every e > 0 there is d > 0 such that for all data entrywise within d of the given ones (a) from_sigmas accepts them, even if the nearby covariances are not exactly symmetric; (b) every request that succeeds with the given data succeeds with the nearby data and yields the same number of items for the same times; (c) every weight, mean and covariance entry differs by less than e; (d) (c) still holds if the nearby problem is only solved to tolerance d. One d serves all requests with the same window.",
  "All panels of positive definite covariances, windows, requests that succeed, e > 0, all nearby data and all exact (in (d): almost exact) solvers.",
  "A test can perturb one data set by a few amounts; that no arbitrarily small perturbation makes the weights jump is a statement about all perturbations of all data, and rests on the uniqueness of the optimum.",
  C+":from_sigmas", C+":_CovarianceCombination.solve", C+":_CombinationProblem")

p("The whole method with experts computed with rounding",
  "Let from_ewmas succeed on complete returns in exact arithmetic (no clipping, every volatility in use positive). For every window and e > 0 there are an accuracy and a largest number such that in every arithmetic that rounds at least as accurately and does not overflow below that number, however it rounds, every expert's iterated_ewma succeeds with finite numbers only and for the same times; from_sigmas accepts these rounded means and covariances; and every request for which solve succeeds on the exact experts succeeds on the rounded ones, with items for the same times and every weight (same labels), mean and covariance entry within e. (The combination stage itself is exact here; for its tolerance see C128 and C192.)",
  "all complete return tables with increasing times, pair lists, min_periods, mean on or off, windows, requests that succeed, e > 0, all arithmetics at least as accurate",
  "a statement about every sufficiently accurate arithmetic: that rounding cannot make an expert unusable or the weights jump; a test sees one arithmetic on one table",
  C+":from_ewmas", C+":from_sigmas", C+":_CovarianceCombination.solve", f"{E}:iterated_ewma")

p("The whole method depends continuously on the returns",
  "(a) Let iterated_ewma yield covariances that are numbers, every volatility in use (rows from min_periods_vola - 1 on) being positive; missing entries, clip_at and mean are allowed. For every e > 0 there is d > 0 such that for every table with the same times and missing entries whose other entries differ by at most d, iterated_ewma yields results for the same times with every mean, covariance and volatility within e. (b) Let from_ewmas succeed under the same condition on the volatilities of all pairs. For every window and e > 0 there is d > 0 such that for all such nearby tables from_ewmas succeeds with the same labels, and every request of solve that succeeds with the given table succeeds with the other one, with items for the same times and every weight, mean and covariance within e. (c) The condition on the volatilities cannot be dropped: for all half-lives and clip_at there is a table for which iterated_ewma yields one result while for tables arbitrarily close to it it yields two.",
  "all tables with increasing times, missing entries, half-lives, min_periods, clip_at, mean, pair lists, windows, requests that succeed, e > 0, all nearby tables; (c) all half-lives and clip_at",
  "a test can perturb one table by a few amounts; that no arbitrarily small revision of the data makes the predictions jump concerns all perturbations of all tables",
  C+":from_ewmas", C+":_CovarianceCombination.solve", f"{E}:iterated_ewma", f"{E}:volatility", f"{E}:clip")

p("How far revised returns move the weights",
  "Let two combination problems have the same times and expert covariances, while returns and predicted means may differ (revised data), and let exact solvers yield results with weights w and w' at the same time. With G, G' the Gram matrices of the standardised returns over the window, (a) (w' - w)^T G (w' - w) <= (w' - w)^T (G - G') w'; hence if no entry of the Gram matrix changes by more than eta, sum_k |w'_k - w_k| <= eta (sum_k sqrt((G^-1)_kk))^2. (b) If the data differ only in the return (or the predicted mean) of one date, whose squared standardised length (r - m)^T S^-1 (r - m) is at most M for every expert before and after, and v^T G v >= lam * window * |v|^2 for all v, the weights change by at most 2 M K^2 / (lam * window) in total: one return has an influence of order 1/window.",
  "all pairs of problems with the same times and covariances, windows, requests, results at a common time, exact solvers, all eta, M, lam",
  "an upper bound on the worst case over all revisions of all data sets and all window lengths; a test sees single revisions",
  C+":from_sigmas", C+":_CovarianceCombination.solve", C+":_CombinationProblem")

p("The combination learns the best blend",
  "Let K experts predict fixed covariances S_k (positive definite) and means mu_k, and let the returns be independent and identically distributed with finite second moments, such that no non-trivial combination of the experts' standardised returns vanishes almost surely. (a) Exactly one vector w of weights on the simplex maximises the expected log-likelihood of the blend, and with probability one solve() on the first N returns (window=None, exact solver) yields exactly one result for all large N, at the last time, whose weights, covariance and mean tend to w, the blended covariance and the blended mean as N grows. (b) If some blend has the true mean and the true covariance, w is that blend: the truth is found if it can be expressed, and if one expert is right its weight tends to one. (c) If all experts share one mean m (0 without means), right or wrong, and some blend equals the true second moments about m, w is that blend. The returns need not be normally distributed.",
  "all fixed experts, all distributions of the returns with finite second moments that tell the experts apart, almost every history, exact and complete solvers, every e > 0",
  "a limit over histories of any length and a statement about almost every history under every distribution; a simulation sees finitely many finite histories of a few distributions",
  C+":from_sigmas", C+":_CovarianceCombination.solve", C+":_CombinationProblem")

p("How far another covariance prediction moves the portfolios",
  "Backtests of two covariance predictors over the same dates and limits, exact solvers. On every trading day, for the predicted covariances S (positive definite) and S': (a) the MinRisk portfolios w, w' satisfy (w' - w)^T S (w' - w) <= (w' - w)^T (S - S') w'; if no covariance differs by more than eta, the weights differ by at most eta (sum |w'_i|) (sum sqrt((S^-1)_ii))^2 in total, and the variance of w' under S is at most the least one plus eta ((sum |w_i|)^2 + (sum |w'_i|)^2). So a short limit bounds the cost of an estimation error. (b) The RiskParity portfolios scaled to unit predicted risk, y and y', satisfy the same inequality and differ by at most eta (sum |y'_i|) (sum sqrt((S^-1)_ii))^2 in total.",
  "all pairs of backtests that go through, predictors, limits, trading days with positive (semi)definite predictions, all eta",
  "a bound on the worst case over all pairs of predictions; a test compares single pairs",
  f"{X}portfolio_backtests.py:MinRisk", f"{X}portfolio_backtests.py:RiskParity", f"{X}trading_model.py:min_risk", f"{X}trading_model.py:risk_parity")

p("Learning the best blend does not need exact solutions",
  "Experts and returns as in C196; w the weights that maximise the expected log-likelihood. (a) For every e > 0 there is a tolerance delta > 0 per observation such that with probability one, for all large N, with every solver whose weights are feasible and whose objective is within delta N of the optimum, each result of solve() on the first N returns is made at the last time and has weights, covariance and mean within e of those of the blend with weights w. (b) With a solver of any fixed tolerance d, the results tend to that blend with probability one.",
  "all fixed experts, distributions of the returns with finite second moments that tell the experts apart, almost every history, all solvers of the given tolerance (warm starts included), every e > 0 and d",
  "a limit over histories of any length, for every solver that stops early in any way; a test runs one solver on finite histories",
  C+":from_sigmas", C+":_CovarianceCombination.solve", C+":_CombinationProblem.solve")

p("How fast the combination learns the best blend",
  "Experts and returns as in C196, with finite fourth moments of the returns; w the best weights. (a) There is a constant C, depending on the experts and the distribution only, such that for every window length W, number of returns N and time t the probability that solve(window=W) with an exact solver yields a result at t with sum_k |weights_k - w_k| >= e is at most C / (W e^2). (b) For every e > 0 there is C such that, for all W <= t <= N, solve(window=W, times=[t]) with an exact and complete solver yields exactly one result, with weights, covariance and mean within e of the best blend's, except with probability at most C / W.",
  "all fixed experts, distributions with finite fourth moments that tell the experts apart, window lengths, times, numbers of returns, e > 0",
  "a bound on a probability for all window lengths and distributions; a simulation estimates it for a few",
  C+":from_sigmas", C+":_CovarianceCombination.solve", C+":_CombinationProblem")

p("How far factor regularisation moves the covariances",
  "regularize_covariance(sigmas, r) of positive semidefinite covariances S with positive variances, 1 <= r <= n, with C the result. If the correlation matrix M of S is within c of a matrix B of rank at most r, in the sense that w^T (M - B) w <= c |w|^2 for all w, then no correlation changes by more than c (|C_ij - S_ij| <= c sqrt(S_ii S_jj)) and for no portfolio w does the variance change by more than c sum_i S_ii w_i^2. The sum of the squared changes of the correlations is at most the squared Frobenius distance of M from any matrix of rank at most r. In any case the bounds hold with c = n / (r + 1).",
  "all dictionaries of positive semidefinite covariances with positive variances, ranks, matrices B, portfolios, correct eigenvalue routines",
  "a worst-case error bound over all covariances and portfolios; tests look at single matrices",
  R+":regularize_covariance", R+":_regularize_correlation")

p("How the regularised covariances depend on the covariances",
  "regularize_covariance(sigmas, r) of positive semidefinite covariances S, S' with positive variances, 1 <= r <= n, with results C, C' (the two calls may use different eigenvalue routines). (a) If the r-th largest eigenvalue of the correlation matrix of S exceeds the next one by g > 0 (no condition for r = n), the correlations of C and C' differ by at most 1 + 2 n / g times what those of S and S' differ by (Frobenius distances), and the variances are those of S and S'. (b) So where these two eigenvalues differ the result is continuous: for every e > 0 there is d > 0 such that covariances with entries within d have results with entries within e. (c) Where they agree it need not be: with one factor for two assets of variances a and c, the covariance b > 0, however small, becomes (sqrt(a c) + b) / 2, and -b becomes the negative of that.",
  "all pairs of positive semidefinite covariances with positive variances, ranks, gaps g, correct eigenvalue routines; all variances and covariances of two assets",
  "a Lipschitz bound for all pairs of matrices, and a jump at matrices that random tests never hit",
  R+":regularize_covariance", R+":_regularize_correlation")

p("EM regularisation is continuous, and what repeating it leads to",
  "For positive definite Sigma and positive idiosyncratic variances: (a) em_regularize_covariance depends continuously on Sigma and on the initial model: for every e > 0 there is d > 0 such that inputs within d give loadings and variances within e. (b) Called again and again, each time with the model of the last call, it never fails, the likelihoods do not decrease and tend to a finite limit, and loadings and variances stay bounded. (c) Every limit point of these models with positive variances solves the maximum-likelihood equations and its likelihood is the limit of the likelihoods. (d) If the variances stay away from zero, for every e > 0 all but finitely many of the models are within e of a solution of these equations.",
  "all positive definite covariances, initial models with positive variances, numbers of calls, subsequences, e > 0",
  "statements about limits of infinitely many calls and about all nearby inputs; a test makes finitely many calls with single inputs",
  R+":em_regularize_covariance", R+":_em_low_rank_approximation", R+":_e_step", R+":_m_step")

p("From returns to portfolio weights: a small revision of the returns has a small effect",
  "Let CM-IEWMA be fitted to a table of returns in which every asset has a return other than 0 among the first min_periods_vola rows. (a) If the fit goes through, its predictions are continuous: for every e > 0 there is d > 0 such that, for every table with the same labels whose returns are all within d, the fit goes through too (with solvers that find the optimum), predicts for the same dates, and every predicted covariance is entrywise within e. (b) If a backtest of EqWeighted, MinRisk, MaxDiverse or RiskParity on these predictions goes through as well (start not before the first prediction), then for every e > 0 there is d > 0 such that for every table whose returns are all within d the whole run goes through, trades on the same days, holds on every day in every asset a weight within e of the given one, and earns on every day within e of the given portfolio return.",
  "every table of returns of any size whose assets all move in the warm-up, half-life pairs with any labels, warm-ups, window, lambda, dates of the backtest, the four risk-only strategies with any limits, tolerance e, every nearby table and all optimal solvers", "about all nearby histories at once; data vendors revise returns, and a test can only try single revisions",
  "experiments/industry_portfolios.ipynb", "cvx/covariance/ewma.py:iterated_ewma", f"{C}:CovarianceCombination.solve",
  f"{X}portfolio_backtests.py:backtest", f"{X}trading_model.py:min_risk", f"{X}trading_model.py:max_diverse", f"{X}trading_model.py:risk_parity")
p("iterated_ewma can be run online, but not from its results",
  "The results of iterated_ewma are those of a method that goes through the rows once and keeps, between two rows, two counts, two vectors of means, the variances and one matrix: the same results in the same order, and IndexError exactly if no row enters the covariance. So two tables with the same kept numbers after t rows and the same rows from then on give the same results from row t on. The results themselves are not enough to go on from: two tables can give the same mean, covariance and volatility for a row, have the same next row, and give different results for it.",
  "all tables (with and without missing entries counted as 0), labels, half-lives, min_periods, winsorisation levels, with and without the mean, every row t",
  "a test compares two finite runs; that nothing else of the past is used is a statement about all pairs of histories",
  f"{E}:iterated_ewma", f"{E}:_ewma_cov", f"{E}:volatility", f"{E}:center")
p("CM-IEWMA can be run online with bounded memory",
  "With exact solvers, when the run of the CM-IEWMA cell on a table with more than `window` rows after the warm-up succeeds, its predictions are those of a method that goes through the rows once and keeps, between two rows, only: for each expert two counts, a vector of means, the variances and one matrix (with the mean of the adjusted returns); the last predictions of the experts; and the last `window` rows, each with what the experts had predicted for it. The weights at a row are the maximiser, over the simplex, of the log-likelihood of the kept rows under the blends of what had been predicted for them, and the prediction is the blend of the experts' present predictions with these weights; labels and order are those of the rows. What is kept never exceeds `window` rows, however long the history is. Two histories that leave the same things kept after t rows and continue with the same returns give the same predictions from then on.",
  "all numbers of assets, tables of real returns with increasing labels and a return other than 0 within the first min_periods_vola rows, whose run succeeds, half-life pairs, warm-ups, windows, variance factors, and all positions at which the history is cut",
  "That the whole pipeline (experts, blocks, window, optimisation, blend) has no hidden dependence on older rows is a statement about every history and every cut; a test compares two histories.",
  f"{N}generative_mode.ipynb:fit_cm_iewma", f"{X2}industry_portfolios.ipynb:cm_iewma", f"{E}:iterated_ewma", f"{C}:CovarianceCombination.solve")
p("How fast iterated_ewma forgets the past, and when it does not",
  "(a) Without clip_at, with mean=True as well as with mean=False: fix the half-lives, any H longer than all of them, a bound on the returns and positive lower bounds on the volatilities (from row min_periods_vola - 1 on) and on the second moments of the volatility-adjusted returns. There is a constant K such that any two histories within the bounds that agree from row s on give results for the same rows, and at every row t the means, volatilities and covariances of the two differ at most by K 2^(-(t-s)/H). K does not depend on the histories, their length, the number of assets, s, or min_periods. (b) With clip_at > 1 (mean=False) this fails: for every l > 0 there are two bounded histories that agree after row max(0, min_periods_vola), with volatilities between positive bounds, such that in every result every volatility of the second is l times that of the first, however long the histories are.",
  "all pairs of finite histories of any length and width within the bounds, all cuts s, half-lives, min_periods, mean; (b): all l, half-lives, min_periods and clip levels > 1",
  "that the influence of old rows dies out at a given rate, uniformly in the history, is a statement about all pairs of histories of every length",
  f"{E}:iterated_ewma", f"{E}:_general", f"{E}:_ewma_cov", f"{E}:volatility")
p("How soon CM-IEWMA forgets the past",
  "Fix the arguments of the CM-IEWMA cell (with lamda >= 0) and bounds on the histories: returns at most M in absolute value, volatilities at least v0, second moments of the volatility-adjusted returns at least d0, determinants of the experts' covariances at least p0 and, over the window of each predicted row, the Gram determinant of the experts' standardised returns at least g0 (all positive). Then for every tolerance e there is a number N such that, for any two histories within the bounds, of any length, which agree from row s on, and any successful runs with exact solvers, the predictions for every row from s + N on (with a full window) differ by less than e in every entry: a data error, or where the history starts, stops mattering after a number of rows that does not depend on the data.",
  "all arguments with positive half-lives and periods and lamda >= 0, all positive bounds, all tolerances; all pairs of histories within the bounds, of any length and with any labels, agreeing from any row on; all exact solvers",
  "the number of rows has to serve infinitely many pairs of histories of any length at once; the weights are the solution of an optimisation problem, so a test cannot see how their change is bounded",
  f"{E}:iterated_ewma", f"{C}:CovarianceCombination.solve", f"{N}generative_mode.ipynb:fit_cm_iewma")
p("What a longer history changes in iterated_ewma",
  "Fix the half-lives of iterated_ewma (without clipping, with or without centring), a rate H longer than all of them, and bounds: returns at most M in absolute value, volatilities at least v0 and second moments of the volatility-adjusted returns at least d0, for the whole history and for the history without its first k rows. Then there is a constant K such that every row with a prediction from the shorter history also has one from the whole history, and the two means, volatilities and covariances differ by at most K 2^(-j/H) in every entry, j being the number of rows since row min_periods_vola - 1 of the shorter history. K depends neither on the history, its length or the number of assets nor on how many rows are left out: predicting from a truncated history is safe after a warm-up that can be fixed in advance.",
  "all valid arguments without clipping, all H longer than the half-lives, all positive bounds; all histories within the bounds, of any length, with any labels and any number of assets; all numbers of rows left out",
  "one constant has to serve infinitely many histories and every number of rows left out; a test compares a few truncations of a few histories",
  f"{E}:iterated_ewma", f"{E}:_ewma_mean", f"{E}:_ewma_cov")
p("What a longer history changes in CM-IEWMA",
  "Fix the arguments of the CM-IEWMA cell (with lamda >= 0) and bounds as in C207 (returns, volatilities, second moments, determinants of the experts and Gram determinants of the windows), for the whole history and for the history without its first k rows. Then for every tolerance e there is a number N such that, for every history within the bounds, of any length, every number k of rows left out and any successful runs with exact solvers, the two predictions for every row from row N of the shorter history on (with a full window) differ by less than e in every entry. N depends neither on the history nor on k: running CM-IEWMA on a truncated history is safe after a warm-up that can be fixed in advance.",
  "all arguments with positive half-lives and periods and lamda >= 0, all positive bounds, all tolerances; all histories within the bounds, of any length and with any labels, and all numbers of rows left out; all exact solvers",
  "one number of rows has to serve infinitely many histories and every number of rows left out; the weights are the solution of an optimisation problem, so a test cannot see how their change is bounded",
  f"{E}:iterated_ewma", f"{C}:CovarianceCombination.solve", f"{N}generative_mode.ipynb:fit_cm_iewma")
ORDER = ["C%02d" % k for k in [2, 3, 4, 5, 6, 7, 8, 9, 10, 11, 17, 18, 19, 41, 57, 58, 59, 69, 95, 96, 97, 98, 99, 100]]
for x in P:
    if x["id"] in ORDER:
        x["quantifier"] += "; rows in increasing order of the index (other orders: C174)"
if __name__ == "__main__":
    out = os.path.join(os.path.dirname(os.path.abspath(__file__)), "..", "properties.jsonl")
    with open(out, "w") as f:
        for x in P: f.write(json.dumps(x) + "\n")
    print(len(P))
