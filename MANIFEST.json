{
 "claims": [
  {
   "property": "C01",
   "status": "proved",
   "theorems": [
    "CovPred.C01_center_mean",
    "CovPred.C01_volatility",
    "CovPred.C01_alpha",
    "CovPred.C01_halflife_wins"
   ],
   "note": "EWMA is the bias-corrected half-life weighted average"
  },
  {
   "property": "C02",
   "status": "proved",
   "theorems": [
    "CovPred.C02_no_lookahead",
    "CovPred.C02_no_lookahead_ok",
    "CovPred.C02_no_lookahead_chronological"
   ],
   "note": "iterated_ewma never looks ahead"
  },
  {
   "property": "C03",
   "status": "proved",
   "theorems": [
    "CovPred.C03_times_sublist",
    "CovPred.C03_times",
    "CovPred.C03_times_simple"
   ],
   "note": "iterated_ewma: which rows get a result"
  },
  {
   "property": "C04",
   "status": "proved",
   "theorems": [
    "CovPred.C04_exceptions",
    "CovPred.C04_too_short"
   ],
   "note": "iterated_ewma: too little data"
  },
  {
   "property": "C05",
   "status": "proved",
   "theorems": [
    "CovPred.C05_diagonal"
   ],
   "note": "Covariance diagonal is the squared volatility"
  },
  {
   "property": "C06",
   "status": "proved",
   "theorems": [
    "CovPred.C06_symmetric"
   ],
   "note": "Covariances are symmetric"
  },
  {
   "property": "C07",
   "status": "proved",
   "theorems": [
    "CovPred.C07_psd",
    "CovPred.C07_correlation_bound"
   ],
   "note": "Covariances are positive semidefinite with correlations in [-1,1]"
  },
  {
   "property": "C08",
   "status": "proved",
   "theorems": [
    "CovPred.C08_scale"
   ],
   "note": "Per-asset scale equivariance"
  },
  {
   "property": "C09",
   "status": "proved",
   "theorems": [
    "CovPred.C09_permutation",
    "CovPred.C09_duplicates"
   ],
   "note": "Asset order does not matter to iterated_ewma"
  },
  {
   "property": "C10",
   "status": "proved",
   "theorems": [
    "CovPred.C10_nan_is_zero"
   ],
   "note": "NaN returns are treated as zero returns"
  },
  {
   "property": "C11",
   "status": "proved",
   "theorems": [
    "CovPred.C11_nan_poisons"
   ],
   "note": "nan_to_num=False: one NaN poisons the asset forever"
  },
  {
   "property": "C12",
   "status": "proved",
   "theorems": [
    "CovPred.C12_bounded_influence"
   ],
   "note": "Winsorised volatility update has bounded influence"
  },
  {
   "property": "C13",
   "status": "proved",
   "theorems": [
    "CovPred.C13_stuck_at_zero",
    "CovPred.C13_converse"
   ],
   "note": "Winsorised volatility can get stuck at zero"
  },
  {
   "property": "C14",
   "status": "proved",
   "theorems": [
    "CovPred.C14_inactive_clip"
   ],
   "note": "Inactive winsorisation changes nothing"
  },
  {
   "property": "C15",
   "status": "proved",
   "theorems": [
    "CovPred.C15_clip",
    "CovPred.C15_no_clip",
    "CovPred.C15_bounds",
    "CovPred.C15_idempotent"
   ],
   "note": "clip() bounds entries, keeps NaN and drops only empty rows"
  },
  {
   "property": "C16",
   "status": "proved",
   "theorems": [
    "CovPred.C16_center_true",
    "CovPred.C16_center_false"
   ],
   "note": "center() decomposes the returns"
  },
  {
   "property": "C17",
   "status": "proved",
   "theorems": [
    "CovPred.C17_mean_zero",
    "CovPred.C17_mean"
   ],
   "note": "Reported mean"
  },
  {
   "property": "C18",
   "status": "proved",
   "theorems": [
    "CovPred.C18_shift"
   ],
   "note": "Mean-adjusted estimate is shift invariant"
  },
  {
   "property": "C19",
   "status": "proved",
   "theorems": [
    "CovPred.C19_zero_is_none"
   ],
   "note": "Zero and None mean the same for optional parameters"
  },
  {
   "property": "C20",
   "status": "proved",
   "theorems": [
    "CovPred.C20_volatility_range"
   ],
   "note": "Volatility is within the range of past absolute returns"
  },
  {
   "property": "C21",
   "status": "proved",
   "theorems": [
    "CovPred.C21_influence",
    "CovPred.C21_halves",
    "CovPred.C21_forgets"
   ],
   "note": "Half-life meaning and forgetting"
  },
  {
   "property": "C22",
   "status": "proved",
   "theorems": [
    "CovPred.C22_weights_simplex"
   ],
   "note": "Weights lie on the simplex"
  },
  {
   "property": "C23",
   "status": "proved",
   "theorems": [
    "CovPred.C23_covariance_posDef",
    "CovPred.C23_blend_total",
    "CovPred.C23_no_failure"
   ],
   "note": "Combined covariance is symmetric positive definite"
  },
  {
   "property": "C24",
   "status": "proved",
   "theorems": [
    "CovPred.C24_blended_factor",
    "CovPred.C24_blended_factor_symm"
   ],
   "note": "Experts are blended in Cholesky factors of the precision"
  },
  {
   "property": "C25",
   "status": "proved",
   "theorems": [
    "CovPred.C25_agreeing_covariance",
    "CovPred.C25_agreeing_mean",
    "CovPred.C25_single_expert"
   ],
   "note": "Agreeing experts are reproduced"
  },
  {
   "property": "C26",
   "status": "proved",
   "theorems": [
    "CovPred.C26_mean",
    "CovPred.C26_mean_zero"
   ],
   "note": "Result mean"
  },
  {
   "property": "C27",
   "status": "proved",
   "theorems": [
    "CovPred.C27_objective",
    "CovPred.C27_simplex_ok"
   ],
   "note": "The optimisation objective is the window log-likelihood"
  },
  {
   "property": "C28",
   "status": "proved",
   "theorems": [
    "CovPred.C28_best_mixture",
    "CovPred.C28_beats_experts"
   ],
   "note": "The blend is at least as good as every expert"
  },
  {
   "property": "C29",
   "status": "proved",
   "theorems": [
    "CovPred.C29_unique_optimum",
    "CovPred.C29_result_determined"
   ],
   "note": "Weights are uniquely determined"
  },
  {
   "property": "C30",
   "status": "proved",
   "theorems": [
    "CovPred.C30_no_lookahead",
    "CovPred.C30_prefix"
   ],
   "note": "solve() never looks ahead"
  },
  {
   "property": "C31",
   "status": "proved",
   "theorems": [
    "CovPred.C31_window_only"
   ],
   "note": "solve() only uses the window"
  },
  {
   "property": "C32",
   "status": "proved",
   "theorems": [
    "CovPred.C32_schedule",
    "CovPred.C32_full_window",
    "CovPred.C32_too_short"
   ],
   "note": "solve(window): schedule of results"
  },
  {
   "property": "C33",
   "status": "proved",
   "theorems": [
    "CovPred.C33_times_agree"
   ],
   "note": "solve(times) agrees with solve()"
  },
  {
   "property": "C34",
   "status": "proved",
   "theorems": [
    "CovPred.C34_times_dropped"
   ],
   "note": "solve(times) with too little history silently drops times"
  },
  {
   "property": "C35",
   "status": "proved",
   "theorems": [
    "CovPred.C35_empty_times",
    "CovPred.C35_unknown_time",
    "CovPred.C35_not_consecutive"
   ],
   "note": "solve(times) rejects bad requests"
  },
  {
   "property": "C36",
   "status": "proved",
   "theorems": [
    "CovPred.C36_failure_isolated"
   ],
   "note": "A solver failure is isolated"
  },
  {
   "property": "C37",
   "status": "proved",
   "theorems": [
    "CovPred.C37_degenerate_aborts",
    "CovPred.C37_identical_experts",
    "CovPred.C37_too_many_experts"
   ],
   "note": "Degenerate windows abort before the first result"
  },
  {
   "property": "C38",
   "status": "proved",
   "theorems": [
    "CovPred.C38_constructor_ok",
    "CovPred.C38_constructor_error",
    "CovPred.C38_usable_iff"
   ],
   "note": "Constructor validation"
  },
  {
   "property": "C39",
   "status": "proved",
   "theorems": [
    "CovPred.C39_expert_order"
   ],
   "note": "Expert order does not matter"
  },
  {
   "property": "C40",
   "status": "proved",
   "theorems": [
    "CovPred.C40_rescale"
   ],
   "note": "Combination is scale equivariant"
  },
  {
   "property": "C41",
   "status": "proved",
   "theorems": [
    "CovPred.C41_as_from_sigmas",
    "CovPred.C41_errors",
    "CovPred.C41_succeeds",
    "CovPred.C41_succeeds_iff",
    "CovPred.C41_same_times",
    "CovPred.C41_panel"
   ],
   "note": "from_ewmas is from_sigmas on the iterated EWMA experts"
  },
  {
   "property": "C42",
   "status": "proved",
   "theorems": [
    "CovPred.C42_factor_form"
   ],
   "note": "Factor regularisation keeps the variances"
  },
  {
   "property": "C43",
   "status": "proved",
   "theorems": [
    "CovPred.C43_posSemidef"
   ],
   "note": "Factor regularisation keeps positive (semi)definiteness"
  },
  {
   "property": "C44",
   "status": "proved",
   "theorems": [
    "CovPred.C44_full_rank",
    "CovPred.C44_low_rank"
   ],
   "note": "Full rank regularisation is the identity"
  },
  {
   "property": "C45",
   "status": "proved",
   "theorems": [
    "CovPred.C45_low_rank_format"
   ],
   "note": "Low-rank format represents the same matrix"
  },
  {
   "property": "C46",
   "status": "proved",
   "theorems": [
    "CovPred.C46_well_defined",
    "CovPred.C46_any_number_of_passes",
    "CovPred.C46_missing_initial"
   ],
   "note": "EM regularisation stays well defined"
  },
  {
   "property": "C47",
   "status": "proved",
   "theorems": [
    "CovPred.C47_each_pass",
    "CovPred.C47_result"
   ],
   "note": "EM never decreases the likelihood"
  },
  {
   "property": "C48",
   "status": "proved",
   "theorems": [
    "CovPred.C48_exact_model"
   ],
   "note": "EM fixes exact factor models"
  },
  {
   "property": "C49",
   "status": "proved",
   "theorems": [
    "CovPred.C49_rolling_window",
    "CovPred.C49_first_return_stays",
    "CovPred.C49_memory_one",
    "CovPred.C49_errors"
   ],
   "note": "rolling_window double counts the first return"
  },
  {
   "property": "C50",
   "status": "proved",
   "theorems": [
    "CovPred.C50_agrees",
    "CovPred.C50_keys",
    "CovPred.C50_errors"
   ],
   "note": "Old and new EWMA recursions agree"
  },
  {
   "property": "C51",
   "status": "proved",
   "theorems": [
    "CovPred.C51_max_drawdown",
    "CovPred.C51_range",
    "CovPred.C51_empty"
   ],
   "note": "Maximum drawdown"
  },
  {
   "property": "C52",
   "status": "proved",
   "theorems": [
    "CovPred.C52_growth",
    "CovPred.C52_positive"
   ],
   "note": "Portfolio growth"
  },
  {
   "property": "C53",
   "status": "proved",
   "theorems": [
    "CovPred.C53_dilute_row",
    "CovPred.C53_dilute",
    "CovPred.C53_second_call",
    "CovPred.C53_vol_cont_row",
    "CovPred.C53_diluted_returns",
    "CovPred.C53_short_rf"
   ],
   "note": "Cash dilution hits the volatility target"
  },
  {
   "property": "C54",
   "status": "proved",
   "theorems": [
    "CovPred.C54_packed_row",
    "CovPred.C54_round_trip",
    "CovPred.C54_wrong_length",
    "CovPred.C54_single_value",
    "CovPred.C54_matrix"
   ],
   "note": "Packed covariance rows"
  },
  {
   "property": "C55",
   "status": "proved",
   "theorems": [
    "CovPred.C55_init",
    "CovPred.C55_build",
    "CovPred.C55_round_trip"
   ],
   "note": "CCP state round trip"
  },
  {
   "property": "C56",
   "status": "proved",
   "theorems": [
    "CovPred.C56_whitener",
    "CovPred.C56_singular"
   ],
   "note": "Whitener measures risk"
  },
  {
   "property": "C57",
   "status": "proved",
   "theorems": [
    "CovPred.C57_functional_correctness"
   ],
   "note": "Functional correctness of iterated_ewma"
  },
  {
   "property": "C58",
   "status": "proved",
   "theorems": [
    "CovPred.C58_asset_independence"
   ],
   "note": "An entry of the estimate depends on its own assets only"
  },
  {
   "property": "C59",
   "status": "proved",
   "theorems": [
    "CovPred.C59_first_covariance_nan"
   ],
   "note": "First covariance in mean mode is NaN"
  },
  {
   "property": "C60",
   "status": "proved",
   "theorems": [
    "CovPred.C60_relabel",
    "CovPred.C60_opaque"
   ],
   "note": "Only the order of the time labels matters"
  },
  {
   "property": "C61",
   "status": "proved",
   "theorems": [
    "CovPred.C61_missing_return"
   ],
   "note": "A missing return aborts solve()"
  },
  {
   "property": "C62",
   "status": "proved",
   "theorems": [
    "CovPred.C62_harmless_order",
    "CovPred.C62_uncorrelated",
    "CovPred.C62_order_matters"
   ],
   "note": "The combination depends on the order of the assets"
  },
  {
   "property": "C63",
   "status": "proved",
   "theorems": [
    "CovPred.C63_independent_of_eigenvectors"
   ],
   "note": "Regularisation does not depend on the eigenvectors chosen"
  },
  {
   "property": "C64",
   "status": "proved",
   "theorems": [
    "CovPred.C64_units",
    "CovPred.C64_signs",
    "CovPred.C64_order"
   ],
   "note": "Regularisation commutes with changes of units, signs and asset order"
  },
  {
   "property": "C65",
   "status": "proved",
   "theorems": [
    "CovPred.C65_best_low_rank"
   ],
   "note": "The factor part is the best rank-r approximation"
  },
  {
   "property": "C66",
   "status": "proved",
   "theorems": [
    "CovPred.C66_units"
   ],
   "note": "EM regularisation commutes with changes of units"
  },
  {
   "property": "C67",
   "status": "proved",
   "theorems": [
    "CovPred.C67_rotation"
   ],
   "note": "EM regularisation does not depend on the rotation of the factors"
  },
  {
   "property": "C68",
   "status": "proved",
   "theorems": [
    "CovPred.C68_bad_rank",
    "CovPred.C68_bad_variance"
   ],
   "note": "Regularisation rejects bad input"
  },
  {
   "property": "C69",
   "status": "proved",
   "theorems": [
    "CovPred.C69_min_periods",
    "CovPred.C69_nonsingular_iff"
   ],
   "note": "from_ewmas needs min_periods_cov >= number of assets"
  },
  {
   "property": "C70",
   "status": "proved",
   "theorems": [
    "CovPred.C70_missing_aborts",
    "CovPred.C70_missing_elsewhere",
    "CovPred.C70_none_missing",
    "CovPred.C70_from_ewmas_missing"
   ],
   "note": "Missing returns abort solve"
  },
  {
   "property": "C71",
   "status": "proved",
   "theorems": [
    "CovPred.C71_entries",
    "CovPred.C71_twice",
    "CovPred.C71_posDef"
   ],
   "note": "add_to_diagonal"
  },
  {
   "property": "C72",
   "status": "proved",
   "theorems": [
    "CovPred.C72_turnover",
    "CovPred.C72_zero_iff",
    "CovPred.C72_scale",
    "CovPred.C72_long_only_bound"
   ],
   "note": "Turnover"
  },
  {
   "property": "C73",
   "status": "proved",
   "theorems": [
    "CovPred.C73_single",
    "CovPred.C73_log_likelihood",
    "CovPred.C73_no_means",
    "CovPred.C73_singular",
    "CovPred.C73_sequential"
   ],
   "note": "Log-likelihood of predictions"
  },
  {
   "property": "C74",
   "status": "proved",
   "theorems": [
    "CovPred.C74_low_rank",
    "CovPred.C74_dense",
    "CovPred.C74_regularized"
   ],
   "note": "Evaluation is aligned with the next return"
  },
  {
   "property": "C75",
   "status": "proved",
   "theorems": [
    "CovPred.C75_realized",
    "CovPred.C75_volas",
    "CovPred.C75_single_row",
    "CovPred.C75_psd_and_volas"
   ],
   "note": "Realised covariance and volatilities"
  },
  {
   "property": "C76",
   "status": "proved",
   "theorems": [
    "CovPred.C76_mse",
    "CovPred.C76_ecdf"
   ],
   "note": "MSE and empirical distribution"
  },
  {
   "property": "C77",
   "status": "proved",
   "theorems": [
    "CovPred.C77_marks",
    "CovPred.C77_stale"
   ],
   "note": "Diluted weights are never refreshed"
  },
  {
   "property": "C78",
   "status": "proved",
   "theorems": [
    "CovPred.C78_vol_cont_fails",
    "CovPred.C78_poisoned",
    "CovPred.C78_mean_variance_diluted"
   ],
   "note": "vol_cont and diluted mean_variance fail"
  },
  {
   "property": "C79",
   "status": "proved",
   "theorems": [
    "CovPred.C79_cash_returns",
    "CovPred.C79_returns",
    "CovPred.C79_metrics",
    "CovPred.C79_excess",
    "CovPred.C79_excess_inconsistent"
   ],
   "note": "Returns and metrics"
  },
  {
   "property": "C80",
   "status": "proved",
   "theorems": [
    "CovPred.C80_risk_adjusted",
    "CovPred.C80_again",
    "CovPred.C80_growth"
   ],
   "note": "Risk-adjusted returns"
  },
  {
   "property": "C81",
   "status": "proved",
   "theorems": [
    "CovPred.C81_default_cons",
    "CovPred.C81_poisoned"
   ],
   "note": "The default constraint list is shared between backtests"
  },
  {
   "property": "C82",
   "status": "proved",
   "theorems": [
    "CovPred.C82_max_diverse",
    "CovPred.C82_min_risk",
    "CovPred.C82_robust_stale"
   ],
   "note": "Which parameters the worker pool uses"
  },
  {
   "property": "C83",
   "status": "proved",
   "theorems": [
    "CovPred.C83_max_diverse"
   ],
   "note": "max_diverse maximises the diversification ratio"
  },
  {
   "property": "C84",
   "status": "proved",
   "theorems": [
    "CovPred.C84_optimal_iff",
    "CovPred.C84_equal_contributions",
    "CovPred.C84_unique"
   ],
   "note": "risk_parity equalises risk contributions"
  },
  {
   "property": "C85",
   "status": "proved",
   "theorems": [
    "CovPred.C85_ok",
    "CovPred.C85_labels",
    "CovPred.C85_rhos"
   ],
   "note": "Trader constructor"
  },
  {
   "property": "C86",
   "status": "proved",
   "theorems": [
    "CovPred.C86_worst_case",
    "CovPred.C86_risk_limit"
   ],
   "note": "mean_variance with uncertainty is a worst case"
  },
  {
   "property": "C87",
   "status": "proved",
   "theorems": [
    "CovPred.C87_worst_variance",
    "CovPred.C87_not_worst_case"
   ],
   "note": "robust_min_risk is not the worst-case variance"
  },
  {
   "property": "C88",
   "status": "proved",
   "theorems": [
    "CovPred.C88_objective",
    "CovPred.C88_objective_error"
   ],
   "note": "The convex-concave objective is the likelihood"
  },
  {
   "property": "C89",
   "status": "proved",
   "theorems": [
    "CovPred.C89_never_worse",
    "CovPred.C89_each_iteration",
    "CovPred.C89_stands_still_iff",
    "CovPred.C89_strict",
    "CovPred.C89_exact_model"
   ],
   "note": "The convex-concave procedure never gets worse"
  },
  {
   "property": "C90",
   "status": "proved",
   "theorems": [
    "CovPred.C90_gradient"
   ],
   "note": "The gradients of the proximal gradient variant"
  },
  {
   "property": "C91",
   "status": "proved",
   "theorems": [
    "CovPred.C91_fixed_iff",
    "CovPred.C91_negative_variance"
   ],
   "note": "The proximal gradient variant: fixed points and failure"
  },
  {
   "property": "C92",
   "status": "proved",
   "theorems": [
    "CovPred.C92_fixed_iff",
    "CovPred.C92_strict",
    "CovPred.C92_no_gain",
    "CovPred.C92_stationary_iff",
    "CovPred.C92_zero_loadings"
   ],
   "note": "EM stops exactly at stationary points of the likelihood"
  },
  {
   "property": "C93",
   "status": "proved",
   "theorems": [
    "CovPred.C93_em_score"
   ],
   "note": "em_low_rank_log_likelihood scores the EM models"
  },
  {
   "property": "C94",
   "status": "proved",
   "theorems": [
    "CovPred.C94_min_risk",
    "CovPred.C94_min_risk_feasible",
    "CovPred.C94_mean_variance"
   ],
   "note": "What the portfolio limits mean"
  },
  {
   "property": "C95",
   "status": "proved",
   "theorems": [
    "CovPred.C95_variances",
    "CovPred.C95_complete",
    "CovPred.C95_nonzero_returns"
   ],
   "note": "low_rank_iterated_ewma has the times, means and variances of iterated_ewma"
  },
  {
   "property": "C96",
   "status": "proved",
   "theorems": [
    "CovPred.C96_factor_risk"
   ],
   "note": "The factor part of low_rank_iterated_ewma never overstates risk"
  },
  {
   "property": "C97",
   "status": "proved",
   "theorems": [
    "CovPred.C97_exact",
    "CovPred.C97_first_rows"
   ],
   "note": "low_rank_iterated_ewma is exact where it can be"
  },
  {
   "property": "C98",
   "status": "proved",
   "theorems": [
    "CovPred.C98_best_update"
   ],
   "note": "Each low-rank update is a best approximation"
  },
  {
   "property": "C99",
   "status": "proved",
   "theorems": [
    "CovPred.C99_rank",
    "CovPred.C99_stop"
   ],
   "note": "What stops low_rank_iterated_ewma"
  },
  {
   "property": "C100",
   "status": "proved",
   "theorems": [
    "CovPred.C100_no_lookahead",
    "CovPred.C100_times"
   ],
   "note": "low_rank_iterated_ewma does not look ahead"
  },
  {
   "property": "C101",
   "status": "proved",
   "theorems": [
    "CovPred.C101_schedule",
    "CovPred.C101_exposure",
    "CovPred.C101_success",
    "CovPred.C101_exceptions"
   ],
   "note": "The factor model covers every date after the first memory rows once"
  },
  {
   "property": "C102",
   "status": "proved",
   "theorems": [
    "CovPred.C102_item",
    "CovPred.C102_valid",
    "CovPred.C102_portfolio_variance"
   ],
   "note": "What an item of the factor model is"
  },
  {
   "property": "C103",
   "status": "proved",
   "theorems": [
    "CovPred.C103_no_lookahead"
   ],
   "note": "The factor model does not look ahead"
  },
  {
   "property": "C104",
   "status": "proved",
   "theorems": [
    "CovPred.C104_scores",
    "CovPred.C104_value",
    "CovPred.C104_key_error"
   ],
   "note": "factor_log_likelihood scores against the next day"
  },
  {
   "property": "C105",
   "status": "proved",
   "theorems": [
    "CovPred.C105_residual",
    "CovPred.C105_factor_covariance",
    "CovPred.C105_full_covariance"
   ],
   "note": "Factors and residuals are orthogonal"
  },
  {
   "property": "C106",
   "status": "proved",
   "theorems": [
    "CovPred.C106_pairing",
    "CovPred.C106_fresh",
    "CovPred.C106_days"
   ],
   "note": "A backtest pairs each date's prediction with the next row's returns"
  },
  {
   "property": "C107",
   "status": "proved",
   "theorems": [
    "CovPred.C107_constructor",
    "CovPred.C107_rows",
    "CovPred.C107_success",
    "CovPred.C107_missing_date",
    "CovPred.C107_posDef",
    "CovPred.C107_constructor_errors"
   ],
   "note": "When a backtest can be made and when it goes through"
  },
  {
   "property": "C108",
   "status": "proved",
   "theorems": [
    "CovPred.C108_equal_weights"
   ],
   "note": "EqWeighted earns the average return whatever the predictor"
  },
  {
   "property": "C109",
   "status": "proved",
   "theorems": [
    "CovPred.C109_min_risk",
    "CovPred.C109_max_diverse",
    "CovPred.C109_max_diverse_bound",
    "CovPred.C109_risk_parity",
    "CovPred.C109_mean_variance"
   ],
   "note": "Each strategy is optimal day by day under that day's prediction"
  },
  {
   "property": "C110",
   "status": "proved",
   "theorems": [
    "CovPred.C110_local",
    "CovPred.C110_no_lookahead",
    "CovPred.C110_window_causal"
   ],
   "note": "Backtests do not look ahead"
  },
  {
   "property": "C111",
   "status": "proved",
   "theorems": [
    "CovPred.C111_names",
    "CovPred.C111_alone",
    "CovPred.C111_too_few_names",
    "CovPred.C111_too_few_means"
   ],
   "note": "Backtest results are keyed by name and independent"
  },
  {
   "property": "C112",
   "status": "proved",
   "theorems": [
    "CovPred.C112_table",
    "CovPred.C112_stale_target"
   ],
   "note": "What the printed table says"
  },
  {
   "property": "C113",
   "status": "proved",
   "theorems": [
    "CovPred.C113_recency",
    "CovPred.C113_optimal",
    "CovPred.C113_singular",
    "CovPred.C113_lengths"
   ],
   "note": "The ridge weights are the optimum of the stated regression"
  },
  {
   "property": "C114",
   "status": "proved",
   "theorems": [
    "CovPred.C114_fit",
    "CovPred.C114_success",
    "CovPred.C114_rejects",
    "CovPred.C114_positive_alpha"
   ],
   "note": "ReturnCombinator.fit predicts every row after the first memory rows"
  },
  {
   "property": "C115",
   "status": "proved",
   "theorems": [
    "CovPred.C115_no_lookahead"
   ],
   "note": "ReturnCombinator.fit does not look ahead"
  },
  {
   "property": "C116",
   "status": "proved",
   "theorems": [
    "CovPred.C116_scales"
   ],
   "note": "The penalty of a predictor is the decayed average of its past squares"
  },
  {
   "property": "C117",
   "status": "proved",
   "theorems": [
    "CovPred.C117_split",
    "CovPred.C117_lossless"
   ],
   "note": "feature_engineer splits predictions into positive and negative parts without loss"
  },
  {
   "property": "C118",
   "status": "proved",
   "theorems": [
    "CovPred.C118_daily",
    "CovPred.C118_daily_causal",
    "CovPred.C118_ewma",
    "CovPred.C118_chain"
   ],
   "note": "Lagged and averaged predictors, and the chain to the prediction, are causal"
  },
  {
   "property": "C119",
   "status": "proved",
   "theorems": [
    "CovPred.C119_conditions",
    "CovPred.C119_zero",
    "CovPred.C119_exists",
    "CovPred.C119_unique_fit",
    "CovPred.C119_fit",
    "CovPred.C119_variants",
    "CovPred.C119_no_lookahead",
    "CovPred.C119_misaligned"
   ],
   "note": "The lasso combination is optimal on each window"
  },
  {
   "property": "C120",
   "status": "proved",
   "theorems": [
    "CovPred.C120_entries",
    "CovPred.C120_correlation",
    "CovPred.C120_error"
   ],
   "note": "tune_alpha reports each alpha's own correlation and error"
  },
  {
   "property": "C121",
   "status": "proved",
   "theorems": [
    "CovPred.C121_rho",
    "CovPred.C121_pairs",
    "CovPred.C121_facts",
    "CovPred.C121_two_rows",
    "CovPred.C121_no_lookahead"
   ],
   "note": "construct_rho is a causal multiple of the standard deviation"
  },
  {
   "property": "C122",
   "status": "proved",
   "theorems": [
    "CovPred.C122_mean_variance",
    "CovPred.C122_risk_parity"
   ],
   "note": "Workers of mean_variance and risk_parity solve each date with that date's data"
  },
  {
   "property": "C123",
   "status": "proved",
   "theorems": [
    "CovPred.C123_succeeds_iff",
    "CovPred.C123_never",
    "CovPred.C123_failed",
    "CovPred.C123_history",
    "CovPred.C123_mixed",
    "CovPred.C123_unaffected",
    "CovPred.C123_weights",
    "CovPred.C123_exceptions"
   ],
   "note": "Trader.backtest: which calls succeed and what a failed call leaves"
  },
  {
   "property": "C124",
   "status": "proved",
   "theorems": [
    "CovPred.C124_agrees",
    "CovPred.C124_factor_form",
    "CovPred.C124_any_rank",
    "CovPred.C124_correlations",
    "CovPred.C124_pipeline",
    "CovPred.C124_realized"
   ],
   "note": "The vectorised helpers agree with the library"
  },
  {
   "property": "C125",
   "status": "proved",
   "theorems": [
    "CovPred.C125_average",
    "CovPred.C125_posSemidef",
    "CovPred.C125_errors",
    "CovPred.C125_shift_scale"
   ],
   "note": "realized_ewma averages the realised covariances of the labels before"
  },
  {
   "property": "C126",
   "status": "proved",
   "theorems": [
    "CovPred.C126_years",
    "CovPred.C126_value",
    "CovPred.C126_lengths",
    "CovPred.C126_leverage",
    "CovPred.C126_order"
   ],
   "note": "yearly_SR reports one annualised Sharpe ratio per calendar year"
  },
  {
   "property": "C127",
   "status": "proved",
   "theorems": [
    "CovPred.C127_optimal_iff",
    "CovPred.C127_support",
    "CovPred.C127_average",
    "CovPred.C127_gap",
    "CovPred.C127_solve"
   ],
   "note": "Optimality of the combination weights can be checked with K numbers"
  },
  {
   "property": "C128",
   "status": "proved",
   "theorems": [
    "CovPred.C128_near_best",
    "CovPred.C128_weights_close",
    "CovPred.C128_weight_error",
    "CovPred.C128_predictions_converge"
   ],
   "note": "An inexact solver gives nearly optimal predictions"
  },
  {
   "property": "C129",
   "status": "proved",
   "theorems": [
    "CovPred.C129_no_lookahead",
    "CovPred.C129_earlier_call"
   ],
   "note": "The whole method does not look ahead"
  },
  {
   "property": "C130",
   "status": "proved",
   "theorems": [
    "CovPred.C130_succeeds",
    "CovPred.C130_units",
    "CovPred.C130_error"
   ],
   "note": "The whole method does not depend on units"
  },
  {
   "property": "C131",
   "status": "proved",
   "theorems": [
    "CovPred.C131_same_experts",
    "CovPred.C131_order_succeeds"
   ],
   "note": "Only the experts matter, not how the pairs are listed"
  },
  {
   "property": "C132",
   "status": "proved",
   "theorems": [
    "CovPred.C132_results",
    "CovPred.C132_schedule"
   ],
   "note": "What the whole method yields"
  },
  {
   "property": "C133",
   "status": "proved",
   "theorems": [
    "CovPred.C133_natural_window",
    "CovPred.C133_panel",
    "CovPred.C133_negative_window",
    "CovPred.C133_negative_window_panel"
   ],
   "note": "solve accepts every integer window"
  },
  {
   "property": "C134",
   "status": "proved",
   "theorems": [
    "CovPred.C134_unsorted",
    "CovPred.C134_decreasing",
    "CovPred.C134_decreasing_window_one",
    "CovPred.C134_index"
   ],
   "note": "solve needs sorted times"
  },
  {
   "property": "C135",
   "status": "proved",
   "theorems": [
    "CovPred.C135_smoothed",
    "CovPred.C135_any",
    "CovPred.C135_shape",
    "CovPred.C135_valid",
    "CovPred.C135_causal",
    "CovPred.C135_errors"
   ],
   "note": "L1 smoothing is an optimal trade-off over all matrices"
  },
  {
   "property": "C136",
   "status": "proved",
   "theorems": [
    "CovPred.C136_average",
    "CovPred.C136_valid",
    "CovPred.C136_causal"
   ],
   "note": "EWMA smoothing of covariances"
  },
  {
   "property": "C137",
   "status": "proved",
   "theorems": [
    "CovPred.C137_value",
    "CovPred.C137_laws"
   ],
   "note": "Relative change of a covariance sequence"
  },
  {
   "property": "C138",
   "status": "proved",
   "theorems": [
    "CovPred.C138_samples",
    "CovPred.C138_given",
    "CovPred.C138_errors",
    "CovPred.C138_posSemidef"
   ],
   "note": "Generative mode draws from the half-life average of data and samples"
  },
  {
   "property": "C139",
   "status": "proved",
   "theorems": [
    "CovPred.C139_experiment"
   ],
   "note": "Sampling experiment"
  },
  {
   "property": "C140",
   "status": "proved",
   "theorems": [
    "CovPred.C140_prescient"
   ],
   "note": "The prescient predictor"
  },
  {
   "property": "C141",
   "status": "proved",
   "theorems": [
    "CovPred.C141_prescient_likelihood"
   ],
   "note": "How far the prescient predictor is from the best one"
  },
  {
   "property": "C142",
   "status": "proved",
   "theorems": [
    "CovPred.C142_prescient_means"
   ],
   "note": "The prescient predictor with means"
  },
  {
   "property": "C143",
   "status": "proved",
   "theorems": [
    "CovPred.C143_unpack",
    "CovPred.C143_save_and_load",
    "CovPred.C143_history"
   ],
   "note": "Covariances survive being saved and read"
  },
  {
   "property": "C144",
   "status": "proved",
   "theorems": [
    "CovPred.C144_get_choleskys"
   ],
   "note": "Full covariances as factor models"
  },
  {
   "property": "C145",
   "status": "proved",
   "theorems": [
    "CovPred.C145_tune_returns",
    "CovPred.C145_arguments"
   ],
   "note": "tune_returns cuts each row at its own quantiles"
  },
  {
   "property": "C146",
   "status": "proved",
   "theorems": [
    "CovPred.C146_tune_equivariance"
   ],
   "note": "tune_returns does not depend on units, origin or order"
  },
  {
   "property": "C147",
   "status": "proved",
   "theorems": [
    "CovPred.C147_tune_returns2"
   ],
   "note": "tune_returns2 marks the extreme entries of a row"
  },
  {
   "property": "C148",
   "status": "proved",
   "theorems": [
    "CovPred.C148_autocorrelations",
    "CovPred.C148_shifted",
    "CovPred.C148_lagged",
    "CovPred.C148_missing"
   ],
   "note": "Moving autocorrelations"
  },
  {
   "property": "C149",
   "status": "proved",
   "theorems": [
    "CovPred.C149_sign_prediction",
    "CovPred.C149_limits"
   ],
   "note": "Sign predictions pick the ten largest and the ten smallest"
  },
  {
   "property": "C150",
   "status": "proved",
   "theorems": [
    "CovPred.C150_days",
    "CovPred.C150_prediction",
    "CovPred.C150_success",
    "CovPred.C150_exceptions"
   ],
   "note": "What CM-IEWMA predicts"
  },
  {
   "property": "C151",
   "status": "proved",
   "theorems": [
    "CovPred.C151_no_lookahead"
   ],
   "note": "CM-IEWMA does not look ahead"
  },
  {
   "property": "C152",
   "status": "proved",
   "theorems": [
    "CovPred.C152_fit",
    "CovPred.C152_sampling"
   ],
   "note": "Returns sampled from CM-IEWMA"
  },
  {
   "property": "C153",
   "status": "proved",
   "theorems": [
    "CovPred.C153_units",
    "CovPred.C153_succeeds"
   ],
   "note": "CM-IEWMA does not depend on units"
  },
  {
   "property": "C154",
   "status": "proved",
   "theorems": [
    "CovPred.C154_expert",
    "CovPred.C154_portfolio",
    "CovPred.C154_diagonal",
    "CovPred.C154_psd",
    "CovPred.C154_singular",
    "CovPred.C154_min_periods",
    "CovPred.C154_affine",
    "CovPred.C154_two_rows"
   ],
   "note": "Experts from pandas' exponentially weighted covariances"
  },
  {
   "property": "C155",
   "status": "proved",
   "theorems": [
    "CovPred.C155_days",
    "CovPred.C155_prediction",
    "CovPred.C155_success",
    "CovPred.C155_no_lookahead",
    "CovPred.C155_exceptions"
   ],
   "note": "The second README example"
  },
  {
   "property": "C156",
   "status": "proved",
   "theorems": [
    "CovPred.C156_units"
   ],
   "note": "The second README example does not depend on units"
  },
  {
   "property": "C157",
   "status": "proved",
   "theorems": [
    "CovPred.C157_returns",
    "CovPred.C157_complete",
    "CovPred.C157_compound",
    "CovPred.C157_units",
    "CovPred.C157_no_lookahead"
   ],
   "note": "Returns of the demo notebook from prices with gaps"
  },
  {
   "property": "C158",
   "status": "proved",
   "theorems": [
    "CovPred.C158_table",
    "CovPred.C158_units",
    "CovPred.C158_no_lookahead",
    "CovPred.C158_exceptions"
   ],
   "note": "The table of weights of the demo notebook"
  },
  {
   "property": "C159",
   "status": "proved",
   "theorems": [
    "CovPred.C159_min_risk",
    "CovPred.C159_min_risk_standard",
    "CovPred.C159_robust",
    "CovPred.C159_max_diverse",
    "CovPred.C159_risk_parity",
    "CovPred.C159_mean_variance",
    "CovPred.C159_mean_variance_target"
   ],
   "note": "The portfolio problems have a solution"
  },
  {
   "property": "C160",
   "status": "proved",
   "theorems": [
    "CovPred.C160_success",
    "CovPred.C160_room",
    "CovPred.C160_mean_variance"
   ],
   "note": "When a backtest goes through"
  },
  {
   "property": "C161",
   "status": "proved",
   "theorems": [
    "CovPred.C161_units",
    "CovPred.C161_succeeds"
   ],
   "note": "Weights do not depend on the units of the predictions or the solver"
  },
  {
   "property": "C162",
   "status": "proved",
   "theorems": [
    "CovPred.C162_order",
    "CovPred.C162_succeeds"
   ],
   "note": "The order of the assets does not matter to a backtest"
  },
  {
   "property": "C163",
   "status": "proved",
   "theorems": [
    "CovPred.C163_table",
    "CovPred.C163_mean_variance",
    "CovPred.C163_runs",
    "CovPred.C163_runs_mean_variance",
    "CovPred.C163_missing",
    "CovPred.C163_missing_mean_variance"
   ],
   "note": "The tables of the experiment notebooks"
  },
  {
   "property": "C164",
   "status": "proved",
   "theorems": [
    "CovPred.C164_portfolio",
    "CovPred.C164_no_lookahead",
    "CovPred.C164_success"
   ],
   "note": "From returns to a portfolio: no look-ahead"
  },
  {
   "property": "C165",
   "status": "proved",
   "theorems": [
    "CovPred.C165_units"
   ],
   "note": "From returns to a portfolio: units do not matter"
  },
  {
   "property": "C166",
   "status": "proved",
   "theorems": [
    "CovPred.C166_log_likelihood",
    "CovPred.C166_log_likelihood_errors",
    "CovPred.C166_regrets",
    "CovPred.C166_alignment",
    "CovPred.C166_no_prescient",
    "CovPred.C166_quarterly",
    "CovPred.C166_advantage",
    "CovPred.C166_table",
    "CovPred.C166_units"
   ],
   "note": "Log-likelihoods and regrets of the experiment notebooks"
  },
  {
   "property": "C167",
   "status": "proved",
   "theorems": [
    "CovPred.C167_first_day",
    "CovPred.C167_unbounded"
   ],
   "note": "The regret against PRESCIENT is one row late and not bounded below"
  },
  {
   "property": "C168",
   "status": "proved",
   "theorems": [
    "CovPred.C168_posDef",
    "CovPred.C168_days",
    "CovPred.C168_prediction",
    "CovPred.C168_success",
    "CovPred.C168_no_lookahead",
    "CovPred.C168_exceptions",
    "CovPred.C168_single_row",
    "CovPred.C168_few_rows"
   ],
   "note": "CM-REWMA: combination of realized covariances"
  },
  {
   "property": "C169",
   "status": "proved",
   "theorems": [
    "CovPred.C169_daily",
    "CovPred.C169_growth",
    "CovPred.C169_order"
   ],
   "note": "Daily from intraday returns"
  },
  {
   "property": "C170",
   "status": "proved",
   "theorems": [
    "CovPred.C170_days",
    "CovPred.C170_prediction",
    "CovPred.C170_success",
    "CovPred.C170_no_lookahead",
    "CovPred.C170_exceptions",
    "CovPred.C170_too_few"
   ],
   "note": "CM-IEWMA with means"
  },
  {
   "property": "C171",
   "status": "proved",
   "theorems": [
    "CovPred.C171_shift",
    "CovPred.C171_shift_succeeds",
    "CovPred.C171_units"
   ],
   "note": "CM-IEWMA with means: shifts and units"
  },
  {
   "property": "C172",
   "status": "proved",
   "theorems": [
    "CovPred.C172_range_band",
    "CovPred.C172_arguments",
    "CovPred.C172_how_far",
    "CovPred.C172_too_narrow",
    "CovPred.C172_deviation_band",
    "CovPred.C172_worst_case",
    "CovPred.C172_worst_case_range",
    "CovPred.C172_no_lookahead",
    "CovPred.C172_units"
   ],
   "note": "Bands of forecasts"
  },
  {
   "property": "C173",
   "status": "proved",
   "theorems": [
    "CovPred.C173_weights",
    "CovPred.C173_cells",
    "CovPred.C173_years",
    "CovPred.C173_average",
    "CovPred.C173_effective",
    "CovPred.C173_mean"
   ],
   "note": "Yearly weights of the experts and effective half-life"
  },
  {
   "property": "C174",
   "status": "proved",
   "theorems": [
    "CovPred.C174_chronological",
    "CovPred.C174_order",
    "CovPred.C174_decreasing",
    "CovPred.C174_lookahead"
   ],
   "note": "The order of the rows"
  },
  {
   "property": "C175",
   "status": "proved",
   "theorems": [
    "CovPred.C175_covariance",
    "CovPred.C175_mean",
    "CovPred.C175_unbiased",
    "CovPred.C175_volatility",
    "CovPred.C175_variance",
    "CovPred.C175_effective"
   ],
   "note": "Random returns: what the EWMA estimates"
  },
  {
   "property": "C176",
   "status": "proved",
   "theorems": [
    "CovPred.C176_covariance",
    "CovPred.C176_mean_covariance",
    "CovPred.C176_mse"
   ],
   "note": "The scores are proper"
  },
  {
   "property": "C177",
   "status": "proved",
   "theorems": [
    "CovPred.C177_variance",
    "CovPred.C177_min_risk",
    "CovPred.C177_min_risk_error",
    "CovPred.C177_mean_variance",
    "CovPred.C177_diluted"
   ],
   "note": "What a correct prediction buys"
  },
  {
   "property": "C178",
   "status": "proved",
   "theorems": [
    "CovPred.C178_no_gain",
    "CovPred.C178_min_risk",
    "CovPred.C178_diluted"
   ],
   "note": "Backtests on random histories"
  },
  {
   "property": "C179",
   "status": "proved",
   "theorems": [
    "CovPred.C179_table",
    "CovPred.C179_units",
    "CovPred.C179_files",
    "CovPred.C179_errors"
   ],
   "note": "The MGARCH predictors"
  },
  {
   "property": "C180",
   "status": "proved",
   "theorems": [
    "CovPred.C180_returns",
    "CovPred.C180_metrics",
    "CovPred.C180_excess",
    "CovPred.C180_target"
   ],
   "note": "Trading in percent"
  },
  {
   "property": "C181",
   "status": "proved",
   "theorems": [
    "CovPred.C181_consume",
    "CovPred.C181_isolated",
    "CovPred.C181_labels",
    "CovPred.C181_keys",
    "CovPred.C181_iterated_ewma"
   ],
   "note": "Generators are lazy and independent"
  },
  {
   "property": "C182",
   "status": "proved",
   "theorems": [
    "CovPred.C182_type_error",
    "CovPred.C182_array_version"
   ],
   "note": "The vectorised iterated_ewma of the experiments never returns"
  },
  {
   "property": "C183",
   "status": "proved",
   "theorems": [
    "CovPred.C183_row",
    "CovPred.C183_cell",
    "CovPred.C183_errors",
    "CovPred.C183_units",
    "CovPred.C183_order"
   ],
   "note": "The table of quarterly mean squared errors"
  },
  {
   "property": "C184",
   "status": "proved",
   "theorems": [
    "CovPred.C184_years",
    "CovPred.C184_value",
    "CovPred.C184_wealth",
    "CovPred.C184_bounds"
   ],
   "note": "Daily returns compounded to yearly ones"
  },
  {
   "property": "C185",
   "status": "proved",
   "theorems": [
    "CovPred.C185_cells",
    "CovPred.C185_scrambled",
    "CovPred.C185_wrong",
    "CovPred.C185_errors"
   ],
   "note": "The frame of portfolio values mixes up the traders"
  },
  {
   "property": "C186",
   "status": "proved",
   "theorems": [
    "CovPred.C186_frequency",
    "CovPred.C186_single",
    "CovPred.C186_units",
    "CovPred.C186_movement",
    "CovPred.C186_stable",
    "CovPred.C186_normalised"
   ],
   "note": "How often and how far smoothed covariances move"
  },
  {
   "property": "C187",
   "status": "proved",
   "theorems": [
    "CovPred.C187_mean",
    "CovPred.C187_cov",
    "CovPred.C187_variance",
    "CovPred.C187_volatility",
    "CovPred.C187_constants"
   ],
   "note": "Rounding errors of the EWMAs do not accumulate"
  },
  {
   "property": "C188",
   "status": "proved",
   "theorems": [
    "CovPred.C188_iterated_ewma"
   ],
   "note": "iterated_ewma is stable under rounding, for histories of any length"
  },
  {
   "property": "C189",
   "status": "proved",
   "theorems": [
    "CovPred.C189_monotone",
    "CovPred.C189_memory",
    "CovPred.C189_unclipped",
    "CovPred.C189_clipped_remembers"
   ],
   "note": "What the volatility remembers, with and without winsorisation"
  },
  {
   "property": "C190",
   "status": "proved",
   "theorems": [
    "CovPred.C190_more_experts",
    "CovPred.C190_zero_weights",
    "CovPred.C190_gain",
    "CovPred.C190_still_solves"
   ],
   "note": "Adding and leaving out experts"
  },
  {
   "property": "C191",
   "status": "proved",
   "theorems": [
    "CovPred.C191_well_conditioned",
    "CovPred.C191_not_with_mean"
   ],
   "note": "iterated_ewma is well conditioned without the mean, not with it"
  },
  {
   "property": "C192",
   "status": "proved",
   "theorems": [
    "CovPred.C192_continuous",
    "CovPred.C192_with_tolerance",
    "CovPred.C192_any_nearby"
   ],
   "note": "The combination depends continuously on its data"
  },
  {
   "property": "C193",
   "status": "proved",
   "theorems": [
    "CovPred.C193_rounded_experts"
   ],
   "note": "The whole method with experts computed with rounding"
  },
  {
   "property": "C194",
   "status": "proved",
   "theorems": [
    "CovPred.C194_iterated_ewma",
    "CovPred.C194_from_ewmas",
    "CovPred.C194_jump"
   ],
   "note": "The whole method depends continuously on the returns"
  },
  {
   "property": "C195",
   "status": "proved",
   "theorems": [
    "CovPred.C195_weights",
    "CovPred.C195_one_return"
   ],
   "note": "How far revised returns move the weights"
  },
  {
   "property": "C196",
   "status": "proved",
   "theorems": [
    "CovPred.C196_limit",
    "CovPred.C196_truth",
    "CovPred.C196_truth_without_mean",
    "CovPred.C196_right_expert"
   ],
   "note": "The combination learns the best blend"
  },
  {
   "property": "C197",
   "status": "proved",
   "theorems": [
    "CovPred.C197_min_risk",
    "CovPred.C197_risk_parity"
   ],
   "note": "How far another covariance prediction moves the portfolios"
  },
  {
   "property": "C198",
   "status": "proved",
   "theorems": [
    "CovPred.C198_tolerance",
    "CovPred.C198_fixed_tolerance"
   ],
   "note": "Learning the best blend does not need exact solutions"
  },
  {
   "property": "C199",
   "status": "proved",
   "theorems": [
    "CovPred.C199_rate",
    "CovPred.C199_request"
   ],
   "note": "How fast the combination learns the best blend"
  },
  {
   "property": "C200",
   "status": "proved",
   "theorems": [
    "CovPred.C200_error",
    "CovPred.C200_worst_case"
   ],
   "note": "How far factor regularisation moves the covariances"
  },
  {
   "property": "C201",
   "status": "proved",
   "theorems": [
    "CovPred.C201_stable",
    "CovPred.C201_continuous",
    "CovPred.C201_two_assets"
   ],
   "note": "How the regularised covariances depend on the covariances"
  },
  {
   "property": "C202",
   "status": "proved",
   "theorems": [
    "CovPred.C202_continuous",
    "CovPred.C202_repeated",
    "CovPred.C202_limit_points",
    "CovPred.C202_approaches"
   ],
   "note": "EM regularisation is continuous, and what repeating it leads to"
  },
  {
   "property": "C203",
   "status": "proved",
   "theorems": [
    "CovPred.C203_predictions",
    "CovPred.C203_portfolio"
   ],
   "note": "From returns to portfolio weights: a small revision of the returns has a small effect"
  },
  {
   "property": "C204",
   "status": "proved",
   "theorems": [
    "CovPred.C204_online",
    "CovPred.C204_continue",
    "CovPred.C204_results_not_enough"
   ],
   "note": "iterated_ewma can be run online, but not from its results"
  },
  {
   "property": "C205",
   "status": "proved",
   "theorems": [
    "CovPred.C205_online",
    "CovPred.C205_bounded",
    "CovPred.C205_continue"
   ],
   "note": "CM-IEWMA can be run online with bounded memory"
  },
  {
   "property": "C206",
   "status": "proved",
   "theorems": [
    "CovPred.C206_forgets",
    "CovPred.C206_not_with_clip"
   ],
   "note": "How fast iterated_ewma forgets the past, and when it does not"
  },
  {
   "property": "C207",
   "status": "proved",
   "theorems": [
    "CovPred.C207_forgets"
   ],
   "note": "How soon CM-IEWMA forgets the past"
  },
  {
   "property": "C208",
   "status": "proved",
   "theorems": [
    "CovPred.C208_later_start"
   ],
   "note": "What a longer history changes in iterated_ewma"
  },
  {
   "property": "C209",
   "status": "proved",
   "theorems": [
    "CovPred.C209_cm_later_start"
   ],
   "note": "What a longer history changes in CM-IEWMA"
  }
 ]
}